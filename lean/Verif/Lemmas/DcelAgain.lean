import Verif.Spec.DcelAgain
import Verif.Props.Walk

/-! # What a later call of `dcel::process` finds and keeps -/

namespace River
variable {K : Type}

/-! ## Half edges keep their ends -/

/-- Half edges are added and deleted; those that stay keep their ends. -/
structure Dcel.Since (d d' : Dcel K) : Prop where
  len : d.edges.length ≤ d'.edges.length
  keep : ∀ i < d.edges.length, ∀ e', d'.edges[i]? = some (some e') →
    ∃ e, d.edges[i]? = some (some e) ∧ e.start = e'.start ∧ e.fin = e'.fin

theorem Dcel.Since.refl (d : Dcel K) : d.Since d := ⟨le_refl _, fun _ _ e' h => ⟨e', h, rfl, rfl⟩⟩

theorem Dcel.Since.trans {a b c : Dcel K} (h : a.Since b) (h' : b.Since c) : a.Since c := by
  refine ⟨h.len.trans h'.len, ?_⟩
  intro i hi e' he'
  obtain ⟨e, he, s1, f1⟩ := h'.keep i (lt_of_lt_of_le hi h.len) e' he'
  obtain ⟨e0, he0, s0, f0⟩ := h.keep i hi e he
  exact ⟨e0, he0, s0.trans s1, f0.trans f1⟩

theorem Dcel.Since.of_prefix {d d' : Dcel K} (h : d.edges <+: d'.edges) : d.Since d' := by
  obtain ⟨t, ht⟩ := h
  refine ⟨by rw [← ht]; simp, ?_⟩
  intro i hi e' he'
  rw [← ht, List.getElem?_append_left hi] at he'
  exact ⟨e', he', rfl, rfl⟩

theorem Dcel.Since.live {d d' : Dcel K} (h : d.Since d') {i : Nat} (hi : i < d.edges.length) (hl : i ∈ d'.live) : i ∈ d.live := by
  obtain ⟨e', he'⟩ := (mem_live d' i).1 hl
  obtain ⟨e, he, _⟩ := h.keep i hi e' he'
  exact (mem_live d i).2 ⟨e, he⟩

theorem Dcel.Since.ends {d d' : Dcel K} (h : d.Since d') {i : Nat} (hi : i ∈ d.live) (hl : i ∈ d'.live) :
    d'.startOf i = d.startOf i ∧ d'.graph.fin i = d.graph.fin i := by
  obtain ⟨e0, he0⟩ := (mem_live d i).1 hi
  obtain ⟨e', he'⟩ := (mem_live d' i).1 hl
  obtain ⟨e, he, h1, h2⟩ := h.keep i (List.getElem?_eq_some_iff.1 he0).1 e' he'
  rw [startOf_eq he, startOf_eq he', graph_fin_eq he, graph_fin_eq he']
  exact ⟨h1.symm, h2.symm⟩

theorem live_lt {d : Dcel K} {i : Nat} (hi : i ∈ d.live) : i < d.edges.length := by
  obtain ⟨e, he⟩ := (mem_live d i).1 hi
  exact (List.getElem?_eq_some_iff.1 he).1

theorem alive_iff (d : Dcel K) (i : Nat) : d.alive i = true ↔ i ∈ d.live := by
  rw [mem_live]
  unfold Dcel.alive
  rw [Option.isSome_iff_exists]
  constructor
  · rintro ⟨e, he⟩; exact ⟨e, Option.join_eq_some_iff.1 he⟩
  · rintro ⟨e, he⟩; exact ⟨e, by rw [he]; rfl⟩

theorem findOrAdd_edges [FNum K] (d : Dcel K) (q : Vec2 K) : (d.findOrAdd q).1.edges = d.edges := by
  unfold Dcel.findOrAdd
  split <;> rfl

theorem newLine_prefix (d : Dcel K) (s e : Nat) : d.edges <+: (d.newLine s e).1.edges := ⟨_, rfl⟩

theorem addLine_prefix [FNum K] (d : Dcel K) (x1 y1 x2 y2 : K) : d.edges <+: (d.addLine x1 y1 x2 y2).edges := by
  unfold Dcel.addLine
  split
  · exact List.prefix_rfl
  · have h := newLine_prefix ((d.findOrAdd ⟨x1, y1⟩).1.findOrAdd ⟨x2, y2⟩).1 (d.findOrAdd ⟨x1, y1⟩).2
      ((d.findOrAdd ⟨x1, y1⟩).1.findOrAdd ⟨x2, y2⟩).2
    rw [findOrAdd_edges, findOrAdd_edges] at h
    exact h

theorem run_prefix [FNum K] (d : Dcel K) (c : DCall K) : d.edges <+: (c.run d).edges := by
  cases c with
  | type t => exact List.prefix_rfl
  | line => exact addLine_prefix ..

theorem run_wf [FNum K] {d : Dcel K} (h : d.Wf) (c : DCall K) : (c.run d).Wf := by
  cases c with
  | type t => exact h.cur t
  | line x1 y1 x2 y2 => exact h.addLine x1 y1 x2 y2

theorem live_of_prefix {d d' : Dcel K} (h : d.edges <+: d'.edges) {i : Nat} (hi : i ∈ d.live) : i ∈ d'.live := by
  obtain ⟨e, he⟩ := (mem_live d i).1 hi
  obtain ⟨t, ht⟩ := h
  refine (mem_live d' i).2 ⟨e, ?_⟩
  rw [← ht, List.getElem?_append_left (List.getElem?_eq_some_iff.1 he).1, he]

theorem addBreaks_since [FNum K] (d : Dcel K) (k : Nat) (bs : List (Vec2 K)) : d.Since (d.addBreaks k bs) := by
  unfold Dcel.addBreaks
  refine ⟨by simp, ?_⟩
  intro i hi e' he'
  simp only [getElem?_modify_map] at he'
  split at he'
  · obtain ⟨o, ho, h⟩ := Option.map_eq_some_iff.1 he'
    obtain ⟨e, he, h2⟩ := Option.map_eq_some_iff.1 h
    subst he
    exact ⟨e, ho, by rw [← h2], by rw [← h2]⟩
  · exact ⟨e', he', rfl, rfl⟩

theorem meet_since [FNum K] {d d' : Dcel K} {l r : Nat} (h : d.meet l r = some d') : d.Since d' := by
  unfold Dcel.meet at h
  obtain ⟨⟨p0, p1⟩, _, h⟩ := Option.bind_eq_some_iff.1 h
  obtain ⟨⟨p2, p3⟩, _, h⟩ := Option.bind_eq_some_iff.1 h
  obtain ⟨⟨bl, br⟩, _, h⟩ := Option.bind_eq_some_iff.1 h
  injection h with h
  rw [← h]
  exact (addBreaks_since _ _ _).trans (addBreaks_since _ _ _)

theorem meetAll_since [FNum K] (cs : List (Nat × Nat)) : ∀ {d d' : Dcel K}, d.meetAll cs = some d' → d.Since d' := by
  induction cs with
  | nil => intro d d' h; rw [Dcel.meetAll] at h; injection h with h; rw [← h]; exact Dcel.Since.refl d
  | cons c cs ih =>
    intro d d' h
    rw [Dcel.meetAll] at h
    obtain ⟨d1, h1, h2⟩ := Option.bind_eq_some_iff.1 h
    exact (meet_since h1).trans (ih h2)

theorem breakOne_since [FNum K] {sort : Vec2 K → Vec2 K → List (Vec2 K) → List (Vec2 K)} {d d' : Dcel K} (h : d.Wf) (id : Nat)
    (hb : d.breakOne sort id = some d') : d.Since d' := by
  unfold Dcel.breakOne at hb
  obtain ⟨o, ho, hb⟩ := Option.bind_eq_some_iff.1 hb
  obtain ⟨e, he, hb⟩ := Option.bind_eq_some_iff.1 hb
  obtain ⟨ps, hps, hb⟩ := Option.bind_eq_some_iff.1 hb
  obtain ⟨pe, hpe, hc⟩ := Option.bind_eq_some_iff.1 hb
  subst he
  clear hb
  rename' hc => hb
  dsimp only at hb
  unfold Dcel.breakEdge at hb
  split at hb
  · simp only [List.isEmpty_nil, if_true, Option.some.injEq] at hb
    rw [← hb]; exact Dcel.Since.refl d
  · obtain ⟨h1, h2⟩ := h.ends id e ho
    obtain ⟨c1, c2, c3⟩ := Dcel.Wf.chain (sort ps.p pe.p e.breaks) h e.start e.fin h1 h2
    split at hb
    · injection hb with hb
      rw [← hb]; exact Dcel.Since.of_prefix c3
    · injection hb with hb
      rw [← hb]
      refine (Dcel.Since.of_prefix c3).trans ⟨by simp, ?_⟩
      intro i hi e' he'
      dsimp only at he'
      rw [List.getElem?_set] at he'
      split at he'
      · split at he' <;> simp at he'
      · exact ⟨e', he', rfl, rfl⟩

theorem breakAll_since [FNum K] {sort : Vec2 K → Vec2 K → List (Vec2 K) → List (Vec2 K)} (ids : List Nat) : ∀ {d d' : Dcel K}, d.Wf →
    d.breakAll sort ids = some d' → d.Since d' := by
  induction ids with
  | nil =>
    intro d d' h hb
    rw [Dcel.breakAll] at hb
    injection hb with hb
    rw [← hb]; exact Dcel.Since.refl d
  | cons id ids ih =>
    intro d d' h hb
    rw [Dcel.breakAll] at hb
    obtain ⟨d1, h1, hb⟩ := Option.bind_eq_some_iff.1 hb
    exact (breakOne_since h id h1).trans (ih (h.breakOne id h1) hb)

theorem processBreak_since [FNum K] {o : DOrder K} {d d' : Dcel K} (h : d.Wf) (hb : d.processBreak o = some d') : d.Since d' ∧ d'.Wf := by
  unfold Dcel.processBreak at hb
  obtain ⟨d1, k1, k2⟩ := Option.bind_eq_some_iff.1 hb
  have w1 := Dcel.Wf.meetAll _ h k1
  exact ⟨(meetAll_since _ k1).trans (breakAll_since _ w1 k2), Dcel.Wf.breakAll _ w1 k2⟩

theorem buildTwin_since {d d' : Dcel K} {id : Nat} (h : d.buildTwin id = some d') : d.Since d' ∧ ∀ i ∈ d.live, i ∈ d'.live := by
  obtain ⟨_, hlen, hoth, hid, e, e', he, he', s, f, _⟩ := buildTwin_spec d d' id h
  refine ⟨⟨by omega, ?_⟩, ?_⟩
  · intro i hi x hx
    by_cases hii : i = id
    · subst hii
      rw [he'] at hx
      simp only [Option.some.injEq] at hx
      subst hx
      exact ⟨e, he, s.symm, f.symm⟩
    · rw [hoth i hi hii] at hx
      exact ⟨x, hx, rfl, rfl⟩
  · intro i hi
    by_cases hii : i = id
    · subst hii; exact (mem_live d' _).2 ⟨e', he'⟩
    · obtain ⟨x, hx⟩ := (mem_live d i).1 hi
      exact (mem_live d' i).2 ⟨x, by rw [hoth i (List.getElem?_eq_some_iff.1 hx).1 hii]; exact hx⟩

theorem buildTwins_since (ids : List Nat) : ∀ {d d' : Dcel K}, d.buildTwins ids = some d' → d.Since d' ∧ ∀ i ∈ d.live, i ∈ d'.live := by
  induction ids with
  | nil => intro d d' h; rw [Dcel.buildTwins] at h; injection h with h; rw [← h]; exact ⟨Dcel.Since.refl d, fun _ h => h⟩
  | cons id ids ih =>
    intro d d' h
    rw [Dcel.buildTwins] at h
    obtain ⟨d1, h1, h2⟩ := Option.bind_eq_some_iff.1 h
    obtain ⟨a1, b1⟩ := buildTwin_since h1
    obtain ⟨a2, b2⟩ := ih h2
    exact ⟨a1.trans a2, fun i hi => b2 i (b1 i hi)⟩

/-! ## The links stay within the half edges -/

/-- Only half edges of `es` have a successor, and predecessors are the inverse of successors. -/
structure FaceGraph.Tied (es : List Nat) (g : FaceGraph) : Prop where
  dom : ∀ x, (g.next x).isSome → x ∈ es
  inv : ∀ x y, g.next x = some y ↔ g.prev y = some x

theorem rewire_next (g : FaceGraph) (e1 e2 e3 e4 x : Nat) : (g.rewire e1 e2 e3 e4).next x =
    if x = e3 then some e2 else if x = e1 then some e4 else g.next x := by
  unfold FaceGraph.rewire
  simp only [Function.update_apply]

theorem rewire_prev (g : FaceGraph) (e1 e2 e3 e4 x : Nat) : (g.rewire e1 e2 e3 e4).prev x =
    if x = e2 then some e3 else if x = e4 then some e1 else g.prev x := by
  unfold FaceGraph.rewire
  simp only [Function.update_apply]

theorem rewire_tied {es : List Nat} {g : FaceGraph} (h : g.Tied es) {e1 e2 e3 e4 : Nat} (h1 : g.next e1 = some e2) (h3 : g.next e3 = some e4) :
    (g.rewire e1 e2 e3 e4).Tied es := by
  refine ⟨?_, ?_⟩
  · intro x hx
    rw [rewire_next] at hx
    split at hx
    · rename_i e; subst e; exact h.dom _ (by rw [h3]; rfl)
    · split at hx
      · rename_i e; subst e; exact h.dom _ (by rw [h1]; rfl)
      · exact h.dom x hx
  · have p1 := (h.inv _ _).1 h1
    have p3 := (h.inv _ _).1 h3
    intro x y
    rw [rewire_next, rewire_prev]
    by_cases a3 : x = e3
    · subst a3
      rw [if_pos rfl]
      by_cases b2 : y = e2
      · subst b2; simp
      · rw [if_neg b2]
        by_cases b4 : y = e4
        · subst b4
          rw [if_pos rfl]
          constructor
          · intro k; injection k with k; exact absurd k.symm b2
          · intro k
            injection k with k
            subst k
            rw [h1] at h3
            exact h3
        · rw [if_neg b4, ← h.inv, h3]
          constructor
          · intro k; injection k with k; exact absurd k.symm b2
          · intro k; injection k with k; exact absurd k.symm b4
    · rw [if_neg a3]
      by_cases a1 : x = e1
      · subst a1
        rw [if_pos rfl]
        by_cases b2 : y = e2
        · subst b2
          rw [if_pos rfl]
          constructor
          · intro k
            injection k with k
            subst k
            rw [p1] at p3
            exact p3.symm
          · intro k; injection k with k; exact absurd k.symm a3
        · rw [if_neg b2]
          by_cases b4 : y = e4
          · subst b4; simp
          · rw [if_neg b4, ← h.inv, h1]
            constructor
            · intro k; injection k with k; exact absurd k.symm b4
            · intro k; injection k with k; exact absurd k.symm b2
      · rw [if_neg a1]
        by_cases b2 : y = e2
        · subst b2
          rw [if_pos rfl, h.inv, p1]
          constructor
          · intro k; injection k with k; exact absurd k.symm a1
          · intro k; injection k with k; exact absurd k.symm a3
        · rw [if_neg b2]
          by_cases b4 : y = e4
          · subst b4
            rw [if_pos rfl, h.inv, p3]
            constructor
            · intro k; injection k with k; exact absurd k.symm a3
            · intro k; injection k with k; exact absurd k.symm a1
          · rw [if_neg b4]; exact h.inv x y

theorem splitLoop_tied {es : List Nat} (g : FaceGraph) (hg : g.Tied es) (a : Nat) : ∀ (fuel cur : Nat) (index : List (Nat × Nat))
    (g' : FaceGraph) (f : Nat), splitLoop g a fuel cur index = some (some (g', f)) → g'.Tied es := by
  intro fuel
  induction fuel with
  | zero => intro cur index g' f h; simp [splitLoop] at h
  | succ fuel ih =>
    intro cur index g' f h
    rw [splitLoop] at h
    split at h
    · split at h
      · simp at h
      · split at h
        · simp at h
        · exact ih _ _ g' f h
    · split at h
      · rename_i e2 e4 h2 h4
        simp only [Option.some.injEq, Prod.mk.injEq] at h
        obtain ⟨rfl, rfl⟩ := h
        exact rewire_tied hg h2 h4
      · simp at h

theorem splitAll_tied {es : List Nat} (fuel : Nat) : ∀ (n : Nat) (g : FaceGraph) (todo done : List Nat) (g' : FaceGraph) (fs : List Nat),
    g.Tied es → splitAll g fuel n todo done = some (g', fs) → g'.Tied es := by
  intro n
  induction n with
  | zero =>
    intro g todo done g' fs hg h
    cases todo with
    | nil => simp only [splitAll, Option.some.injEq, Prod.mk.injEq] at h; rw [← h.1]; exact hg
    | cons => simp [splitAll] at h
  | succ n ih =>
    intro g todo done g' fs hg h
    cases todo with
    | nil => simp only [splitAll, Option.some.injEq, Prod.mk.injEq] at h; rw [← h.1]; exact hg
    | cons f t =>
      rw [splitAll] at h
      split at h
      · simp at h
      · rename_i g1 f1 hs
        exact ih _ _ _ _ _ (splitLoop_tied g hg f fuel f [] g1 f1 hs) h
      · exact ih _ _ _ _ _ hg h

/-- Links between half edges that exist can all be followed. -/
theorem only_eq {g : FaceGraph} (alive : Nat → Bool) (h1 : ∀ x y, g.next x = some y → alive x = true ∧ alive y = true) :
    g.only alive = g := by
  have : (g.only alive).next = g.next := by
    funext x
    unfold FaceGraph.only
    dsimp only
    cases hx : g.next x with
    | none => simp
    | some y =>
      obtain ⟨a, b⟩ := h1 x y hx
      simp [a, b]
  cases g
  unfold FaceGraph.only at *
  simp only [FaceGraph.mk.injEq, and_true] at *
  exact this

/-! ## The `face` fields do not matter for the walk -/

theorem walk_face (pts : Nat → List PEdge) (f f' e ls : Nat) : ∀ (fuel : Nat) (s : WalkSt) (cur : Nat) (φ : Nat → Option Nat),
    ∃ φ', walk pts f' e ls fuel { s with face := φ } cur = (walk pts f e ls fuel s cur).map (fun r => { r with face := φ' }) := by
  intro fuel
  induction fuel with
  | zero => intro s cur φ; exact ⟨φ, rfl⟩
  | succ fuel ih =>
    intro s cur φ
    simp only [walk]
    split
    · exact ⟨φ, rfl⟩
    · cases hg : getNext s.g (pts (s.g.fin cur)) cur with
      | none => exact ⟨φ, rfl⟩
      | some n =>
        simp only [Option.bind_some]
        split
        · exact ⟨Function.update φ cur (some f'), rfl⟩
        · exact ih { s with g := s.g.link cur n, face := Function.update s.face cur (some f) } n (Function.update φ cur (some f'))

theorem walkAll_face (pts : Nat → List PEdge) (start : Nat → Nat) (fuel : Nat) : ∀ (todo : List Nat) (s : WalkSt) (φ : Nat → Option Nat),
    ∃ φ', walkAll pts start fuel todo { s with face := φ } = (walkAll pts start fuel todo s).map (fun r => { r with face := φ' }) := by
  intro todo
  induction todo with
  | nil => intro s φ; exact ⟨φ, rfl⟩
  | cons e es ih =>
    intro s φ
    simp only [walkAll]
    split
    · exact ih s φ
    · obtain ⟨φ1, h1⟩ := walk_face pts s.faces.length s.faces.length e (start e) fuel { s with faces := s.faces ++ [e] } e φ
      dsimp only at h1
      rw [h1]
      cases hw : walk pts s.faces.length e (start e) fuel { s with faces := s.faces ++ [e] } e with
      | none => exact ⟨φ, rfl⟩
      | some s1 =>
        simp only [Option.map_some, Option.bind_some]
        exact ih s1 φ1

end River
