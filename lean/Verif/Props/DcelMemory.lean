import Verif.Props.Walk
import Mathlib.Algebra.BigOperators.Group.List.Basic

/-! # Memory of the half-edge structure (C93)

Freed half edges are `none` in `Dcel.edges`; a second `delete` of one and every use of a freed one make the model undefined. -/

namespace River
variable {K : Type}

/-! ## Specification -/

/-- Everything the structure points at exists. -/
structure Dcel.Sound (d : Dcel K) (s : WalkSt) : Prop where
  /-- the ends of a half edge are points of the structure that list it, as leaving and as arriving -/
  listed : ∀ (i : Nat) (e : HEdge K), d.edges[i]? = some (some e) → ∃ p q, d.points[e.start]? = some p ∧ d.points[e.fin]? = some q ∧
    (⟨i, true⟩ : PEdge) ∈ p.edges ∧ (⟨i, false⟩ : PEdge) ∈ q.edges
  /-- what a point lists are half edges that have not been freed and leave or arrive there -/
  entries : ∀ (k : Nat) (p : DPoint K), d.points[k]? = some p → ∀ x ∈ p.edges, ∃ e, d.edges[x.edge]? = some (some e) ∧
    (if x.emit then e.start else e.fin) = k
  /-- and it lists none of them twice -/
  once : ∀ p ∈ d.points, p.edges.Nodup
  /-- twins have not been freed -/
  twin : ∀ (i : Nat) (e : HEdge K), d.edges[i]? = some (some e) → ∃ j f, e.twin = some j ∧ d.edges[j]? = some (some f) ∧ f.twin = some i
  /-- nor have the half edges before and after in the same face, which point back -/
  next : ∀ (i : Nat) (e : HEdge K), d.edges[i]? = some (some e) → ∃ j f, s.g.next i = some j ∧ d.edges[j]? = some (some f) ∧ s.g.prev j = some i
  prev : ∀ (i : Nat) (e : HEdge K), d.edges[i]? = some (some e) → ∃ j f, s.g.prev i = some j ∧ d.edges[j]? = some (some f) ∧ s.g.next j = some i
  /-- nor those at which the faces begin -/
  faces : ∀ a ∈ s.faces, ∃ e, d.edges[a]? = some (some e)

/-- The blocks still allocated: points, half edges that have not been freed, faces (`decl.cpp:358, 451, 471, 489`). Class `dcel` has no
destructor (`dcel.h:144-175`), so they stay when it is destroyed. -/
def Dcel.blocks (d : Dcel K) (s : WalkSt) : Nat := d.points.length + d.live.length + s.faces.length

/-- A call of `add_line` that adds nothing: its ends are the same. -/
def DCall.Idle [FNum K] : DCall K → Prop
  | .type _ => True
  | .line x1 y1 x2 y2 => ((x1 ==. x2) && (y1 ==. y2)) = true

/-! ## No half edge is listed twice -/

/-- The lists of the points hold no entry twice. -/
def Dcel.Once (d : Dcel K) : Prop := ∀ (k : Nat) (p : DPoint K), d.points[k]? = some p → p.edges.Nodup

theorem Dcel.Once.findOrAdd [FNum K] {d : Dcel K} (h : d.Once) (q : Vec2 K) : (d.findOrAdd q).1.Once := by
  unfold Dcel.findOrAdd
  split
  · exact h
  · intro k p hp
    dsimp only at hp
    rw [List.getElem?_append] at hp
    split at hp
    · exact h k p hp
    · cases hk : k - d.points.length with
      | zero => rw [hk] at hp; simp at hp; subst hp; exact List.nodup_nil
      | succ n => rw [hk] at hp; simp at hp

theorem Dcel.Once.newLine {d : Dcel K} (w : d.Wf) (h : d.Once) (s e : Nat) : (d.newLine s e).1.Once := by
  intro k p hp
  unfold Dcel.newLine at hp
  dsimp only at hp
  rw [addPEdge_get, addPEdge_get, Option.map_map] at hp
  obtain ⟨r, hr, hrp⟩ := Option.map_eq_some_iff.1 hp
  have hno : ∀ b, (⟨d.edges.length, b⟩ : PEdge) ∉ r.edges := by
    intro b hb
    obtain ⟨y, hy, _⟩ := (w.entry k r hr _ b).1 hb
    simp at hy
  have hn := h k r hr
  rw [← hrp]
  simp only [Function.comp]
  by_cases h1 : s = k <;> by_cases h2 : e = k
  · simp only [h1, h2, if_true]
    rw [List.append_assoc]
    refine List.Nodup.append hn (by simp) ?_
    intro x hx hx2
    simp at hx2
    rcases hx2 with rfl | rfl
    · exact hno _ hx
    · exact hno _ hx
  · simp only [h1, h2, if_true, if_false]
    refine List.Nodup.append hn (by simp) ?_
    intro x hx hx2
    simp at hx2
    subst hx2
    exact hno _ hx
  · simp only [h1, h2, if_true, if_false]
    refine List.Nodup.append hn (by simp) ?_
    intro x hx hx2
    simp at hx2
    subst hx2
    exact hno _ hx
  · simp only [h1, h2, if_false]
    exact hn

theorem Dcel.Once.addLine [FNum K] {d : Dcel K} (w : d.Wf) (h : d.Once) (x1 y1 x2 y2 : K) : (d.addLine x1 y1 x2 y2).Once := by
  unfold Dcel.addLine
  split
  · exact h
  · obtain ⟨a1, _, _, _⟩ := w.findOrAdd ⟨x1, y1⟩
    obtain ⟨b1, _, _, _⟩ := a1.findOrAdd ⟨x2, y2⟩
    exact ((h.findOrAdd _).findOrAdd _).newLine b1 _ _

theorem Dcel.Once.points {d d' : Dcel K} (h : d.Once) (e : d'.points = d.points) : d'.Once := by
  unfold Dcel.Once
  rw [e]; exact h

theorem meet_points [FNum K] {d d' : Dcel K} {l r : Nat} (h : d.meet l r = some d') : d'.points = d.points := by
  unfold Dcel.meet at h
  obtain ⟨_, _, h⟩ := Option.bind_eq_some_iff.1 h
  obtain ⟨_, _, h⟩ := Option.bind_eq_some_iff.1 h
  obtain ⟨_, _, h⟩ := Option.bind_eq_some_iff.1 h
  injection h with h
  rw [← h]; rfl

theorem Dcel.Once.meetAll [FNum K] (cs : List (Nat × Nat)) : ∀ {d d' : Dcel K}, d.Once → d.meetAll cs = some d' → d'.Once := by
  induction cs with
  | nil => intro d d' h hm; rw [Dcel.meetAll] at hm; injection hm with hm; rw [← hm]; exact h
  | cons c cs ih =>
    intro d d' h hm
    rw [Dcel.meetAll] at hm
    obtain ⟨d1, h1, hm⟩ := Option.bind_eq_some_iff.1 hm
    exact ih (h.points (meet_points h1)) hm

theorem Dcel.Once.chain [FNum K] (bp : List (Vec2 K)) : ∀ {d : Dcel K}, d.Wf → d.Once → ∀ cur fin, cur < d.points.length → fin < d.points.length →
    (d.chain cur fin bp).1.Once := by
  induction bp with
  | nil => intro d w h cur fin _ _; exact h.newLine w cur fin
  | cons p ps ih =>
    intro d w h cur fin hc hf
    obtain ⟨a1, a2, a3, a4⟩ := w.findOrAdd p
    obtain ⟨b1, b2⟩ := a1.newLine cur (d.findOrAdd p).2 (by omega) a2
    exact ih b1 ((h.findOrAdd p).newLine a1 cur (d.findOrAdd p).2) (d.findOrAdd p).2 fin (by omega) (by omega)

theorem Dcel.Once.remove {d : Dcel K} (h : d.Once) (a b id : Nat) (E : List (Option (HEdge K))) :
    ({ d with edges := E, points := removePEdge (removePEdge d.points a id) b id } : Dcel K).Once := by
  intro k p hp
  dsimp only at hp
  rw [removePEdge_get, removePEdge_get, Option.map_map] at hp
  obtain ⟨r, hr, hrp⟩ := Option.map_eq_some_iff.1 hp
  have hn := h k r hr
  rw [← hrp]
  simp only [Function.comp]
  by_cases h1 : a = k <;> by_cases h2 : b = k <;> simp only [h1, h2, if_true, if_false]
  · exact (hn.filter _).filter _
  · exact hn.filter _
  · exact hn.filter _
  · exact hn

/-! ## Breaking frees exactly what is replaced -/

/-- What one turn of the second loop of `process_break` does to the half edges. -/
theorem breakOne_edges [FNum K] {sort : Vec2 K → Vec2 K → List (Vec2 K) → List (Vec2 K)} (hs : ∀ s e l, (sort s e l).Perm l)
    {d d' : Dcel K} (w : d.Wf) (h : d.Once) {id : Nat} (hb : d.breakOne sort id = some d') :
    d'.Once ∧ ∃ e new, d.edges[id]? = some (some e) ∧
      d'.edges = (if e.breaks = [] then d.edges else d.edges.set id none) ++ new ∧ (∀ x ∈ new, ∃ y, x = some y) ∧
      new.length = if e.breaks = [] then 0 else e.breaks.length + 1 := by
  have hchain : ∀ (bp : List (Vec2 K)) (d : Dcel K) (cur fin : Nat), ∃ new, (d.chain cur fin bp).1.edges = d.edges ++ new ∧
      (∀ x ∈ new, ∃ y, x = some y) ∧ new.length = bp.length + 1 ∧ (d.chain cur fin bp).2 ≠ [] := by
    intro bp
    induction bp with
    | nil =>
      intro d cur fin
      exact ⟨[some ⟨cur, fin, none, d.cur, []⟩], rfl, by simp, rfl, by simp [Dcel.chain]⟩
    | cons p ps ih =>
      intro d cur fin
      obtain ⟨new, h1, h2, h3, _⟩ := ih ((d.findOrAdd p).1.newLine cur (d.findOrAdd p).2).1 (d.findOrAdd p).2 fin
      refine ⟨some ⟨cur, (d.findOrAdd p).2, none, (d.findOrAdd p).1.cur, []⟩ :: new, ?_, ?_, by simp [h3], by simp [Dcel.chain]⟩
      · show (((d.findOrAdd p).1.newLine cur (d.findOrAdd p).2).1.chain (d.findOrAdd p).2 fin ps).1.edges = _
        rw [h1]
        have : (d.findOrAdd p).1.edges = d.edges := by
          unfold Dcel.findOrAdd
          split <;> rfl
        show (d.findOrAdd p).1.edges ++ [_] ++ new = _
        rw [this, List.append_assoc]
        rfl
      · intro x hx
        rcases List.mem_cons.1 hx with rfl | hx
        · exact ⟨_, rfl⟩
        · exact h2 x hx
  unfold Dcel.breakOne at hb
  obtain ⟨o, ho, hb⟩ := Option.bind_eq_some_iff.1 hb
  obtain ⟨e, he, hb⟩ := Option.bind_eq_some_iff.1 hb
  obtain ⟨ps, hps, hb⟩ := Option.bind_eq_some_iff.1 hb
  obtain ⟨pe, hpe, hc⟩ := Option.bind_eq_some_iff.1 hb
  subst he
  clear hb
  rename' hc => hb
  dsimp only at hb
  unfold Dcel.breakEdge at hb
  have hlen : (sort ps.p pe.p e.breaks).length = e.breaks.length := (hs _ _ _).length_eq
  split at hb
  · rename_i hemp
    have hnil : e.breaks = [] := by
      rw [List.isEmpty_iff] at hemp
      rw [hemp] at hlen
      exact List.length_eq_zero_iff.1 hlen.symm
    simp only [List.isEmpty_nil, if_true, Option.some.injEq] at hb
    rw [← hb]
    exact ⟨h, e, [], ho, by simp [hnil], by simp, by simp [hnil]⟩
  · rename_i hemp
    have hnil : e.breaks ≠ [] := by
      intro hn
      exact hemp (List.isEmpty_iff.2 (List.length_eq_zero_iff.1 (by rw [hlen, hn]; rfl)))
    obtain ⟨h1, h2⟩ := w.ends id e ho
    obtain ⟨new, n1, n2, n3, n4⟩ := hchain (sort ps.p pe.p e.breaks) d e.start e.fin
    have o1 := Dcel.Once.chain (sort ps.p pe.p e.breaks) w h e.start e.fin h1 h2
    rw [if_neg (by rw [List.isEmpty_iff]; exact n4)] at hb
    injection hb with hb
    refine ⟨by rw [← hb]; exact o1.remove _ _ _ _, e, new, ho, ?_, n2, by rw [if_neg hnil, n3, hlen]⟩
    rw [← hb]
    dsimp only
    obtain ⟨hi, _⟩ := List.getElem?_eq_some_iff.1 ho
    rw [n1, if_neg hnil, List.set_append_left _ _ hi]

/-- The recorded break points of half edge number `i`. -/
def Dcel.breaksAt (d : Dcel K) (i : Nat) : List (Vec2 K) := (d.edges[i]?.join.map HEdge.breaks).getD []

theorem live_countP (d : Dcel K) : d.live.length = d.edges.countP Option.isSome := by
  unfold Dcel.live
  rw [← List.countP_eq_length_filter]
  have : ∀ E : List (Option (HEdge K)), (List.range E.length).countP (fun i => (E[i]?.join).isSome) = E.countP Option.isSome := by
    intro E
    induction E using List.reverseRecOn with
    | nil => rfl
    | append_singleton E x ih =>
      rw [List.length_append, List.length_singleton, List.range_succ, List.countP_append, List.countP_append, ← ih]
      congr 1
      · refine List.countP_congr ?_
        intro i hi
        rw [List.mem_range] at hi
        rw [List.getElem?_append_left hi]
      · simp only [List.countP_cons, List.countP_nil]
        simp
  exact this d.edges

/-- The second loop of `process_break`: a half edge is freed if and only if it has break points, those without stay as they are, and
there is one more half edge for every break point. -/
theorem breakAll_edges [FNum K] {sort : Vec2 K → Vec2 K → List (Vec2 K) → List (Vec2 K)} (hs : ∀ s e l, (sort s e l).Perm l)
    (ids : List Nat) (hn : ids.Nodup) : ∀ {d d' : Dcel K}, d.Wf → d.Once → (∀ i ∈ ids, i < d.edges.length) → d.breakAll sort ids = some d' →
    d'.Once ∧ d.edges.length ≤ d'.edges.length ∧
    (∀ i, i < d.edges.length → d'.edges[i]? = if i ∈ ids ∧ d.breaksAt i ≠ [] then some none else d.edges[i]?) ∧
    (∀ i, d.edges.length ≤ i → d'.edges[i]? ≠ some none) ∧
    d'.live.length = d.live.length + (ids.map (fun i => (d.breaksAt i).length)).sum := by
  induction ids with
  | nil =>
    intro d d' w h _ hb
    rw [Dcel.breakAll] at hb
    injection hb with hb
    subst hb
    refine ⟨h, le_refl _, by simp, ?_, by simp⟩
    intro i hi
    rw [List.getElem?_eq_none hi]; simp
  | cons id ids ih =>
    intro d d' w h hin hb
    rw [Dcel.breakAll] at hb
    obtain ⟨d1, h1, hb⟩ := Option.bind_eq_some_iff.1 hb
    obtain ⟨o1, e, new, he, hE, hnew, hlen⟩ := breakOne_edges hs w h h1
    have hid : id ∉ ids := (List.nodup_cons.1 hn).1
    have hlt : id < d.edges.length := (List.getElem?_eq_some_iff.1 he).1
    have hbr : d.breaksAt id = e.breaks := by unfold Dcel.breaksAt; rw [he]; rfl
    have hlen0 : (if e.breaks = [] then d.edges else d.edges.set id none).length = d.edges.length := by split <;> simp
    have hlen1 : d1.edges.length = d.edges.length + new.length := by rw [hE, List.length_append, hlen0]
    have hins : ∀ i ∈ ids, i < d.edges.length := fun i hi => hin i (List.mem_cons_of_mem _ hi)
    obtain ⟨r1, r2, r3, r4, r5⟩ := ih (List.nodup_cons.1 hn).2 (w.breakOne id h1) o1 (fun i hi => by have := hins i hi; omega) hb
    have hget : ∀ i, i < d.edges.length → d1.edges[i]? = if i = id ∧ e.breaks ≠ [] then some none else d.edges[i]? := by
      intro i hi
      rw [hE, List.getElem?_append_left (by rw [hlen0]; exact hi)]
      by_cases hbk : e.breaks = []
      · simp [hbk]
      · rw [if_neg hbk, List.getElem?_set]
        by_cases hii : id = i
        · subst hii
          simp [hbk, hlt]
        · have : ¬ i = id := fun hh => hii hh.symm
          simp [hii, this]
    have hbrs : ∀ i, i < d.edges.length → i ≠ id → d1.breaksAt i = d.breaksAt i := by
      intro i hi hne
      unfold Dcel.breaksAt
      rw [hget i hi, if_neg (fun hh => hne hh.1)]
    refine ⟨r1, by omega, ?_, ?_, ?_⟩
    · intro i hi
      rw [r3 i (by omega), hget i hi]
      by_cases hii : i = id
      · subst hii
        simp [hid, hbr]
      · rw [hbrs i hi hii]
        simp [hii]
    · intro i hi
      by_cases hi1 : i < d1.edges.length
      · rw [r3 i hi1]
        obtain ⟨y, hy⟩ : ∃ y, d1.edges[i]? = some (some y) := by
          rw [hE, List.getElem?_append_right (by rw [hlen0]; exact hi), hlen0]
          have hk : i - d.edges.length < new.length := by omega
          obtain ⟨y, hy⟩ := hnew _ (List.getElem_mem hk)
          exact ⟨y, by rw [List.getElem?_eq_getElem hk, hy]⟩
        have hyb : i ∈ ids → d1.breaksAt i = [] := by
          intro hmem
          have := hins i hmem
          omega
        split
        · rename_i hc
          exact absurd (hyb hc.1) hc.2
        · rw [hy]; simp
      · exact r4 i (by omega)
    · have hsum : (ids.map (fun i => (d1.breaksAt i).length)).sum = (ids.map (fun i => (d.breaksAt i).length)).sum := by
        congr 1
        refine List.map_congr_left ?_
        intro i hi
        rw [hbrs i (hins i hi) (fun hh => hid (hh ▸ hi))]
      have hnewc : new.countP Option.isSome = new.length := by
        rw [List.countP_eq_length]
        intro x hx
        obtain ⟨y, rfl⟩ := hnew x hx
        rfl
      rw [r5, hsum, List.map_cons, List.sum_cons, hbr, live_countP, live_countP, hE, List.countP_append, hnewc, hlen]
      by_cases hbk : e.breaks = []
      · simp [hbk]
      · rw [if_neg hbk, if_neg hbk]
        obtain ⟨hi, hg⟩ := List.getElem?_eq_some_iff.1 he
        have hset : (d.edges.set id none).countP Option.isSome + 1 = d.edges.countP Option.isSome := by
          rw [List.countP_set hi, hg]
          have : 0 < d.edges.countP Option.isSome := List.countP_pos_iff.2 ⟨some e, hg ▸ List.getElem_mem hi, rfl⟩
          simp
          omega
        omega

theorem buildTwin_points {d d' : Dcel K} {id : Nat} (w : d.Wf) (h : d.Once) (hb : d.buildTwin id = some d') :
    d'.Once ∧ d'.points.length = d.points.length := by
  unfold Dcel.buildTwin at hb
  obtain ⟨o, ho, hb⟩ := Option.bind_eq_some_iff.1 hb
  obtain ⟨e, he, hb⟩ := Option.bind_eq_some_iff.1 hb
  injection hb with hb
  rw [← hb]
  exact ⟨(h.newLine w e.fin e.start).points rfl, by dsimp only [Dcel.newLine]; rw [addPEdge_length, addPEdge_length]⟩

theorem buildTwins_points (ids : List Nat) : ∀ {d d' : Dcel K}, d.Wf → d.Once → d.buildTwins ids = some d' →
    d'.Once ∧ d'.points.length = d.points.length := by
  induction ids with
  | nil =>
    intro d d' w h hb
    rw [Dcel.buildTwins] at hb
    injection hb with hb
    rw [← hb]
    exact ⟨h, rfl⟩
  | cons id ids ih =>
    intro d d' w h hb
    rw [Dcel.buildTwins] at hb
    obtain ⟨d1, h1, hb⟩ := Option.bind_eq_some_iff.1 hb
    obtain ⟨k1, k2⟩ := buildTwin_points w h h1
    obtain ⟨k3, k4⟩ := ih (w.buildTwin id h1) k1 hb
    exact ⟨k3, k4.trans k2⟩

theorem breakAll_points [FNum K] {sort : Vec2 K → Vec2 K → List (Vec2 K) → List (Vec2 K)} (ids : List Nat) : ∀ {d d' : Dcel K}, d.Wf →
    d.breakAll sort ids = some d' → d.points.length ≤ d'.points.length := by
  induction ids with
  | nil => intro d d' w hb; rw [Dcel.breakAll] at hb; injection hb with hb; rw [hb]
  | cons id ids ih =>
    intro d d' w hb
    rw [Dcel.breakAll] at hb
    obtain ⟨d1, h1, hb⟩ := Option.bind_eq_some_iff.1 hb
    refine le_trans ?_ (ih (w.breakOne id h1) hb)
    unfold Dcel.breakOne at h1
    obtain ⟨o, ho, h1⟩ := Option.bind_eq_some_iff.1 h1
    obtain ⟨e, he, h1⟩ := Option.bind_eq_some_iff.1 h1
    obtain ⟨ps, hps, h1⟩ := Option.bind_eq_some_iff.1 h1
    obtain ⟨pe, hpe, h2⟩ := Option.bind_eq_some_iff.1 h1
    subst he
    dsimp only at h2
    unfold Dcel.breakEdge at h2
    obtain ⟨q1, q2⟩ := w.ends id e ho
    split at h2
    · simp only [List.isEmpty_nil, if_true, Option.some.injEq] at h2
      rw [h2]
    · obtain ⟨c1, c2, c3⟩ := Dcel.Wf.chain (sort ps.p pe.p e.breaks) w e.start e.fin q1 q2
      split at h2
      · injection h2 with h2
        rw [← h2]; exact c2
      · injection h2 with h2
        rw [← h2]
        dsimp only
        rw [removePEdge_length, removePEdge_length]
        exact c2

theorem after_once [FNum K] (cs : List (DCall K)) : (Dcel.after cs).Once := by
  unfold Dcel.after
  suffices ∀ d : Dcel K, d.Wf → d.Once → (cs.foldl DCall.run d).Once from this _ (Dcel.Wf.empty .subject) (by intro k p hp; simp at hp)
  induction cs with
  | nil => exact fun _ _ h => h
  | cons c cs ih =>
    intro d w h
    cases c with
    | type t => exact ih _ (w.cur t) (h.points rfl)
    | line x1 y1 x2 y2 => exact ih _ (w.addLine x1 y1 x2 y2) (h.addLine w x1 y1 x2 y2)

theorem cycle_prev {g : FaceGraph} {c : List Nat} (h : g.Cycle c) {x : Nat} (hx : x ∈ c) : ∃ y ∈ c, g.next y = some x ∧ g.prev x = some y := by
  obtain ⟨_, a, t, rfl, hl⟩ := h
  have key : ∀ z, z ∈ t ++ [a] → ∃ y ∈ a :: t, g.next y = some z ∧ g.prev z = some y := by
    intro z hz
    obtain ⟨n, hn, rfl⟩ := List.getElem_of_mem hz
    have hlen : n + 1 < (a :: t ++ [a]).length := by simpa using hn
    have := (List.isChain_iff_getElem.1 hl) n hlen
    refine ⟨(a :: t ++ [a])[n], ?_, ?_⟩
    · have hn' : n < (a :: t).length := by simpa using hn
      rw [List.getElem_append_left hn']
      exact List.getElem_mem hn'
    · simpa using this
  refine key x ?_
  rcases List.mem_cons.1 hx with rfl | hx
  · simp
  · exact List.mem_append_left _ hx

theorem cycle_next_back {g : FaceGraph} {c : List Nat} (h : g.Cycle c) {x : Nat} (hx : x ∈ c) : ∃ y ∈ c, g.next x = some y ∧ g.prev y = some x := by
  obtain ⟨y, hy, hn⟩ := cycle_next h hx
  obtain ⟨z, hz, h1, h2⟩ := cycle_prev h hy
  obtain ⟨hnd, a, t, rfl, hl⟩ := h
  refine ⟨y, hy, hn, ?_⟩
  obtain ⟨n, hn', rfl⟩ := List.getElem_of_mem hx
  have hlen : n + 1 < (a :: t ++ [a]).length := by simpa using hn'
  have := (List.isChain_iff_getElem.1 hl) n hlen
  rw [List.getElem_append_left hn'] at this
  have e : (a :: t ++ [a])[n + 1] = y := by
    have h3 := this.1
    rw [hn] at h3
    exact (Option.some.inj h3).symm
  rw [e] at this
  exact this.2

theorem modify_isSome (E : List (Option (HEdge K))) (i : Nat) (f : HEdge K → HEdge K) :
    (E.modify i (Option.map f)).map Option.isSome = E.map Option.isSome := by
  apply List.ext_getElem?
  intro j
  rw [List.getElem?_map, List.getElem?_map, getElem?_modify_map]
  split
  · rw [Option.map_map]
    congr 1
    funext x
    cases x <;> rfl
  · rfl

theorem live_isSome (d : Dcel K) : d.live.length = (d.edges.map Option.isSome).countP id := by
  rw [live_countP, List.countP_map]
  rfl

theorem buildTwins_live (ids : List Nat) : ∀ {d d' : Dcel K}, d.buildTwins ids = some d' →
    d'.live.length = d.live.length + ids.length := by
  induction ids with
  | nil =>
    intro d d' hb
    rw [Dcel.buildTwins] at hb
    injection hb with hb
    rw [hb]; rfl
  | cons id ids ih =>
    intro d d' hb
    rw [Dcel.buildTwins] at hb
    obtain ⟨d1, h1, hb⟩ := Option.bind_eq_some_iff.1 hb
    rw [ih hb, List.length_cons]
    unfold Dcel.buildTwin at h1
    obtain ⟨o, ho, h1⟩ := Option.bind_eq_some_iff.1 h1
    obtain ⟨e, he, h1⟩ := Option.bind_eq_some_iff.1 h1
    injection h1 with h1
    have : d1.live.length = d.live.length + 1 := by
      rw [live_isSome, live_isSome, ← h1]
      dsimp only [Dcel.newLine]
      rw [modify_isSome, modify_isSome, List.map_append, List.countP_append]
      rfl
    omega

theorem meetAll_isSome [FNum K] (cs : List (Nat × Nat)) : ∀ {d d' : Dcel K}, d.meetAll cs = some d' →
    d'.edges.map Option.isSome = d.edges.map Option.isSome := by
  induction cs with
  | nil =>
    intro d d' h
    rw [Dcel.meetAll] at h
    injection h with h
    rw [h]
  | cons c cs ih =>
    intro d d' h
    rw [Dcel.meetAll] at h
    obtain ⟨d1, h1, h⟩ := Option.bind_eq_some_iff.1 h
    rw [ih h]
    unfold Dcel.meet at h1
    obtain ⟨_, _, h1⟩ := Option.bind_eq_some_iff.1 h1
    obtain ⟨_, _, h1⟩ := Option.bind_eq_some_iff.1 h1
    obtain ⟨_, _, h1⟩ := Option.bind_eq_some_iff.1 h1
    injection h1 with h1
    rw [← h1]
    dsimp only [Dcel.addBreaks]
    rw [modify_isSome, modify_isSome]

/-- No half edge has been freed while lines were added. -/
theorem after_isSome [FNum K] (cs : List (DCall K)) : ∀ x ∈ (Dcel.after cs).edges, x.isSome = true := by
  unfold Dcel.after
  suffices ∀ d : Dcel K, (∀ x ∈ d.edges, x.isSome = true) → ∀ x ∈ (cs.foldl DCall.run d).edges, x.isSome = true from this _ (by simp)
  induction cs with
  | nil => exact fun _ h => h
  | cons c cs ih =>
    intro d h
    refine ih _ ?_
    cases c with
    | type t => exact h
    | line x1 y1 x2 y2 =>
      have hf : ∀ (d : Dcel K) q, (d.findOrAdd q).1.edges = d.edges := by
        intro d q
        unfold Dcel.findOrAdd
        split <;> rfl
      show ∀ x ∈ (d.addLine x1 y1 x2 y2).edges, _
      unfold Dcel.addLine
      split
      · exact h
      · intro x hx
        dsimp only [Dcel.newLine] at hx
        rw [hf, hf] at hx
        rcases List.mem_append.1 hx with hx | hx
        · exact h x hx
        · rw [List.mem_singleton.1 hx]; rfl

/-! ## The property -/

/-- **C93**: whatever lines were added, in whatever order sets are visited and sorts leave equal elements, `process` ends (provided that no pair of lines
overruns the result array of the line intersection, C14) without touching a freed half edge or freeing one again, and leaves no link to
a freed half edge behind. Let `d1` be the structure with the break points the broad phase has found: freed are exactly the half edges
with break points, and two half edges exist for every line and break point. -/
theorem process_sound [FNum K] {o : DOrder K} (ho : o.Ok) (calls : List (DCall K)) (hf : (Dcel.after calls).Fits) :
    ∃ d1 d s, (Dcel.after calls).meetAll ((Dcel.after calls).pairs o (o.iter (Dcel.after calls).live)) = some d1 ∧
      (Dcel.after calls).process o = some (d, s) ∧ d.Sound s ∧
      (∀ i : Nat, d.edges[i]? = some none ↔ ∃ e, d1.edges[i]? = some (some e) ∧ e.breaks ≠ []) ∧
      d.live.length = 2 * ((Dcel.after calls).live.length + ((Dcel.after calls).live.map (fun i => (d1.breaksAt i).length)).sum) := by
  have w0 := after_wf calls
  have on0 := after_once calls
  have sm0 := after_isSome calls
  obtain ⟨d0, hd0⟩ : ∃ d0, d0 = Dcel.after calls := ⟨_, rfl⟩
  rw [← hd0] at w0 on0 sm0 hf ⊢
  have hnd : (o.iter d0.live).Nodup := (ho.iter _).nodup_iff.2 (live_nodup d0)
  obtain ⟨d1, h1, l1⟩ := meetAll_defined (d0.pairs o (o.iter d0.live)) w0 hf (by
    rintro ⟨i, j⟩ hc
    obtain ⟨k1, k2, k3⟩ := pairs_sub o d0 _ hnd i j hc
    exact ⟨(ho.iter _).mem_iff.1 k1, (ho.iter _).mem_iff.1 k2, k3⟩)
  have w1 := Dcel.Wf.meetAll _ w0 h1
  have on1 := Dcel.Once.meetAll _ on0 h1
  have sm1 : ∀ i : Nat, d1.edges[i]? ≠ some none := by
    intro i hi
    have e := congrArg (fun l => l[i]?) (meetAll_isSome _ h1)
    simp only [List.getElem?_map] at e
    rw [hi] at e
    cases hk : d0.edges[i]? with
    | none => rw [hk] at e; simp at e
    | some x =>
      have := sm0 x (List.mem_of_getElem? hk)
      rw [hk] at e
      simp only [Option.map_some, Option.some.injEq] at e
      rw [← e] at this
      simp at this
  obtain ⟨d2, h2⟩ := breakAll_defined (sort := o.sortB) (o.iter d1.live) w1 ((ho.iter _).nodup_iff.2 (live_nodup d1))
    (fun i hi => (mem_live d1 i).1 ((ho.iter _).mem_iff.1 hi))
  have w2 := Dcel.Wf.breakAll _ w1 h2
  have hids : ∀ i ∈ o.iter d1.live, i < d1.edges.length := by
    intro i hi
    obtain ⟨e, he⟩ := (mem_live d1 i).1 ((ho.iter _).mem_iff.1 hi)
    exact (List.getElem?_eq_some_iff.1 he).1
  obtain ⟨on2, len2, get2, new2, live2⟩ := breakAll_edges ho.sortB (o.iter d1.live) ((ho.iter _).nodup_iff.2 (live_nodup d1)) w1 on1 hids h2
  obtain ⟨d3, h3⟩ := buildTwins_defined (o.iter d2.live) d2 (fun i hi => (mem_live d2 i).1 ((ho.iter _).mem_iff.1 hi))
  have w3 := Dcel.Wf.buildTwins _ w2 h3
  have t3 := twinned_of_build (ho.iter _) h3
  obtain ⟨on3, _⟩ := buildTwins_points _ w2 on2 h3
  have hids2 : ∀ i ∈ o.iter d2.live, i < d2.edges.length := by
    intro i hi
    obtain ⟨e, he⟩ := (mem_live d2 i).1 ((ho.iter _).mem_iff.1 hi)
    exact (List.getElem?_eq_some_iff.1 he).1
  obtain ⟨tw1, tw2, tw3⟩ := buildTwins_spec _ d2 d3 h3 ((ho.iter _).nodup_iff.2 (live_nodup d2)) hids2
  obtain ⟨s, cs, k1, k2, k3, k4, k5, k6⟩ := buildFace_spec ho w3 t3
  have hcyc : ∀ c ∈ cs, s.g.Cycle c := by
    intro c hc
    obtain ⟨n, hn, rfl⟩ := List.getElem_of_mem hc
    exact ((List.forall₂_iff_get.1 k2.1).2 n ((k2.1.length_eq).symm ▸ hn) hn).1
  have hlive : ∀ c ∈ cs, ∀ x ∈ c, ∃ e, d3.edges[x]? = some (some e) := fun c hc x hx =>
    (mem_live d3 x).1 (k3.mem_iff.1 (List.mem_flatten.2 ⟨c, hc, hx⟩))
  have hin : ∀ (i : Nat) (e : HEdge K), d3.edges[i]? = some (some e) → ∃ c ∈ cs, i ∈ c := fun i e he =>
    List.mem_flatten.1 (k3.mem_iff.2 ((mem_live d3 i).2 ⟨e, he⟩))
  have hfree : ∀ i : Nat, d3.edges[i]? = some none ↔ d2.edges[i]? = some none := by
    intro i
    by_cases hi : i < d2.edges.length
    · by_cases hmem : i ∈ o.iter d2.live
      · obtain ⟨k, hk, rfl⟩ := List.getElem_of_mem hmem
        obtain ⟨a, b, ha, hb, _⟩ := tw2 k hk
        obtain ⟨e, he⟩ := (mem_live d2 _).1 ((ho.iter _).mem_iff.1 hmem)
        rw [ha, he]; simp
      · rw [tw3 i hi hmem]
    · rw [List.getElem?_eq_none (not_lt.1 hi)]
      constructor
      · intro h
        have hlt : i < d3.edges.length := (List.getElem?_eq_some_iff.1 h).1
        have hk : i - d2.edges.length < (o.iter d2.live).length := by omega
        obtain ⟨a, b, ha, hb, _⟩ := tw2 _ hk
        rw [show d2.edges.length + (i - d2.edges.length) = i by omega, h] at hb
        simp at hb
      · intro h; simp at h
  refine ⟨d1, d3, s, h1, ?_, ⟨?_, ?_, ?_, ?_, ?_, ?_, ?_⟩, ?_, ?_⟩
  · unfold Dcel.process Dcel.processBreak
    rw [h1, Option.bind_some, h2, Option.bind_some, h3, Option.bind_some, k1]
    rfl
  · intro i e he
    obtain ⟨q1, q2⟩ := w3.ends i e he
    refine ⟨_, _, List.getElem?_eq_getElem q1, List.getElem?_eq_getElem q2, ?_, ?_⟩
    · exact (w3.entry _ _ (List.getElem?_eq_getElem q1) i true).2 ⟨e, he, rfl⟩
    · exact (w3.entry _ _ (List.getElem?_eq_getElem q2) i false).2 ⟨e, he, rfl⟩
  · rintro k p hp ⟨x, b⟩ hx
    exact (w3.entry k p hp x b).1 hx
  · intro p hp
    obtain ⟨k, hk, rfl⟩ := List.getElem_of_mem hp
    exact on3 k _ (List.getElem?_eq_getElem hk)
  · intro i e he
    obtain ⟨j, a, b, ha, hb, h5, h6, _⟩ := t3 i ((mem_live d3 i).2 ⟨e, he⟩)
    rw [he] at ha
    simp at ha
    subst ha
    exact ⟨j, b, h5, hb, h6⟩
  · intro i e he
    obtain ⟨c, hc, hi⟩ := hin i e he
    obtain ⟨y, hy, q1, q2⟩ := cycle_next_back (hcyc c hc) hi
    obtain ⟨f, hf⟩ := hlive c hc y hy
    exact ⟨y, f, q1, hf, q2⟩
  · intro i e he
    obtain ⟨c, hc, hi⟩ := hin i e he
    obtain ⟨y, hy, q1, q2⟩ := cycle_prev (hcyc c hc) hi
    obtain ⟨f, hf⟩ := hlive c hc y hy
    exact ⟨y, f, q2, hf, q1⟩
  · intro a ha
    obtain ⟨n, hn, rfl⟩ := List.getElem_of_mem ha
    have hn' : n < cs.length := k2.1.length_eq ▸ hn
    have := ((List.forall₂_iff_get.1 k2.1).2 n hn hn').2
    exact hlive _ (List.getElem_mem hn') _ (List.mem_of_mem_head? this)
  · intro i
    rw [hfree i]
    by_cases hi : i < d1.edges.length
    · rw [get2 i hi]
      obtain ⟨e, he⟩ : ∃ e, d1.edges[i]? = some (some e) := by
        cases hx : d1.edges[i] with
        | none => exact absurd (by rw [List.getElem?_eq_getElem hi, hx]) (sm1 i)
        | some e => exact ⟨e, by rw [List.getElem?_eq_getElem hi, hx]⟩
      have hmem : i ∈ o.iter d1.live := (ho.iter _).mem_iff.2 ((mem_live d1 i).2 ⟨e, he⟩)
      have hbr : d1.breaksAt i = e.breaks := by unfold Dcel.breaksAt; rw [he]; rfl
      rw [hbr, he]
      by_cases hb : e.breaks = []
      · simp [hb]
      · simp [hb, hmem]
    · constructor
      · intro h; exact absurd h (new2 i (not_lt.1 hi))
      · rintro ⟨e, he, _⟩
        exact absurd (List.getElem?_eq_some_iff.1 he).1 hi
  · rw [buildTwins_live _ h3, (ho.iter _).length_eq, live2, l1, ((ho.iter d0.live).map _).sum_eq]
    omega

/-- The structure holds nothing if and only if no line was added. -/
theorem after_empty [FNum K] (cs : List (DCall K)) : (Dcel.after cs).points = [] ↔ ∀ c ∈ cs, c.Idle := by
  have grow : ∀ (d : Dcel K) q, d.points.length ≤ (d.findOrAdd q).1.points.length ∧ 0 < (d.findOrAdd q).1.points.length := by
    intro d q
    unfold Dcel.findOrAdd
    split
    · rename_i i hi
      have := (List.findIdx?_eq_some_iff_findIdx_eq.1 hi).1
      exact ⟨le_refl _, by dsimp only; omega⟩
    · simp
  have step : ∀ (d : Dcel K) (c : DCall K), d.points.length ≤ (c.run d).points.length ∧ (¬ c.Idle → 0 < (c.run d).points.length) ∧
      (c.Idle → (c.run d).points = d.points) := by
    intro d c
    cases c with
    | type t => exact ⟨le_refl _, fun h => absurd trivial h, fun _ => rfl⟩
    | line x1 y1 x2 y2 =>
      show d.points.length ≤ (d.addLine x1 y1 x2 y2).points.length ∧ (¬ ((x1 ==. x2) && (y1 ==. y2)) = true → _) ∧
        (((x1 ==. x2) && (y1 ==. y2)) = true → (d.addLine x1 y1 x2 y2).points = d.points)
      unfold Dcel.addLine
      by_cases hi : ((x1 ==. x2) && (y1 ==. y2)) = true
      · rw [if_pos hi]
        exact ⟨le_refl _, fun h => absurd hi h, fun _ => rfl⟩
      · rw [if_neg hi]
        dsimp only [Dcel.newLine]
        rw [addPEdge_length, addPEdge_length]
        obtain ⟨g1, g2⟩ := grow d ⟨x1, y1⟩
        obtain ⟨g3, g4⟩ := grow (d.findOrAdd ⟨x1, y1⟩).1 ⟨x2, y2⟩
        refine ⟨by omega, fun _ => ?_, fun h => absurd h hi⟩
        show 0 < (d.addLine x1 y1 x2 y2).points.length
        unfold Dcel.addLine
        rw [if_neg hi]
        dsimp only [Dcel.newLine]
        rw [addPEdge_length, addPEdge_length]
        omega
  unfold Dcel.after
  suffices ∀ d : Dcel K, (cs.foldl DCall.run d).points = [] ↔ d.points = [] ∧ ∀ c ∈ cs, c.Idle by
    rw [this]; simp
  induction cs with
  | nil => intro d; simp
  | cons c cs ih =>
    intro d
    rw [List.foldl_cons, ih]
    obtain ⟨s1, s2, s3⟩ := step d c
    simp only [List.mem_cons, forall_eq_or_imp]
    constructor
    · rintro ⟨h1, h2⟩
      rw [h1] at s1 s2
      refine ⟨List.length_eq_zero_iff.1 (by simpa using s1), ?_, h2⟩
      by_contra hi
      simpa using s2 hi
    · rintro ⟨h1, h2, h3⟩
      exact ⟨by rw [s3 h2, h1], h3⟩

/-- **C93**, the part that fails: class `dcel` frees neither its points, nor the half edges that are left, nor its faces when it is
destroyed. The number of blocks it leaves behind is zero if and only if no line was added. -/
theorem dcel_leak [FNum K] {o : DOrder K} (ho : o.Ok) (calls : List (DCall K)) {d : Dcel K} {s : WalkSt}
    (h : (Dcel.after calls).process o = some (d, s)) : d.blocks s = 0 ↔ ∀ c ∈ calls, c.Idle := by
  obtain ⟨w3, t3, hb⟩ := twinned_of_process ho (after_wf calls) h
  obtain ⟨s', cs, k1, k2, k3, _⟩ := buildFace_spec ho w3 t3
  rw [hb] at k1
  injection k1 with k1
  subst k1
  unfold Dcel.process at h
  obtain ⟨d2, h1, h⟩ := Option.bind_eq_some_iff.1 h
  obtain ⟨d3, h3, h⟩ := Option.bind_eq_some_iff.1 h
  obtain ⟨s', h4, h5⟩ := Option.map_eq_some_iff.1 h
  obtain ⟨rfl, rfl⟩ := Prod.mk.inj h5
  unfold Dcel.processBreak at h1
  obtain ⟨d1, q1, q2⟩ := Option.bind_eq_some_iff.1 h1
  have w1 := Dcel.Wf.meetAll _ (after_wf calls) q1
  have w2 := Dcel.Wf.breakAll _ w1 q2
  have p1 : d1.points = (Dcel.after calls).points := by
    have : ∀ (cs : List (Nat × Nat)) (d d' : Dcel K), d.meetAll cs = some d' → d'.points = d.points := by
      intro cs
      induction cs with
      | nil => intro d d' hm; rw [Dcel.meetAll] at hm; injection hm with hm; rw [hm]
      | cons c cs ih =>
        intro d d' hm
        rw [Dcel.meetAll] at hm
        obtain ⟨d1, h1, hm⟩ := Option.bind_eq_some_iff.1 hm
        rw [ih _ _ hm, meet_points h1]
    exact this _ _ _ q1
  have p2 := breakAll_points _ w1 q2
  have p3 : d3.points.length = d2.points.length := by
    have : ∀ (ids : List Nat) (d d' : Dcel K), d.buildTwins ids = some d' → d'.points.length = d.points.length := by
      intro ids
      induction ids with
      | nil => intro d d' hm; rw [Dcel.buildTwins] at hm; injection hm with hm; rw [hm]
      | cons c cs ih =>
        intro d d' hm
        rw [Dcel.buildTwins] at hm
        obtain ⟨d1, h1, hm⟩ := Option.bind_eq_some_iff.1 hm
        rw [ih _ _ hm]
        unfold Dcel.buildTwin at h1
        obtain ⟨o, ho, h1⟩ := Option.bind_eq_some_iff.1 h1
        obtain ⟨e, he, h1⟩ := Option.bind_eq_some_iff.1 h1
        injection h1 with h1
        rw [← h1]
        dsimp only [Dcel.newLine]
        rw [addPEdge_length, addPEdge_length]
    exact this _ _ _ h3
  rw [← after_empty]
  unfold Dcel.blocks
  constructor
  · intro h0
    rw [← List.length_eq_zero_iff]
    rw [p1] at p2
    omega
  · intro h0
    have hno : ∀ (d : Dcel K), d.Wf → d.points = [] → d.live = [] := by
      intro d w hp
      rw [List.eq_nil_iff_forall_not_mem]
      intro i hi
      obtain ⟨e, he⟩ := (mem_live d i).1 hi
      have := (w.ends i e he).1
      rw [hp] at this
      simp at this
    rw [h0] at p1
    have l1 := hno d1 w1 p1
    have e2 : d2 = d1 := by
      have : o.iter d1.live = [] := by
        have := ho.iter d1.live
        rw [l1] at this ⊢
        exact this.eq_nil
      rw [this, Dcel.breakAll] at q2
      exact (Option.some.inj q2).symm
    have z3 : d3.points = [] := by
      rw [← List.length_eq_zero_iff, p3, e2, p1]; rfl
    have l3 := hno d3 w3 z3
    rw [l3] at k3
    have hcs : cs = [] := by
      cases cs with
      | nil => rfl
      | cons c cs =>
        have hc : s'.g.Cycle c := by
          have := k2.1
          cases hk : s'.faces with
          | nil => rw [hk] at this; cases this
          | cons a fs => rw [hk] at this; exact (List.forall₂_cons.1 this).1.1
        have := k3.eq_nil
        simp at this
        exact absurd this.1 (Cycle.ne_nil hc)
    have := k2.1.length_eq
    rw [hcs] at this
    rw [z3, l3, this]
    rfl

section finite
variable {R : Type} [Field R] [LinearOrder R] [IsStrictOrderedRing R]

/-- **C93** for finite coordinates without rounding: the result array always suffices. -/
theorem process_sound_exact {o : DOrder (Ext R)} (ho : o.Ok) (calls : List (DCall (Ext R))) (hc : ∀ c ∈ calls, c.Finite) :
    ∃ d s, (Dcel.after calls).process o = some (d, s) ∧ d.Sound s ∧ (d.blocks s = 0 ↔ ∀ c ∈ calls, c.Idle) := by
  obtain ⟨_, d, s, _, h1, h2, _⟩ := process_sound ho calls (fits_of_placed (after_placed calls hc))
  exact ⟨d, s, h1, h2, dcel_leak ho calls h1⟩

end finite

/-- Two crossing lines and a third one apart from them. -/
def crossApart : List (DCall ℚ) := [.line 0 0 2 2, .line 0 2 2 0, .line 5 0 5 1]

/-- C93, a case: of the three half edges the two that cross are freed and replaced by two each; with the twins ten half edges, seven
points and five faces stay behind. -/
theorem crossApart_memory : ((Dcel.after crossApart).process plainOrder).map (fun r =>
      ((List.range r.1.edges.length).filter (fun i => (r.1.edges[i]?.join).isNone), r.1.points.length, r.1.live.length, r.2.faces.length)) =
    some ([0, 1], 7, 10, 5) := by decide +kernel

end River
