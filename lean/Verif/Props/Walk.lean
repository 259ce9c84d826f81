import Verif.Lemmas.DcelWf
import Verif.Props.Face
import Verif.Lemmas.DcelRun

/-! # Half-edge structure: faces of the whole process (C62, C63, C64) -/

namespace River
variable {K : Type}

/-! ## Splitting keeps faces connected -/

theorem splitLoop_geo (start : Nat → Nat) (g : FaceGraph) (a : Nat) (hg : ∀ x y, g.next x = some y → start y = g.fin x) :
    ∀ (fuel cur : Nat) (index : List (Nat × Nat)) (g' : FaceGraph) (f : Nat), (∀ v e, (v, e) ∈ index → g.fin e = v) →
    splitLoop g a fuel cur index = some (some (g', f)) → ∀ x y, g'.next x = some y → start y = g'.fin x := by
  intro fuel
  induction fuel with
  | zero => intro cur index g' f _ h; simp [splitLoop] at h
  | succ fuel ih =>
    intro cur index g' f hi h
    rw [splitLoop] at h
    split at h
    · split at h
      · simp at h
      · split at h
        · simp at h
        · refine ih _ _ g' f ?_ h
          intro v e hm
          rcases List.mem_cons.1 hm with hm | hm
          · obtain ⟨rfl, rfl⟩ := Prod.mk.inj hm; rfl
          · exact hi v e hm
    · rename_i e1 hl
      have hfe : g.fin e1 = g.fin cur := by
        rw [List.lookup_eq_some_iff] at hl
        obtain ⟨l1, l2, rfl, _⟩ := hl
        exact hi _ _ (by simp)
      split at h
      · rename_i e2 e4 h2 h4
        simp only [Option.some.injEq, Prod.mk.injEq] at h
        obtain ⟨rfl, rfl⟩ := h
        intro x y hxy
        have h2' := hg _ _ h2
        have h4' := hg _ _ h4
        change Function.update (Function.update g.next e1 (some e4)) cur (some e2) x = some y at hxy
        change start y = g.fin x
        rw [Function.update_apply] at hxy
        split at hxy
        · rename_i hx
          injection hxy with hxy
          rw [← hxy, hx, h2', hfe]
        · rw [Function.update_apply] at hxy
          split at hxy
          · rename_i hx
            injection hxy with hxy
            rw [← hxy, hx, h4', hfe]
          · exact hg x y hxy
      · simp at h

theorem splitAll_geo (start : Nat → Nat) (fuel : Nat) : ∀ (n : Nat) (g : FaceGraph) (todo done : List Nat) (g' : FaceGraph) (fs : List Nat),
    (∀ x y, g.next x = some y → start y = g.fin x) → splitAll g fuel n todo done = some (g', fs) →
    ∀ x y, g'.next x = some y → start y = g'.fin x := by
  intro n
  induction n with
  | zero =>
    intro g todo done g' fs hg h
    cases todo with
    | nil =>
      simp only [splitAll, Option.some.injEq, Prod.mk.injEq] at h
      rw [← h.1]; exact hg
    | cons a t => simp [splitAll] at h
  | succ n ih =>
    intro g todo done g' fs hg h
    cases todo with
    | nil =>
      simp only [splitAll, Option.some.injEq, Prod.mk.injEq] at h
      rw [← h.1]; exact hg
    | cons a t =>
      rw [splitAll] at h
      split at h
      · simp at h
      · rename_i g1 f1 hs
        refine ih g1 _ _ g' fs ?_ h
        exact splitLoop_geo start g a hg fuel a [] g1 f1 (by simp) hs
      · exact ih g _ _ g' fs hg h

/-! ## From the structure to the walking loop -/

theorem mem_live (d : Dcel K) (i : Nat) : i ∈ d.live ↔ ∃ e, d.edges[i]? = some (some e) := by
  unfold Dcel.live
  rw [List.mem_filter, List.mem_range]
  constructor
  · rintro ⟨_, h⟩
    rw [Option.isSome_iff_exists] at h
    obtain ⟨e, he⟩ := h
    exact ⟨e, Option.join_eq_some_iff.1 he⟩
  · rintro ⟨e, he⟩
    exact ⟨(List.getElem?_eq_some_iff.1 he).1, by rw [he]; rfl⟩

theorem live_nodup (d : Dcel K) : d.live.Nodup := List.nodup_range.filter _

theorem startOf_eq {d : Dcel K} {i : Nat} {e : HEdge K} (h : d.edges[i]? = some (some e)) : d.startOf i = e.start := by
  unfold Dcel.startOf; rw [h]; rfl

theorem graph_fin_eq {d : Dcel K} {i : Nat} {e : HEdge K} (h : d.edges[i]? = some (some e)) : d.graph.fin i = e.fin := by
  unfold Dcel.graph; simp only; rw [h]; rfl

/-- Every half edge has a twin. -/
def Dcel.Twinned (d : Dcel K) : Prop := ∀ i ∈ d.live, ∃ j, Twins d.edges i j

theorem balance_of_twinned {d : Dcel K} (ht : d.Twinned) (p : Nat) :
    (d.live.filter (fun x => d.startOf x == p)).length = (d.live.filter (fun x => d.graph.fin x == p)).length := by
  rw [← List.toFinset_card_of_nodup ((live_nodup d).filter _), ← List.toFinset_card_of_nodup ((live_nodup d).filter _)]
  let tw : Nat → Nat := fun i => ((d.edges[i]?.join).bind HEdge.twin).getD 0
  have key : ∀ i ∈ d.live, tw i ∈ d.live ∧ tw (tw i) = i ∧ d.startOf (tw i) = d.graph.fin i ∧ d.graph.fin (tw i) = d.startOf i := by
    intro i hi
    obtain ⟨j, a, b, ha, hb, ta, tb, h1, h2⟩ := ht i hi
    have hj : tw i = j := by
      show ((d.edges[i]?.join).bind HEdge.twin).getD 0 = j
      rw [ha]
      show (a.twin).getD 0 = j
      rw [ta]; rfl
    have hi' : tw j = i := by
      show ((d.edges[j]?.join).bind HEdge.twin).getD 0 = i
      rw [hb]
      show (b.twin).getD 0 = i
      rw [tb]; rfl
    rw [hj, hi', startOf_eq hb, graph_fin_eq ha, graph_fin_eq hb, startOf_eq ha]
    exact ⟨(mem_live d j).2 ⟨b, hb⟩, rfl, h2.symm, h1.symm⟩
  apply Finset.card_nbij' tw tw
  · intro i hi
    simp only [Finset.mem_coe, List.mem_toFinset, List.mem_filter, beq_iff_eq] at hi ⊢
    obtain ⟨k1, _, _, k4⟩ := key i hi.1
    exact ⟨k1, by rw [k4]; exact hi.2⟩
  · intro i hi
    simp only [Finset.mem_coe, List.mem_toFinset, List.mem_filter, beq_iff_eq] at hi ⊢
    obtain ⟨k1, _, k3, _⟩ := key i hi.1
    exact ⟨k1, by rw [k3]; exact hi.2⟩
  · intro i hi
    simp only [Finset.mem_coe, List.mem_toFinset, List.mem_filter, beq_iff_eq] at hi
    exact (key i hi.1).2.1
  · intro i hi
    simp only [Finset.mem_coe, List.mem_toFinset, List.mem_filter, beq_iff_eq] at hi
    exact (key i hi.1).2.1

theorem star_of_wf {o : DOrder K} (ho : o.Ok) {d : Dcel K} (h : d.Wf) (ht : d.Twinned) : Star (d.around o) d.startOf d.graph.fin d.live := by
  have hmem : ∀ p x b, (⟨x, b⟩ : PEdge) ∈ d.around o p ↔ ∃ e, d.edges[x]? = some (some e) ∧ e.at b = p := by
    intro p x b
    unfold Dcel.around
    rw [(ho.sortP d _).mem_iff]
    cases hp : d.points[p]? with
    | some q =>
      exact h.entry p q hp x b
    | none =>
      simp only [Option.map_none, Option.getD_none, List.not_mem_nil, false_iff, not_exists, not_and]
      intro e he hat
      obtain ⟨h1, h2⟩ := h.ends x e he
      have hlen := List.getElem?_eq_none_iff.1 hp
      unfold HEdge.at at hat
      split at hat <;> omega
  refine ⟨live_nodup d, ?_, ?_, balance_of_twinned ht⟩
  · intro p x
    rw [hmem, mem_live]
    constructor
    · rintro ⟨e, he, hat⟩
      exact ⟨⟨e, he⟩, by rw [startOf_eq he]; exact hat⟩
    · rintro ⟨⟨e, he⟩, hs⟩
      exact ⟨e, he, by rw [startOf_eq he] at hs; exact hs⟩
  · intro p x
    rw [hmem, mem_live]
    constructor
    · rintro ⟨e, he, hat⟩
      exact ⟨⟨e, he⟩, by rw [graph_fin_eq he]; exact hat⟩
    · rintro ⟨⟨e, he⟩, hs⟩
      exact ⟨e, he, by rw [graph_fin_eq he] at hs; exact hs⟩

/-- After `build_twin` every half edge has a twin. -/
theorem twinned_of_build {d d' : Dcel K} {ids : List Nat} (hp : ids.Perm d.live) (h : d.buildTwins ids = some d') : d'.Twinned := by
  have hlt : ∀ id ∈ ids, id < d.edges.length := by
    intro id hid
    obtain ⟨e, he⟩ := (mem_live d id).1 (hp.mem_iff.1 hid)
    exact (List.getElem?_eq_some_iff.1 he).1
  obtain ⟨h1, h2, h3⟩ := buildTwins_spec ids d d' h (hp.nodup_iff.2 (live_nodup d)) hlt
  intro i hi
  obtain ⟨e, he⟩ := (mem_live d' i).1 hi
  by_cases hi1 : i < d.edges.length
  · have hin : i ∈ ids := by
      by_contra hno
      rw [h3 i hi1 hno] at he
      exact hno (hp.mem_iff.2 ((mem_live d i).2 ⟨e, he⟩))
    obtain ⟨k, hk, rfl⟩ := List.getElem_of_mem hin
    exact ⟨_, h2 k hk⟩
  · have hlen := (List.getElem?_eq_some_iff.1 he).1
    have hk : i - d.edges.length < ids.length := by omega
    obtain ⟨a, b, ha, hb, ta, tb, e1, e2⟩ := h2 (i - d.edges.length) hk
    have hi2 : d.edges.length + (i - d.edges.length) = i := by omega
    rw [hi2] at hb ta
    exact ⟨ids[i - d.edges.length], b, a, hb, ha, tb, ta, e2.symm, e1.symm⟩

/-- `build_twin` runs through. -/
theorem buildTwins_defined (ids : List Nat) : ∀ (d : Dcel K), (∀ id ∈ ids, ∃ e, d.edges[id]? = some (some e)) →
    ∃ d', d.buildTwins ids = some d' := by
  induction ids with
  | nil => intro d _; exact ⟨d, rfl⟩
  | cons id ids ih =>
    intro d h
    obtain ⟨e, he⟩ := h id List.mem_cons_self
    have hb : ∃ d1, d.buildTwin id = some d1 := by
      unfold Dcel.buildTwin
      rw [he]
      exact ⟨_, rfl⟩
    obtain ⟨d1, hd1⟩ := hb
    obtain ⟨_, _, hsame, hlt, e0, e1, h0, h1, _⟩ := buildTwin_spec d d1 id hd1
    obtain ⟨d2, hd2⟩ := ih d1 (by
      intro j hj
      by_cases hji : j = id
      · rw [hji]; exact ⟨e1, h1⟩
      · obtain ⟨ej, hej⟩ := h j (List.mem_cons_of_mem _ hj)
        refine ⟨ej, ?_⟩
        rw [hsame j (List.getElem?_eq_some_iff.1 hej).1 hji]
        exact hej)
    refine ⟨d2, ?_⟩
    rw [Dcel.buildTwins, hd1]
    exact hd2

/-! ## The walking loop on a structure with twins -/

/-- The first part of `build_face` ends; its faces are cycles that hold every half edge once. -/
theorem walkFaces_spec {o : DOrder K} (ho : o.Ok) {d : Dcel K} (h : d.Wf) (ht : d.Twinned) :
    ∃ s cs, d.walkFaces o = some s ∧ Faces s.g s.faces cs ∧ cs.flatten.Perm d.live ∧ s.g.fin = d.graph.fin ∧
      (∀ x y, s.g.next x = some y → d.startOf y = s.g.fin x) ∧
      ∀ x, s.face x = cs.findIdx? (fun c => decide (x ∈ c.dropLast ∨ c = [x])) := by
  have S := star_of_wf ho h ht
  have W0 : Walking d.startOf d.live d.graph [] [] := by
    refine ⟨by simp, by simp, by simp, List.IsChain.nil, ?_, ?_, ?_, ?_⟩ <;> intros <;> simp_all [Dcel.graph]
  obtain ⟨s, cs, h1, h2, h3, h4, h5, h6⟩ := walkAll_spec (pts := d.around o) (d.live.length + 1) (le_refl _) (o.iter d.live)
    ⟨d.graph, fun _ => none, []⟩ [] S W0 (fun x hx => (ho.iter _).mem_iff.1 hx) List.Forall₂.nil (by intro x; rfl)
  simp only [List.nil_append] at h2 h3 h4 h5 h6
  refine ⟨s, cs, h1, ⟨?_, by simpa using h2.nodup⟩, ?_, h4, ?_, h6⟩
  · have : ∀ (l : List Nat) (cs' : List (List Nat)), List.Forall₂ (fun a c => c.head? = some a) l cs' → (∀ c ∈ cs', s.g.Cycle c) →
        List.Forall₂ (fun a c => s.g.Cycle c ∧ c.head? = some a) l cs' := by
      intro l cs' hf
      induction hf with
      | nil => intro _; exact .nil
      | cons hd tl ih => intro hc; exact .cons ⟨hc _ List.mem_cons_self, hd⟩ (ih (fun c hm => hc c (List.mem_cons_of_mem _ hm)))
    exact this _ _ h3 h2.cyc
  · apply (List.perm_ext_iff_of_nodup (by simpa using h2.nodup) (live_nodup d)).2
    intro x
    constructor
    · intro hx; exact h2.sub x (by simpa using hx)
    · intro hx; exact h5 x ((ho.iter _).mem_iff.2 hx)
  · intro x y hxy
    have := h2.geo x y hxy
    exact this

theorem flatten_perm_of_perm {l l' : List (List Nat)} (h : l.Perm l') : l.flatten.Perm l'.flatten := h.flatten

/-- `build_face` ends; its faces are cycles without repeated points that hold every half edge once. -/
theorem buildFace_spec {o : DOrder K} (ho : o.Ok) {d : Dcel K} (h : d.Wf) (ht : d.Twinned) :
    ∃ s cs, d.buildFace o = some s ∧ Faces s.g s.faces cs ∧ cs.flatten.Perm d.live ∧ (∀ c ∈ cs, s.g.Simple c) ∧ s.g.fin = d.graph.fin ∧
      ∀ x y, s.g.next x = some y → d.startOf y = s.g.fin x := by
  obtain ⟨s, cs, h1, h2, h3, h4, h5, _⟩ := walkFaces_spec ho h ht
  have hlen : cs.reverse.flatten.length = d.live.length := by
    rw [(List.reverse_perm cs).flatten.length_eq, h3.length_eq]
  obtain ⟨g', starts, cs', k1, k2, k3, k4, k5⟩ := splitAll_spec d.live.length (2 * d.live.length) s.g s.faces.reverse [] cs.reverse []
    (by
      rw [List.append_nil, List.append_nil]
      refine ⟨?_, ((List.reverse_perm cs).flatten.nodup_iff).2 h2.2⟩
      exact List.rel_reverse h2.1)
    (by rw [List.length_reverse, List.length_reverse]; exact h2.1.length_eq)
    (by simp) (by rw [List.append_nil, hlen]) (by rw [hlen]; omega)
  refine ⟨{ s with g := g', faces := starts }, cs', ?_, k3, ?_, k5, k2.trans h4, ?_⟩
  · unfold Dcel.buildFace
    rw [h1, Option.bind_some, k1]
    rfl
  · rw [List.append_nil] at k4
    exact k4.trans ((List.reverse_perm cs).flatten.trans h3)
  · exact splitAll_geo d.startOf d.live.length (2 * d.live.length) s.g s.faces.reverse [] g' starts h5 k1

/-! ## The whole process -/

theorem after_wf [FNum K] (cs : List (DCall K)) : (Dcel.after cs).Wf := by
  unfold Dcel.after
  suffices ∀ d : Dcel K, d.Wf → (cs.foldl DCall.run d).Wf from this _ (Dcel.Wf.empty .subject)
  induction cs with
  | nil => exact fun _ h => h
  | cons c cs ih =>
    intro d h
    refine ih _ ?_
    cases c with
    | type t => exact h.cur t
    | line x1 y1 x2 y2 => exact h.addLine x1 y1 x2 y2

theorem runs_of_live {d : Dcel K} {i : Nat} (hi : i ∈ d.live) : d.Runs i (d.startOf i) (d.graph.fin i) := by
  obtain ⟨e, he⟩ := (mem_live d i).1 hi
  exact ⟨e, he, (startOf_eq he).symm, (graph_fin_eq he).symm⟩

theorem runs_fin {d : Dcel K} {i a b : Nat} (h : d.Runs i a b) : a = d.startOf i ∧ b = d.graph.fin i := by
  obtain ⟨e, he, rfl, rfl⟩ := h
  exact ⟨(startOf_eq he).symm, (graph_fin_eq he).symm⟩

/-- In a cycle every element has its successor in the cycle. -/
theorem cycle_next {g : FaceGraph} {c : List Nat} (h : g.Cycle c) {x : Nat} (hx : x ∈ c) : ∃ y ∈ c, g.next x = some y := by
  obtain ⟨_, a, t, rfl, hl⟩ := h
  obtain ⟨n, hn, rfl⟩ := List.getElem_of_mem hx
  have hlen : n + 1 < (a :: t ++ [a]).length := by simpa using hn
  have := (List.isChain_iff_getElem.1 hl) n hlen
  refine ⟨(a :: t ++ [a])[n + 1], ?_, ?_⟩
  · have : (a :: t ++ [a])[n + 1] ∈ a :: t ++ [a] := List.getElem_mem _
    rcases List.mem_append.1 this with h | h
    · exact h
    · rw [List.mem_singleton] at h; rw [h]; exact List.mem_cons_self
  · rw [← this.1]
    congr 1
    rw [List.getElem_append_left hn]

theorem faced_of {d : Dcel K} {s : WalkSt} {cs : List (List Nat)} (h : Faces s.g s.faces cs) (hp : cs.flatten.Perm d.live)
    (hs : ∀ c ∈ cs, s.g.Simple c) (hfin : s.g.fin = d.graph.fin) (hgeo : ∀ x y, s.g.next x = some y → d.startOf y = s.g.fin x) :
    d.Faced s cs := by
  have hcyc : ∀ c ∈ cs, s.g.Cycle c := by
    intro c hc
    obtain ⟨n, hn, rfl⟩ := List.getElem_of_mem hc
    exact ((List.forall₂_iff_get.1 h.1).2 n ((h.1.length_eq).symm ▸ hn) hn).1
  refine ⟨h.1.imp (fun _ _ hh => hh.2), hcyc, hp, ?_, ?_⟩
  · intro c hc x hx
    obtain ⟨y, hy, hn⟩ := cycle_next (hcyc c hc) hx
    have lx : x ∈ d.live := hp.mem_iff.1 (List.mem_flatten.2 ⟨c, hc, hx⟩)
    have ly : y ∈ d.live := hp.mem_iff.1 (List.mem_flatten.2 ⟨c, hc, hy⟩)
    refine ⟨y, hy, d.startOf x, d.graph.fin x, d.graph.fin y, hn, runs_of_live lx, ?_⟩
    have := runs_of_live ly
    rwa [hgeo x y hn, hfin] at this
  · intro c hc
    have := hs c hc
    unfold FaceGraph.Simple at this
    rw [hfin] at this
    refine (List.pairwise_map.1 this).imp ?_
    intro x y hne a b p q hx hy
    rw [(runs_fin hx).2, (runs_fin hy).2]
    exact hne

/-- **C62**: whatever lines were added, in whatever order sets are visited and sorts leave equal elements, `process` ends without undefined
behaviour, provided that no pair of lines overruns the result array of the line intersection (C14). Afterwards every half edge has a
twin and lies in exactly one face; faces are closed, connected cycles that pass no point twice. -/
theorem process_faces [FNum K] {o : DOrder K} (ho : o.Ok) (calls : List (DCall K)) (hf : (Dcel.after calls).Fits) :
    ∃ d s cs, (Dcel.after calls).process o = some (d, s) ∧ (∀ i ∈ d.live, ∃ j ∈ d.live, Twins d.edges i j) ∧ d.Faced s cs := by
  have h0 := after_wf calls
  obtain ⟨d0, hd0⟩ : ∃ d0, d0 = Dcel.after calls := ⟨_, rfl⟩
  rw [← hd0] at h0 hf ⊢
  have hnd : (o.iter d0.live).Nodup := (ho.iter _).nodup_iff.2 (live_nodup d0)
  obtain ⟨d1, h1, l1⟩ := meetAll_defined (d0.pairs o (o.iter d0.live)) h0 hf (by
    rintro ⟨i, j⟩ hc
    obtain ⟨k1, k2, k3⟩ := pairs_sub o d0 _ hnd i j hc
    exact ⟨(ho.iter _).mem_iff.1 k1, (ho.iter _).mem_iff.1 k2, k3⟩)
  have w1 := Dcel.Wf.meetAll _ h0 h1
  obtain ⟨d2, h2⟩ := breakAll_defined (sort := o.sortB) (o.iter d1.live) w1 ((ho.iter _).nodup_iff.2 (live_nodup d1))
    (fun i hi => (mem_live d1 i).1 ((ho.iter _).mem_iff.1 hi))
  have w2 := Dcel.Wf.breakAll _ w1 h2
  obtain ⟨d3, h3⟩ := buildTwins_defined (o.iter d2.live) d2 (fun i hi => (mem_live d2 i).1 ((ho.iter _).mem_iff.1 hi))
  have w3 := Dcel.Wf.buildTwins _ w2 h3
  have t3 := twinned_of_build (ho.iter _) h3
  obtain ⟨s, cs, k1, k2, k3, k4, k5, k6⟩ := buildFace_spec ho w3 t3
  refine ⟨d3, s, cs, ?_, ?_, faced_of k2 k3 k4 k5 k6⟩
  · unfold Dcel.process Dcel.processBreak
    rw [h1, Option.bind_some, h2, Option.bind_some, h3, Option.bind_some, k1]
    rfl
  · intro i hi
    obtain ⟨j, hj⟩ := t3 i hi
    refine ⟨j, ?_, hj⟩
    obtain ⟨_, b, _, hb, _⟩ := hj
    exact (mem_live d3 j).2 ⟨b, hb⟩

/-! ## Finite coordinates without rounding -/

section finite
variable {R : Type} [Field R] [LinearOrder R] [IsStrictOrderedRing R]

/-- All coordinates given to `add_line` are finite doubles. -/
def DCall.Finite : DCall (Ext R) → Prop
  | .type _ => True
  | .line x1 y1 x2 y2 => ∃ a b : Vec2 R, (⟨x1, y1⟩ : Vec2 (Ext R)) = a.fin ∧ (⟨x2, y2⟩ : Vec2 (Ext R)) = b.fin ∧ a.InRange ∧ b.InRange

/-- Points have finite coordinates, half edges join different places. -/
def Dcel.Placed (d : Dcel (Ext R)) : Prop := ∀ (i : Nat) (e : HEdge (Ext R)), d.edges[i]? = some (some e) →
  ∃ a b : Vec2 R, a ≠ b ∧ a.InRange ∧ b.InRange ∧ (d.points.map (·.p))[e.start]? = some a.fin ∧ (d.points.map (·.p))[e.fin]? = some b.fin

omit [IsStrictOrderedRing R] in
theorem vec2Equiv_fin (a b : Vec2 R) : vec2Equiv a.fin b.fin = true ↔ a = b := by
  unfold vec2Equiv vec2Less Vec2.fin
  simp only [Ext.fin_lt, Ext.fin_eq, Bool.and_eq_true, Bool.not_eq_true', Bool.ite_eq_true_distrib]
  obtain ⟨ax, ay⟩ := a
  obtain ⟨bx, by'⟩ := b
  simp only [Vec2.mk.injEq]
  constructor
  · rintro ⟨h1, h2⟩
    by_cases k1 : ax < bx
    · simp [k1] at h1
    by_cases k2 : bx < ax
    · simp [k2] at h2
    have hx : ax = bx := le_antisymm (not_lt.1 k2) (not_lt.1 k1)
    subst hx
    simp at h1 h2
    exact ⟨rfl, le_antisymm h2 h1⟩
  · rintro ⟨rfl, rfl⟩
    simp

/-- Every point has finite coordinates. -/
def Dcel.FinPts (d : Dcel (Ext R)) : Prop := ∀ p ∈ d.points, ∃ a : Vec2 R, p.p = a.fin

omit [IsStrictOrderedRing R] in
theorem findOrAdd_fin {d : Dcel (Ext R)} (h : d.FinPts) (q : Vec2 R) : (d.findOrAdd q.fin).1.FinPts ∧
    ((d.findOrAdd q.fin).1.points.map (·.p))[(d.findOrAdd q.fin).2]? = some q.fin ∧
    d.points.map (·.p) <+: (d.findOrAdd q.fin).1.points.map (·.p) ∧ (d.findOrAdd q.fin).1.edges = d.edges := by
  unfold Dcel.findOrAdd
  cases hf : d.points.findIdx? (fun p => vec2Equiv p.p q.fin) with
  | some i =>
    refine ⟨h, ?_, List.prefix_rfl, rfl⟩
    obtain ⟨hi, hp, _⟩ := List.findIdx?_eq_some_iff_getElem.1 hf
    obtain ⟨a, ha⟩ := h _ (List.getElem_mem hi)
    rw [ha, vec2Equiv_fin] at hp
    dsimp only
    rw [List.getElem?_map, List.getElem?_eq_getElem hi, Option.map_some, ha, hp]
  | none =>
    refine ⟨?_, by simp, by simp, rfl⟩
    intro p hp
    rcases List.mem_append.1 hp with hp | hp
    · exact h p hp
    · rw [List.mem_singleton] at hp
      exact ⟨q, by rw [hp]⟩

omit [IsStrictOrderedRing R] in
theorem prefix_get {l l' : List (Vec2 (Ext R))} (h : l <+: l') {i : Nat} {q : Vec2 (Ext R)} (hq : l[i]? = some q) : l'[i]? = some q := by
  obtain ⟨t, rfl⟩ := h
  rw [List.getElem?_append_left (List.getElem?_eq_some_iff.1 hq).1, hq]

omit [IsStrictOrderedRing R] in
theorem after_placed (cs : List (DCall (Ext R))) (hc : ∀ c ∈ cs, c.Finite) : (Dcel.after cs).Placed := by
  unfold Dcel.after
  suffices ∀ d : Dcel (Ext R), d.FinPts → d.Placed → (cs.foldl DCall.run d).Placed from this _ (by intro p hp; simp at hp) (by intro i e he; simp at he)
  induction cs with
  | nil => exact fun _ _ h => h
  | cons c cs ih =>
    intro d hp h
    have hc1 := hc c List.mem_cons_self
    have ih := ih (fun c' hc' => hc c' (List.mem_cons_of_mem _ hc'))
    cases c with
    | type t => exact ih _ hp h
    | line x1 y1 x2 y2 =>
      obtain ⟨a, b, ha, hb, ra, rb⟩ := hc1
      have ha' : (⟨x1, y1⟩ : Vec2 (Ext R)) = ⟨.fin a.x, .fin a.y⟩ := ha
      have hb' : (⟨x2, y2⟩ : Vec2 (Ext R)) = ⟨.fin b.x, .fin b.y⟩ := hb
      simp only [Vec2.mk.injEq] at ha' hb'
      obtain ⟨rfl, rfl⟩ := ha'
      obtain ⟨rfl, rfl⟩ := hb'
      have hrun : DCall.run d (.line (.fin a.x) (.fin a.y) (.fin b.x) (.fin b.y)) =
        d.addLine (.fin a.x) (.fin a.y) (.fin b.x) (.fin b.y) := rfl
      rw [List.foldl_cons, hrun]
      unfold Dcel.addLine
      by_cases hab : a = b
      · rw [if_pos (by simp [hab])]
        exact ih d hp h
      · rw [if_neg (by
          simp only [Ext.fin_eq, Bool.and_eq_true, decide_eq_true_eq]
          rintro ⟨k1, k2⟩
          exact hab (by cases a; cases b; simp_all))]
        obtain ⟨f1, f2, f3, f4⟩ := findOrAdd_fin hp a
        obtain ⟨g1, g2, g3, g4⟩ := findOrAdd_fin f1 b
        refine ih _ ?_ ?_
        · intro p hp'
          have : p.p ∈ ((((d.findOrAdd a.fin).1.findOrAdd b.fin).1.newLine (d.findOrAdd a.fin).2
              ((d.findOrAdd a.fin).1.findOrAdd b.fin).2).1.points.map (·.p)) := List.mem_map.2 ⟨p, hp', rfl⟩
          rw [newLine_points] at this
          obtain ⟨p', h1, h2⟩ := List.mem_map.1 this
          rw [← h2]
          exact g1 p' h1
        · intro i e he
          have hpts : ((((d.findOrAdd a.fin).1.findOrAdd b.fin).1.newLine (d.findOrAdd a.fin).2
              ((d.findOrAdd a.fin).1.findOrAdd b.fin).2).1.points.map (·.p)) = _ := newLine_points _ _ _
          have he' : (((d.findOrAdd a.fin).1.findOrAdd b.fin).1.edges ++ [some ⟨(d.findOrAdd a.fin).2,
              ((d.findOrAdd a.fin).1.findOrAdd b.fin).2, none, ((d.findOrAdd a.fin).1.findOrAdd b.fin).1.cur, []⟩])[i]? = some (some e) := he
          have hgoal : ∃ a' b' : Vec2 R, a' ≠ b' ∧ a'.InRange ∧ b'.InRange ∧
              ((((d.findOrAdd a.fin).1.findOrAdd b.fin).1.points.map (·.p)))[e.start]? = some a'.fin ∧
              ((((d.findOrAdd a.fin).1.findOrAdd b.fin).1.points.map (·.p)))[e.fin]? = some b'.fin := by
            rw [g4, f4] at he'
            by_cases hlt : i < d.edges.length
            · rw [List.getElem?_append_left hlt] at he'
              obtain ⟨a', b', k1, k2, k3, k4, k5⟩ := h i e he'
              exact ⟨a', b', k1, k2, k3, prefix_get g3 (prefix_get f3 k4), prefix_get g3 (prefix_get f3 k5)⟩
            · rw [List.getElem?_append_right (by omega)] at he'
              have hee : e = ⟨(d.findOrAdd a.fin).2, ((d.findOrAdd a.fin).1.findOrAdd b.fin).2, none,
                  ((d.findOrAdd a.fin).1.findOrAdd b.fin).1.cur, []⟩ := by
                cases hk : i - d.edges.length with
                | zero => rw [hk] at he'; simpa using he'.symm
                | succ k => rw [hk] at he'; simp at he'
              rw [hee]
              exact ⟨a, b, hab, ra, rb, prefix_get g3 f2, g2⟩
          rw [← hpts] at hgoal
          exact hgoal

/-- Lines between different finite points never overrun the result array. -/
theorem fits_of_placed {d : Dcel (Ext R)} (h : d.Placed) : d.Fits := by
  intro i j p0 p1 p2 p3 _ hi hj
  have get : ∀ k q r, d.ends k = some (q, r) → ∃ a b : Vec2 R, a ≠ b ∧ a.InRange ∧ b.InRange ∧ q = a.fin ∧ r = b.fin := by
    intro k q r hk
    unfold Dcel.ends at hk
    obtain ⟨o, h1, hk⟩ := Option.bind_eq_some_iff.1 hk
    obtain ⟨e, h2, hk⟩ := Option.bind_eq_some_iff.1 hk
    obtain ⟨s, h3, hk⟩ := Option.bind_eq_some_iff.1 hk
    obtain ⟨f, h4, h5⟩ := Option.bind_eq_some_iff.1 hk
    rw [Option.some.injEq, Prod.mk.injEq] at h5
    rw [h2] at h1
    obtain ⟨a, b, k1, k2, k3, k4, k5⟩ := h k e h1
    rw [List.getElem?_map, h3] at k4
    rw [List.getElem?_map, h4] at k5
    simp only [Option.map_some, Option.some.injEq] at k4 k5
    exact ⟨a, b, k1, k2, k3, by rw [← h5.1, k4], by rw [← h5.2, k5]⟩
  obtain ⟨a, b, hab, ra, rb, rfl, rfl⟩ := get i p0 p1 hi
  obtain ⟨a', b', _, ra', _, rfl, rfl⟩ := get j p2 p3 hj
  obtain ⟨l, hl, _⟩ := lineIntersect_fits_partial a b a' b' hab ra' ra
  rw [hl]; rfl

/-- **C62** (exact arithmetic with the IEEE special values): for lines with finite coordinates `process` always ends without undefined
behaviour, and leaves twins and faces as in `process_faces`. -/
theorem process_faces_exact {o : DOrder (Ext R)} (ho : o.Ok) (calls : List (DCall (Ext R))) (hc : ∀ c ∈ calls, c.Finite) :
    ∃ d s cs, (Dcel.after calls).process o = some (d, s) ∧ (∀ i ∈ d.live, ∃ j ∈ d.live, Twins d.edges i j) ∧ d.Faced s cs :=
  process_faces ho calls (fits_of_placed (after_placed calls hc))

end finite

/-! ## The face of a half edge -/

theorem twinned_of_process [FNum K] {o : DOrder K} (ho : o.Ok) {d0 d : Dcel K} {s : WalkSt} (h0 : d0.Wf) (h : d0.process o = some (d, s)) :
    d.Wf ∧ d.Twinned ∧ d.buildFace o = some s := by
  unfold Dcel.process at h
  obtain ⟨d2, h1, h⟩ := Option.bind_eq_some_iff.1 h
  obtain ⟨d3, h3, h⟩ := Option.bind_eq_some_iff.1 h
  obtain ⟨s', h4, h5⟩ := Option.map_eq_some_iff.1 h
  obtain ⟨rfl, rfl⟩ := Prod.mk.inj h5
  unfold Dcel.processBreak at h1
  obtain ⟨d1, k1, k2⟩ := Option.bind_eq_some_iff.1 h1
  exact ⟨Dcel.Wf.buildTwins _ (Dcel.Wf.breakAll _ (Dcel.Wf.meetAll _ h0 k1) k2) h3, twinned_of_build (ho.iter _) h3, h4⟩

/-- **C64 is false of the code**, for every input: after `process` some half edge that exists has a null `face`, unless all half edges start and end at
the same point. -/
theorem face_null [FNum K] {o : DOrder K} (ho : o.Ok) (calls : List (DCall K)) {d : Dcel K} {s : WalkSt}
    (h : (Dcel.after calls).process o = some (d, s)) {i a b : Nat} (hi : d.Runs i a b) (hab : a ≠ b) :
    ∃ j ∈ d.live, s.face j = none := by
  obtain ⟨w, t, hb⟩ := twinned_of_process ho (after_wf calls) h
  obtain ⟨s', cs, h1, h2, h3, h4, h5, h6⟩ := walkFaces_spec ho w t
  have hface : s.face = s'.face := by
    unfold Dcel.buildFace at hb
    rw [h1, Option.bind_some] at hb
    obtain ⟨r, _, hr⟩ := Option.map_eq_some_iff.1 hb
    rw [← hr]
  have hil : i ∈ d.live := by
    obtain ⟨e, he, _⟩ := hi
    exact (mem_live d i).2 ⟨e, he⟩
  obtain ⟨c, hc, hic⟩ := List.mem_flatten.1 (h3.mem_iff.2 hil)
  have hcyc : s'.g.Cycle c := by
    obtain ⟨n, hn, rfl⟩ := List.getElem_of_mem hc
    exact ((List.forall₂_iff_get.1 h2.1).2 n ((h2.1.length_eq).symm ▸ hn) hn).1
  have hne : c ≠ [i] := by
    intro hci
    obtain ⟨y, hy, hn⟩ := cycle_next hcyc hic
    rw [hci, List.mem_singleton] at hy
    have := h5 i y hn
    rw [hy, h4, ← (runs_fin hi).1, ← (runs_fin hi).2] at this
    exact hab this
  have hc0 : c ≠ [] := List.ne_nil_of_mem hic
  have hlast := List.getLast_mem hc0
  refine ⟨c.getLast hc0, h3.mem_iff.1 (List.mem_flatten.2 ⟨c, hc, hlast⟩), ?_⟩
  rw [hface, h6, List.findIdx?_eq_none_iff]
  intro c' hc'
  rw [decide_eq_false_iff_not]
  have huniq : c.getLast hc0 ∈ c' → c' = c := by
    intro hm
    by_contra hcc
    have hd := (List.nodup_flatten.1 h2.2).2
    haveI : Std.Symm (fun l₁ l₂ : List Nat => l₁.Disjoint l₂) := ⟨fun _ _ h => h.symm⟩
    exact List.Pairwise.forall hd hc hc' (fun hh => hcc hh.symm) hlast hm
  have hnot : c.getLast hc0 ∉ c.dropLast := by
    have hnd : c.Nodup := hcyc.1
    intro hm
    rw [← List.dropLast_append_getLast hc0] at hnd
    exact (List.nodup_append.1 hnd).2.2 _ hm _ (List.mem_singleton.2 rfl) rfl
  rintro (hm | hm)
  · have := huniq (List.dropLast_subset _ hm)
    rw [this] at hm
    exact hnot hm
  · have hcc := huniq (by rw [hm]; exact List.mem_singleton.2 rfl)
    rw [hcc] at hm
    apply hne
    rw [hm] at hic ⊢
    rw [List.mem_singleton] at hic
    rw [← hic]

/-- **C64** (partial): with respect to the faces as first walked (`cs`), the `face` of a half edge, unless null, is the face it lies in, and
only the last half edge of a face has a null `face`. Missing: the last half edge (`face_null`), and faces that are split afterwards (`face_exact_partial`). -/
theorem face_partial [FNum K] {o : DOrder K} (ho : o.Ok) (calls : List (DCall K)) {d : Dcel K} {s : WalkSt}
    (h : (Dcel.after calls).process o = some (d, s)) : ∃ (s' : WalkSt) (cs : List (List Nat)), d.walkFaces o = some s' ∧
      List.Forall₂ (fun a c => s'.g.Cycle c ∧ c.head? = some a) s'.faces cs ∧ cs.flatten.Perm d.live ∧
      ∀ k (hk : k < cs.length), ∀ x ∈ cs[k], s.face x = some k ∨ (s.face x = none ∧ cs[k].getLast? = some x) := by
  obtain ⟨w, t, hb⟩ := twinned_of_process ho (after_wf calls) h
  obtain ⟨s', cs, h1, h2, h3, _, _, h6⟩ := walkFaces_spec ho w t
  have hface : s.face = s'.face := by
    unfold Dcel.buildFace at hb
    rw [h1, Option.bind_some] at hb
    obtain ⟨r, _, hr⟩ := Option.map_eq_some_iff.1 hb
    rw [← hr]
  refine ⟨s', cs, h1, h2.1, h3, ?_⟩
  rw [hface]
  · intro k hk x hx
    have hd := (List.nodup_flatten.1 h2.2).2
    have huniq : ∀ j (hj : j < cs.length), x ∈ cs[j] → j = k := by
      intro j hj hxj
      by_contra hjk
      rcases Nat.lt_or_gt_of_ne hjk with hlt | hlt
      · exact List.pairwise_iff_getElem.1 hd j k hj hk hlt hxj hx
      · exact List.pairwise_iff_getElem.1 hd k j hk hj hlt hx hxj
    by_cases hin : x ∈ cs[k].dropLast ∨ cs[k] = [x]
    · left
      rw [h6, List.findIdx?_eq_some_iff_getElem]
      refine ⟨hk, decide_eq_true hin, ?_⟩
      intro j hj hcon
      have hjl : j < cs.length := lt_trans hj hk
      have hxj : x ∈ cs[j] := by
        rcases of_decide_eq_true hcon with hm | hm
        · exact List.dropLast_subset _ hm
        · rw [hm]; exact List.mem_singleton.2 rfl
      exact absurd (huniq j hjl hxj) (by omega)
    · right
      push Not at hin
      constructor
      · rw [h6, List.findIdx?_eq_none_iff]
        intro c hc
        rw [decide_eq_false_iff_not]
        obtain ⟨j, hj, rfl⟩ := List.getElem_of_mem hc
        rintro (hm | hm)
        · have := huniq j hj (List.dropLast_subset _ hm)
          subst this
          exact hin.1 hm
        · have := huniq j hj (by rw [hm]; exact List.mem_singleton.2 rfl)
          subst this
          exact hin.2 hm
      · have hc0 : cs[k] ≠ [] := List.ne_nil_of_mem hx
        rw [List.getLast?_eq_some_getLast hc0, Option.some.injEq]
        have := hx
        rw [← List.dropLast_append_getLast hc0] at this
        rcases List.mem_append.1 this with hm | hm
        · exact absurd hm hin.1
        · exact (List.mem_singleton.1 hm).symm

/-! ## Which half edge is next -/

section turn
variable [FNum K] [LinearOrder K] [LawfulOrd K]

theorem peLess_angle {angle : PEdge → K} {addr : Nat → Nat} {a b : PEdge} (h : peLess angle addr b a = false) :
    angle a ≤ angle b ∧ (angle a = angle b → a.emit = false → b.emit = false) := by
  unfold peLess at h
  rw [lt_eq_decide, lt_eq_decide] at h
  split at h
  · exact absurd h (by simp)
  · rename_i h1
    have h1 : angle a ≤ angle b := not_lt.1 (by simpa using h1)
    refine ⟨h1, ?_⟩
    intro he ha
    rw [if_neg (by rw [decide_eq_true_eq, he]; exact lt_irrefl _), ha] at h
    cases hb : b.emit with
    | false => rfl
    | true => rw [hb] at h; simp at h

/-- **C63**: at a point whose list is sorted as `sort` leaves it, the half edge that follows an arriving half edge `e` is, among all leaving half edges
without predecessor, the first one met when turning counter-clockwise from the way back along `e`: the sharpest turn to the right. -/
theorem getNext_sharpest (angle : PEdge → K) (addr : Nat → Nat) (g : FaceGraph) (L : List PEdge)
    (hs : L.Pairwise (fun a b => peLess angle addr b a = false)) (e n : Nat) (hno : (⟨e, true⟩ : PEdge) ∉ L)
    (h : getNext g L e = some n) :
    (⟨n, true⟩ : PEdge) ∈ L ∧ g.prev n = none ∧
      ∀ x, (⟨x, true⟩ : PEdge) ∈ L → g.prev x = none → CcwLe (angle ⟨e, false⟩) (angle ⟨n, true⟩) (angle ⟨x, true⟩) := by
  unfold getNext at h
  obtain ⟨i, hi, h⟩ := Option.bind_eq_some_iff.1 h
  obtain ⟨pe, hf, hpe⟩ := Option.map_eq_some_iff.1 h
  obtain ⟨hil, hie, _⟩ := List.findIdx?_eq_some_iff_getElem.1 hi
  have hLi : L[i] = ⟨e, false⟩ := by
    have hie : L[i].edge = e := by simpa using hie
    have hm : L[i] ∈ L := List.getElem_mem _
    cases hb : L[i].emit with
    | true => exact absurd (by rw [show (⟨e, true⟩ : PEdge) = L[i] by rw [← hie, ← hb]]; exact hm) hno
    | false => rw [← hie, ← hb]
  have hP := List.find?_some hf
  rw [Bool.and_eq_true, Option.isNone_iff_eq_none] at hP
  have hpen : pe = ⟨n, true⟩ := by rw [← hpe, ← hP.1]
  have hsplit : L = L.take i ++ ⟨e, false⟩ :: L.drop (i + 1) := by
    conv_lhs => rw [← List.take_append_drop i L, ← List.getElem_cons_drop hil, hLi]
  have htk : L.take (i + 1) = L.take i ++ [⟨e, false⟩] := by
    rw [List.take_succ_eq_append_getElem hil, hLi]
  obtain ⟨A, hA⟩ : ∃ A, A = L.take i := ⟨_, rfl⟩
  obtain ⟨B, hB⟩ : ∃ B, B = L.drop (i + 1) := ⟨_, rfl⟩
  rw [htk, ← hA, ← hB] at hf
  rw [← hA, ← hB] at hsplit
  rw [hsplit] at hs ⊢
  have hs' := List.pairwise_append.1 hs
  have hsB := List.pairwise_cons.1 hs'.2.1
  rw [List.find?_append] at hf
  have hAe : ∀ a ∈ A, angle a ≤ angle ⟨e, false⟩ := fun a ha => (peLess_angle (hs'.2.2 a ha _ List.mem_cons_self)).1
  have hBe : ∀ b ∈ B, b.emit = true → angle ⟨e, false⟩ < angle b := by
    intro b hb hbe
    have := peLess_angle (hsB.1 b hb)
    rcases lt_or_eq_of_le this.1 with hlt | heq
    · exact hlt
    · exact absurd (this.2 heq rfl) (by rw [hbe]; simp)
  have first : ∀ (l : List PEdge), l.Pairwise (fun a b => peLess angle addr b a = false) →
      l.find? (fun pe => pe.emit && (g.prev pe.edge).isNone) = some pe → ∀ x, (⟨x, true⟩ : PEdge) ∈ l → g.prev x = none →
      angle pe ≤ angle ⟨x, true⟩ := by
    intro l hl hfl x hx hpx
    obtain ⟨_, as, bs, hab, hnone⟩ := List.find?_eq_some_iff_append.1 hfl
    rw [hab] at hx hl
    rcases List.mem_append.1 hx with hm | hm
    · have := hnone _ hm
      simp [hpx] at this
    · rcases List.mem_cons.1 hm with hm | hm
      · rw [hm]
      · exact (peLess_angle ((List.pairwise_cons.1 (List.pairwise_append.1 hl).2.1).1 _ hm)).1
  cases hfB : B.find? (fun pe => pe.emit && (g.prev pe.edge).isNone) with
  | some pe' =>
    rw [hfB, Option.some_or, Option.some.injEq] at hf
    subst hf
    have hmB := List.mem_of_find?_eq_some hfB
    rw [hpen] at hmB
    refine ⟨List.mem_append_right _ (List.mem_cons_of_mem _ hmB), by rw [hpen] at hP; exact hP.2, ?_⟩
    intro x hx hpx
    have hlt := hBe _ hmB rfl
    refine .inl ⟨hlt, ?_⟩
    intro hxe
    rcases List.mem_append.1 hx with hm | hm
    · exact absurd (hAe _ hm) (not_le.2 hxe)
    · rcases List.mem_cons.1 hm with hm | hm
      · exact absurd (congrArg PEdge.emit hm) (by simp)
      · have := first B hsB.2 hfB x hm hpx
        rwa [hpen] at this
  | none =>
    rw [hfB, Option.none_or, List.find?_append] at hf
    have hnB := List.find?_eq_none.1 hfB
    cases hfA : A.find? (fun pe => pe.emit && (g.prev pe.edge).isNone) with
    | none =>
      rw [hfA, Option.none_or] at hf
      simp at hf
    | some pe' =>
      rw [hfA, Option.some_or, Option.some.injEq] at hf
      subst hf
      have hmA := List.mem_of_find?_eq_some hfA
      rw [hpen] at hmA
      refine ⟨List.mem_append_left _ hmA, by rw [hpen] at hP; exact hP.2, ?_⟩
      intro x hx hpx
      rcases List.mem_append.1 hx with hm | hm
      · have := first A hs'.1 hfA x hm hpx
        rw [hpen] at this
        exact .inr ⟨hAe _ hmA, hAe _ hm, this⟩
      · rcases List.mem_cons.1 hm with hm | hm
        · exact absurd (congrArg PEdge.emit hm) (by simp)
        · exact absurd (hnB _ hm) (by simp [hpx])

end turn

/-- C63: the angle the entries are sorted by is the direction of the half edge, in `(-π, π]`. -/
theorem sortAngle_spec (s e : Vec2 ℝ) : -Real.pi < sortAngle s e ∧ sortAngle s e ≤ Real.pi ∧
    e.x - s.x = ‖(⟨e.x - s.x, e.y - s.y⟩ : ℂ)‖ * Real.cos (sortAngle s e) ∧
    e.y - s.y = ‖(⟨e.x - s.x, e.y - s.y⟩ : ℂ)‖ * Real.sin (sortAngle s e) := by
  have h : sortAngle s e = Complex.arg ⟨e.x - s.x, e.y - s.y⟩ := by
    unfold sortAngle
    dsimp only
    split
    · rename_i hh
      have hh : Complex.arg ⟨e.x - s.x, e.y - s.y⟩ = -Real.pi := of_decide_eq_true hh
      exact absurd hh (ne_of_gt (Complex.neg_pi_lt_arg _))
    · rfl
  rw [h]
  refine ⟨Complex.neg_pi_lt_arg _, Complex.arg_le_pi _, ?_, ?_⟩
  · exact (Complex.norm_mul_cos_arg ⟨e.x - s.x, e.y - s.y⟩).symm
  · exact (Complex.norm_mul_sin_arg ⟨e.x - s.x, e.y - s.y⟩).symm

/-! ## A case -/

/-- A number that orders the directions of rational vectors like `atan2`. -/
def turnOf (v : Vec2 ℚ) : ℚ :=
  if v.x = 0 ∧ v.y = 0 then 0
  else if 0 ≤ v.y then 1 - v.x / (|v.x| + |v.y|) else v.x / (|v.x| + |v.y|) - 1

/-- Orders for the cases: sets in the order of creation, sorting by insertion. -/
def plainOrder : DOrder ℚ where
  iter l := l
  scanAddr i := i
  sortB s e l := l.insertionSort (fun a b => breakLess s e b a = false)
  sortP d l := l.insertionSort (fun a b => peLess (fun pe => match d.ends pe.edge with
    | some (p, q) => if pe.emit then turnOf (q.sub p) else turnOf (p.sub q)
    | none => 0) id b a = false)

theorem plainOrder_ok : plainOrder.Ok :=
  ⟨fun _ => List.Perm.refl _, fun _ _ h => h, fun _ _ _ => List.perm_insertionSort _ _, fun _ _ => List.perm_insertionSort _ _⟩

/-- A unit square with corners A, B, C, D and the diagonal from A to C. -/
def squareDiagonal : List (DCall ℚ) :=
  [.line 0 0 1 0, .line 1 0 1 1, .type .clip, .line 1 1 0 1, .line 0 1 0 0, .line 0 0 1 1]

/-- The corners a face passes: the ends of its half edges, in order, from half edge `i` until `start` comes up again. -/
def facePoints (d : Dcel ℚ) (g : FaceGraph) (start : Nat) : Nat → Nat → List (Option (Vec2 ℚ))
  | 0, _ => []
  | n + 1, i => d.finAt i :: (match g.next i with | some j => if j = start then [] else facePoints d g start n j | none => [])

/-- The faces with more than one corner. -/
def bigFaces (r : Dcel ℚ × WalkSt) : List (List (Option (Vec2 ℚ))) :=
  (r.2.faces.map (fun f => facePoints r.1 r.2.g f 30 f)).filter (fun l => 1 < l.length)

/-- C62, a case: the square with a diagonal gives 30 half edges and 23 faces. Three of them have more than one corner: each triangle clockwise and
the outside counter-clockwise, so that the face of a half edge lies on its right, not on its left (`dcel.h:91`). The other 20 are single half
edges that start and end in the same corner (see `break_zero_length`). -/
theorem squareDiagonal_faces : ((Dcel.after squareDiagonal).process plainOrder).map bigFaces =
    some [[some ⟨0, 1⟩, some ⟨1, 1⟩, some ⟨0, 0⟩], [some ⟨1, 0⟩, some ⟨1, 1⟩, some ⟨0, 1⟩, some ⟨0, 0⟩],
      [some ⟨1, 1⟩, some ⟨1, 0⟩, some ⟨0, 0⟩]] := by decide +kernel

theorem squareDiagonal_count : ((Dcel.after squareDiagonal).process plainOrder).map (fun r => (r.1.live.length, r.2.faces.length)) =
    some (30, 23) := by decide +kernel

/-- C64, a case: these half edges, none of them of length zero, have no `face`. -/
theorem squareDiagonal_face_null : ((Dcel.after squareDiagonal).process plainOrder).map (fun r =>
      r.1.live.filter (fun i => r.2.face i == none)) = some [15, 21, 28, 29, 31, 32, 33] := by decide +kernel

/-- Three lines that leave a point in directions 0°, 90°, 180°. -/
def threeWays : List (DCall ℚ) := [.line 0 0 1 0, .line 0 0 0 1, .line 0 0 (-1) 0]

/-- C63, a case: coming from the right (half edge 3 is the way back to the middle, from `(1, 0)`), the list of the middle is sorted and the way up
is taken, which is the turn to the right. -/
theorem threeWays_sharpest : ((Dcel.after threeWays).buildTwins [0, 1, 2]).map (fun d =>
      let L := d.around plainOrder 0
      (L, d.finAt 3, getNext d.graph L 3, d.finAt 1)) =
    some ([⟨0, true⟩, ⟨3, false⟩, ⟨1, true⟩, ⟨4, false⟩, ⟨2, true⟩, ⟨5, false⟩], some ⟨0, 0⟩, some 1, some ⟨0, 1⟩) := by decide +kernel

/-- C62, a case in exact arithmetic with special values: finite lines. -/
theorem finite_calls : ∀ c ∈ ([.line (.fin 0) (.fin 0) (.fin 2) (.fin 2), .type .clip, .line (.fin 0) (.fin 2) (.fin 2) (.fin 0)] : List (DCall (Ext ℚ))),
    c.Finite := by
  intro c hc
  simp only [List.mem_cons, List.not_mem_nil, or_false] at hc
  rcases hc with rfl | rfl | rfl
  · exact ⟨⟨0, 0⟩, ⟨2, 2⟩, rfl, rfl, by unfold Vec2.InRange; decide +kernel, by unfold Vec2.InRange; decide +kernel⟩
  · trivial
  · exact ⟨⟨0, 2⟩, ⟨2, 0⟩, rfl, rfl, by unfold Vec2.InRange; decide +kernel, by unfold Vec2.InRange; decide +kernel⟩

/-! ## The entry before -/

/-- **C63**, the way back: going around the list of a point, `get_prev` of an edge is the edge of the entry before it, the first
entry being preceded by the last; it is null exactly if the edge is not in the list. -/
theorem getPrev_spec (L : List PEdge) (hn : (L.map PEdge.edge).Nodup) :
    (∀ i (h : i < L.length), getPrev L (L[(i + 1) % L.length]'(Nat.mod_lt _ (Nat.zero_lt_of_lt h))).edge = some L[i].edge) ∧
    ∀ e, getPrev L e = none ↔ ∀ pe ∈ L, pe.edge ≠ e := by
  have hfind : ∀ j (h : j < L.length), L.findIdx? (fun pe => pe.edge == L[j].edge) = some j := by
    intro j h
    rw [List.findIdx?_eq_some_iff_getElem]
    refine ⟨h, by simp, fun k hk => ?_⟩
    have := List.nodup_iff_injective_get.1 hn
    simp only [beq_iff_eq]
    intro e
    have h2 := @this ⟨k, by rw [List.length_map]; omega⟩ ⟨j, by rw [List.length_map]; omega⟩ (by simpa using e)
    simp only [Fin.mk.injEq] at h2
    omega
  refine ⟨fun i h => ?_, fun e => ?_⟩
  · unfold getPrev
    rw [hfind _ (Nat.mod_lt _ (Nat.zero_lt_of_lt h))]
    simp only [Option.bind_some]
    by_cases hl : i + 1 = L.length
    · rw [hl, Nat.mod_self, if_pos rfl, List.getLast?_eq_getElem?]
      have : L.length - 1 = i := by omega
      rw [this, List.getElem?_eq_getElem h]
      rfl
    · rw [Nat.mod_eq_of_lt (by omega), if_neg (by omega), Nat.add_sub_cancel, List.getElem?_eq_getElem h]
      rfl
  · constructor
    · intro h pe hpe e2
      obtain ⟨j, hj, rfl⟩ := List.mem_iff_getElem.1 hpe
      subst e2
      unfold getPrev at h
      rw [hfind j hj] at h
      simp only [Option.bind_some] at h
      split at h
      · rw [Option.map_eq_none_iff, List.getLast?_eq_none_iff] at h
        rw [h] at hj
        exact absurd hj (Nat.not_lt_zero _)
      · rw [List.getElem?_eq_getElem (by omega)] at h
        exact absurd h (by simp)
    · intro h
      unfold getPrev
      have : L.findIdx? (fun pe => pe.edge == e) = none := by
        rw [List.findIdx?_eq_none_iff]
        intro x hx
        simpa using h x hx
      rw [this]
      rfl

/-- A case: three edges around a point. -/
example : ([⟨4, true⟩, ⟨7, false⟩, ⟨2, true⟩] : List PEdge).map PEdge.edge |>.Nodup := by decide

end River
