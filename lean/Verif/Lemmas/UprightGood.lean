import Verif.Lemmas.UprightBroken

/-! # Contours that cross: from the description of the contours to the list of vertices -/

namespace River.Upright

attribute [local instance 10000] FTrans.toFNum

theorem CrossingLoops.fine {Ls : List (Loop ℝ)} (h : CrossingLoops Ls) {s : Vec2 ℝ × Seg ℝ} (hs : s ∈ Ls.flatMap Loop.sides) : Fine s := by
  exact ⟨h.runs s hs, reaches_real s, h.traced s hs⟩

/-- A side is not next to itself: a point close to its end would be one of two equal sides. -/
theorem not_clear_self {s : Vec2 ℝ × Seg ℝ} : ¬ ∀ a b, Meet2 s s a b → ClearPos a ∧ ClearPos b := by
  intro h
  have := (h (1 / 10000000) (1 / 10000000) ⟨by norm_num, by norm_num, by norm_num, by norm_num, rfl⟩).1
  rcases this with e | e | ⟨e, _⟩ <;> norm_num at e

theorem sidePoints_ends_mem {K : Type} (s : Vec2 K × Seg K) : s.1 ∈ sidePoints s ∧ s.2.target ∈ sidePoints s := by
  obtain ⟨p, g⟩ := s
  cases g <;> simp [sidePoints, Seg.target]

section
variable {L : List (PathType × Loop ℝ)} {rings : List (Ring ℝ)}

theorem stores_meets (h : StoresLoops L rings) (C : CrossingLoops (L.map Prod.snd)) (i j : Nat) (v w : Vtx ℝ) (hij : i ≠ j)
    (hv : (allNodes rings)[i]? = some v) (hw : (allNodes rings)[j]? = some w) (a b : ℝ) (hm : Meet2 (v.pt, v.seg) (w.pt, w.seg) a b) :
    ClearPos a ∧ ClearPos b := by
  have hp := C.meet
  rw [← h.nodes, List.pairwise_map, List.pairwise_iff_getElem] at hp
  obtain ⟨hi, ei⟩ := List.getElem?_eq_some_iff.1 hv
  obtain ⟨hj, ej⟩ := List.getElem?_eq_some_iff.1 hw
  rcases lt_or_gt_of_ne hij with hl | hl
  · have := hp i j hi hj hl a b
    rw [ei, ej] at this
    exact this hm
  · have := hp j i hj hi hl b a
    rw [ei, ej] at this
    exact (this hm.symm).symm

theorem stores_index (h : StoresLoops L rings) (C : CrossingLoops (L.map Prod.snd)) {i j : Nat} {v w : Vtx ℝ}
    (hv : (allNodes rings)[i]? = some v) (hw : (allNodes rings)[j]? = some w) (e : (v.pt, v.seg) = (w.pt, w.seg)) : i = j := by
  by_contra hij
  refine not_clear_self (s := (v.pt, v.seg)) (fun a b hm => stores_meets h C i j v w hij hv hw a b ?_)
  rw [← e]; exact hm

theorem stores_mem (h : StoresLoops L rings) {v : Vtx ℝ} (hv : v ∈ allNodes rings) : (v.pt, v.seg) ∈ (L.map Prod.snd).flatMap Loop.sides := by
  rw [← h.nodes]; exact List.mem_map.2 ⟨v, hv, rfl⟩

/-- The two notions of a stop agree. -/
theorem stores_stop (h : StoresLoops L rings) (C : CrossingLoops (L.map Prod.snd)) {n : Nat} {v : Vtx ℝ} (hv : (allNodes rings)[n]? = some v) (a : ℝ) :
    NStop (allNodes rings) n v a ↔ Stop ((L.map Prod.snd).flatMap Loop.sides) (v.pt, v.seg) a := by
  unfold NStop Stop
  refine or_congr Iff.rfl (or_congr Iff.rfl ⟨?_, ?_⟩)
  · rintro ⟨j, w, hj, hw, r, hr⟩
    exact ⟨(w.pt, w.seg), stores_mem h (List.mem_of_getElem? hw), fun e => hj (stores_index h C hw hv e), r, hr⟩
  · rintro ⟨t, ht, hne, r, hr⟩
    rw [← h.nodes] at ht
    obtain ⟨w, hw, rfl⟩ := List.mem_map.1 ht
    obtain ⟨j, hj⟩ := List.getElem?_of_mem hw
    refine ⟨j, w, fun e => hne ?_, hj, r, hr⟩
    subst e
    rw [hv] at hj
    cases hj; rfl

theorem stores_good (h : StoresLoops L rings) (C : CrossingLoops (L.map Prod.snd)) : NodesGood (allNodes rings) := by
  refine ⟨⟨fun v hv => (C.fine (stores_mem h hv)).steep, fun v hv z hz => ?_, fun v hv => C.boxed _ (stores_mem h hv), stores_meets h C, ?_⟩,
    fun v hv => C.fine (stores_mem h hv), ?_, ?_, ?_⟩
  · obtain ⟨r1, r2, r3, r4⟩ := C.range _ (stores_mem h hv) z hz
    unfold InDoubles
    rw [Exact.neg_eq, show (FNum.maxNum : ℝ) = (dblMax : ℝ) from Exact.max_eq]
    exact ⟨r1, r2, r3.le, r4⟩
  · intro i j v w hij hv hw
    have hp := C.truthful
    rw [← h.nodes, List.pairwise_map, List.pairwise_iff_getElem] at hp
    obtain ⟨hi, ei⟩ := List.getElem?_eq_some_iff.1 hv
    obtain ⟨hj, ej⟩ := List.getElem?_eq_some_iff.1 hw
    rcases lt_or_gt_of_ne hij with hl | hl
    · have := hp i j hi hj hl
      rw [ei, ej] at this
      exact this
    · have := hp j i hj hi hl
      rw [ei, ej] at this
      exact this.imp Far.symm Truthful.symm
  · intro n v hv a b ha hb hno
    exact C.parts _ (stores_mem h (List.mem_of_getElem? hv)) a b ((stores_stop h C hv a).1 ha) ((stores_stop h C hv b).1 hb)
      (fun t ht => hno t ((stores_stop h C hv t).2 ht))
  · intro v hv
    have e := sidePoints_ends_mem (v.pt, v.seg)
    exact lt_min (C.range _ (stores_mem h hv) _ e.1).2.2.1 (C.range _ (stores_mem h hv) _ e.2).2.2.1
  · intro i j k u v w hu hv hw a b c h1 h2 e1 e2 e3
    rcases C.feet _ (stores_mem h (List.mem_of_getElem? hu)) _ (stores_mem h (List.mem_of_getElem? hv)) _ (stores_mem h (List.mem_of_getElem? hw)) a b c h1 h2 e1 e2 e3 with e | e | e
    · exact Or.inl (stores_index h C hu hv e)
    · exact Or.inr (Or.inl (stores_index h C hu hw e))
    · exact Or.inr (Or.inr (stores_index h C hv hw e))

end

end River.Upright
