import Verif.Props.Ael

/-! # C32: exactly when the two edges of a local minimum end up in order -/

set_option linter.unusedSectionVars false

namespace River
variable {K : Type} [FTrans K] [LinearOrder K] [LawfulOrd K]

/-- **C32**, the two edges of a local minimum, exactly: the list is in order afterwards if and only if no edge to the left of the place of the descending edge `a` lies to
the right of the beginning of the ascending edge `b`. -/
theorem insert_both_iff_partial (rings : List (Ring K)) (ael : List (Edge K)) (a b : Edge K) (hs : AelSorted ael)
    (hfresh : ∀ x ∈ ael, x.eid ≠ a.eid) :
    AelSorted (insertAfterPrev (validOrder rings) a.eid b (insertAel (validOrder rings) a ael)) ↔
      ∀ x, [x, a].Sublist (insertAel (validOrder rings) a ael) → x.currX ≤ b.currX := by
  obtain ⟨hs1, l1, l2, h1, h2⟩ := insertAel_sorted rings ael a hs
  rw [h2] at hs1 ⊢
  have hspan := span_ne a.eid l1 l2 a rfl (fun x hx => hfresh x (by rw [h1]; simp [hx]))
  have hsub : ∀ x, [x, a].Sublist (l1 ++ a :: l2) ↔ x ∈ l1 := by
    intro x
    have n1 : a ∉ l1 := fun h => hfresh a (by rw [h1]; simp [h]) rfl
    have n2 : a ∉ l2 := fun h => hfresh a (by rw [h1]; simp [h]) rfl
    constructor
    · intro h
      obtain ⟨u, v, e, hu, hv⟩ := List.sublist_append_iff.1 h
      match u, e with
      | [], e =>
        simp only [List.nil_append] at e
        subst e
        cases hv with
        | cons _ hv => exact absurd (hv.subset (by simp)) n2
        | cons_cons _ hv => exact absurd (hv.subset (by simp)) n2
      | [y], e =>
        simp only [List.cons_append, List.nil_append, List.cons.injEq] at e
        rw [e.1]
        exact hu.subset (by simp)
      | y :: z :: u, e =>
        simp only [List.cons_append, List.cons.injEq] at e
        exact absurd (hu.subset (by rw [← e.2.1]; simp)) n1
    · intro h
      have := List.Sublist.append (List.singleton_sublist.2 h) (List.singleton_sublist.2 (show a ∈ a :: l2 by simp))
      simpa using this
  simp only [hsub]
  have key : insertAfterPrev (validOrder rings) a.eid b (l1 ++ a :: l2) =
      l1 ++ insertFrom (validOrder rings) b (a :: l2) := by
    unfold insertAfterPrev
    rw [hspan]
    cases l1 with
    | nil => simp [insertAel_eq]
    | cons x l1 => rfl
  rw [key]
  refine ⟨fun h x hx => ?_, fun h => sorted_insert rings l1 (a :: l2) b hs1 h⟩
  obtain ⟨m1, m2, g1, g2, -, -⟩ := insertFrom_split (validOrder rings) b (a :: l2)
  rw [g2] at h
  exact (List.pairwise_append.mp h).2.2 x hx b (by simp)

/-- The condition is met although the ascending edge begins to the left of the descending one, with nothing between them; and not met with an edge between. -/
theorem insert_both_cases :
    (AelSorted [demoEdge 0 (-5) 1 .clip] ∧
      insertAfterPrev (validOrder []) 1 (demoEdge 2 0 (-1) .subject) (insertAel (validOrder []) (demoEdge 1 10 1 .subject) [demoEdge 0 (-5) 1 .clip]) =
        [demoEdge 0 (-5) 1 .clip, demoEdge 2 0 (-1) .subject, demoEdge 1 10 1 .subject]) ∧
    ([demoEdge 0 5 1 .clip, demoEdge 1 10 1 .subject].Sublist (insertAel (validOrder []) (demoEdge 1 10 1 .subject) [demoEdge 0 5 1 .clip]) ∧
      (demoEdge 2 0 (-1) .subject).currX < (demoEdge 0 5 1 .clip).currX) := by
  refine ⟨⟨by simp [AelSorted], by decide +kernel⟩, ?_, by decide +kernel⟩
  have : insertAel (validOrder []) (demoEdge 1 10 1 .subject) [demoEdge 0 5 1 .clip] = [demoEdge 0 5 1 .clip, demoEdge 1 10 1 .subject] := by decide +kernel
  rw [this]

end River
