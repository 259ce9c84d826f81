import Verif.Props.SameEdge

/-! # C43: exactly when two edges taken for the same pass the same points -/

namespace River
variable {R : Type} [Field R] [LinearOrder R] [IsStrictOrderedRing R]

/-- **C43**, exactly: two edges `is_same` takes for the same pass the same points at the same time if and only if they are straight or
their control points agree from below. -/
theorem isSame_sound_iff_partial (rings : List (Ring R)) (a b : Edge R) (sa sb : Seg R) (fa fb : Vec2 R)
    (ha : getSeg rings a = some (sa, fa)) (hb : getSeg rings b = some (sb, fb)) (hta : Attached rings a) (htb : Attached rings b)
    (h : isSame rings a b = true) : (∀ t, a.rise sa t = b.rise sb t) ↔ (sa.isCubic = true → a.controls sa = b.controls sb) := by
  refine ⟨?_, fun hord t => isSame_sound_partial rings a b sa sb fa fb ha hb hta htb h hord t⟩
  intro hall hcub
  obtain ⟨h1, h2, _, h4⟩ := (isSame_iff rings a b sa sb fa fb ha hb).1 h
  obtain ⟨s, f, hs, hA⟩ := hta
  rw [ha] at hs
  simp only [Option.some.injEq, Prod.mk.injEq] at hs
  obtain ⟨rfl, rfl⟩ := hs
  obtain ⟨s, f, hs, hB⟩ := htb
  rw [hb] at hs
  simp only [Option.some.injEq, Prod.mk.injEq] at hs
  obtain ⟨rfl, rfl⟩ := hs
  cases sa with
  | line ta => simp [Seg.isCubic] at hcub
  | cubic c1 c2 ta =>
    cases sb with
    | line tb => simp [Seg.isCubic] at h4
    | cubic d1 d2 tb =>
      have k1 := hall (1 / 3)
      have k2 := hall (2 / 3)
      simp only [Edge.rise, Seg.trace, Seg.target, Edge.controls] at *
      cases hu : a.isUp <;> cases hv : b.isUp <;> simp only [hu, hv, Bool.false_eq_true, if_true, if_false] at *
      all_goals
        rw [hA.2, hB.2, h1, h2] at k1 k2
        have x1 := congrArg Vec2.x k1
        have y1 := congrArg Vec2.y k1
        have x2 := congrArg Vec2.x k2
        have y2 := congrArg Vec2.y k2
        simp only [Cubic.eval, bern] at x1 y1 x2 y2
        simp only [List.cons.injEq, and_true]
        clear h hall h4 hA hB ha hb
        refine ⟨?_, ?_⟩
        · ext
          · linear_combination 3 * x1 - 3 / 2 * x2
          · linear_combination 3 * y1 - 3 / 2 * y2
        · ext
          · linear_combination -3 / 2 * x1 + 3 * x2
          · linear_combination -3 / 2 * y1 + 3 * y2

end River
