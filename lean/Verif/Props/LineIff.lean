import Verif.Props.Line

/-! # C13, C14: exactly when collinear end points are missed and when the result array is overrun

Level: exact arithmetic with IEEE special values (`Ext R`), finite coordinates. -/

set_option linter.unusedSectionVars false

namespace River
variable {R : Type} [Field R] [LinearOrder R] [IsStrictOrderedRing R]

/-- **C14**, exactly: the two-element result array is overrun for those arguments, and only those, whose first segment is a
single point strictly inside a horizontal second segment. -/
theorem lineIntersect_overflow_iff (p0 p1 p2 p3 : Vec2 R) (hr2 : p2.InRange) (hr0 : p0.InRange) :
    lineIntersect p0.fin p1.fin p2.fin p3.fin = none ↔ p0 = p1 ∧ InsideSeg p0 p2 p3 ∧ p2.y = p3.y := by
  by_cases h01 : p0 = p1
  · subst h01
    have hpar : Parallel p0 p0 p2 p3 := by unfold Parallel; ring
    by_cases hon : p2 ≠ p3 ∧ OnSeg p0 p2 p3
    · obtain ⟨h23, s, hs0, hs1, rfl⟩ := hon
      rw [lineIntersect_parallel _ _ _ _ hpar]
      rw [if_pos ((dist2_zero_iff _ _ _).mpr ⟨h23, s, hs0, hs1, rfl⟩)]
      have i0 := inner_cond p2 p3 h23 0 1 s (by norm_num) (by rw [lerp_zero]; exact hr2)
      rw [lerp_zero, lerp_one] at i0
      have J0 := insideSeg_lerp p2 p3 h23 0 1 s (by norm_num)
      rw [lerp_zero, lerp_one] at J0
      rw [J0, ← i0]
      have hb : ∀ q : Vec2 R, pointBetween q.fin (lerp p2 p3 s).fin (lerp p2 p3 s).fin = true ↔
          q.y = (lerp p2 p3 s).y := by
        intro q
        rw [pointBetween_fin _ _ _ hr0]
        simp only [min_self, max_self, ne_eq, not_true_eq_false, true_and, false_and, or_false]
        constructor
        · rintro ⟨a, b⟩; exact le_antisymm b a
        · intro e; rw [e]; exact ⟨le_refl _, le_refl _⟩
      have hy : ∀ q, q = p2 ∨ q = p3 → lerp p2 p3 s ≠ q → (q.y = (lerp p2 p3 s).y ↔ p2.y = p3.y) := by
        intro q hq hne
        simp only [lerp]
        rcases hq with rfl | rfl
        · constructor
          · intro e
            have : s * (p3.y - q.y) = 0 := by linarith
            rcases mul_eq_zero.mp this with h | h
            · exact absurd (by rw [h, lerp_zero]) hne
            · linarith
          · intro e; rw [e]; ring
        · constructor
          · intro e
            have : (1 - s) * (q.y - p2.y) = 0 := by linarith
            rcases mul_eq_zero.mp this with h | h
            · exact absurd (by rw [show s = 1 by linarith, lerp_one]) hne
            · linarith
          · intro e; rw [e]; ring
      by_cases hc : lerp p2 p3 s = p2 ∨ lerp p2 p3 s = p3
      · -- the point is an end of the second segment: at most the other end is written
        have c0 : ((lerp p2 p3 s).fin.bne p2.fin && (lerp p2 p3 s).fin.bne p3.fin &&
            pointBetween (lerp p2 p3 s).fin p2.fin p3.fin) = false := by
          rw [Vec2.fin_bne, Vec2.fin_bne]
          rcases hc with h | h <;> simp [h]
        simp only [c0, Bool.false_eq_true, if_false, false_and, and_false, iff_false]
        rcases Bool.eq_false_or_eq_true (p2.fin.bne (lerp p2 p3 s).fin && p2.fin.bne (lerp p2 p3 s).fin &&
            pointBetween p2.fin (lerp p2 p3 s).fin (lerp p2 p3 s).fin) with e2 | e2 <;>
          rcases Bool.eq_false_or_eq_true (p3.fin.bne (lerp p2 p3 s).fin && p3.fin.bne (lerp p2 p3 s).fin &&
            pointBetween p3.fin (lerp p2 p3 s).fin (lerp p2 p3 s).fin) with e3 | e3 <;>
          simp only [e2, e3, if_true, Bool.false_eq_true, if_false] <;> simp [pushInfo]
      · push Not at hc
        have n2 : p2 ≠ lerp p2 p3 s := Ne.symm hc.1
        have n3 : p3 ≠ lerp p2 p3 s := Ne.symm hc.2
        by_cases c0 : ((lerp p2 p3 s).fin.bne p2.fin && (lerp p2 p3 s).fin.bne p3.fin &&
            pointBetween (lerp p2 p3 s).fin p2.fin p3.fin) = true
        · by_cases hh : p2.y = p3.y
          · have b2 := (hb p2).mpr ((hy p2 (Or.inl rfl) hc.1).mpr hh)
            have b3 := (hb p3).mpr ((hy p3 (Or.inr rfl) hc.2).mpr hh)
            have e2 : (p2.fin.bne (lerp p2 p3 s).fin && p2.fin.bne (lerp p2 p3 s).fin &&
                pointBetween p2.fin (lerp p2 p3 s).fin (lerp p2 p3 s).fin) = true := by
              rw [b2, Vec2.fin_bne]; simp [n2]
            have e3 : (p3.fin.bne (lerp p2 p3 s).fin && p3.fin.bne (lerp p2 p3 s).fin &&
                pointBetween p3.fin (lerp p2 p3 s).fin (lerp p2 p3 s).fin) = true := by
              rw [b3, Vec2.fin_bne]; simp [n3]
            simp only [c0, hh, e2, e3, if_true]; simp [pushInfo]
          · have b2 : ¬ _ := fun e => hh ((hy p2 (Or.inl rfl) hc.1).mp ((hb p2).mp e))
            have b3 : ¬ _ := fun e => hh ((hy p3 (Or.inr rfl) hc.2).mp ((hb p3).mp e))
            simp only [Bool.not_eq_true] at b2 b3
            simp [c0, hh, b2, b3, pushInfo]
        · exfalso
          apply c0
          rw [i0]
          have hs0' : s ≠ 0 := by rintro rfl; exact hc.1 (lerp_zero _ _)
          have hs1' : s ≠ 1 := by rintro rfl; exact hc.2 (lerp_one _ _)
          have a : 0 < s := lt_of_le_of_ne hs0 (Ne.symm hs0')
          have b : s < 1 := lt_of_le_of_ne hs1 hs1'
          exact mul_neg_of_pos_of_neg (by linarith) (by linarith)
    · rw [lineIntersect_parallel_off _ _ _ _ hpar]
      · simp only [reduceCtorEq, true_and, false_iff, not_and]
        intro hi
        exfalso
        refine hon ⟨?_, hi.1⟩
        rintro rfl
        obtain ⟨⟨t, _, _, e⟩, hne, _⟩ := hi
        apply hne
        rw [e]; ext <;> simp [lerp]
      · by_cases h' : p2 = p3
        · exact Or.inl h'
        · exact Or.inr (fun ho => hon ⟨h', ho⟩)
  · obtain ⟨l, hl, _⟩ := lineIntersect_sound p0 p1 p2 p3 h01 hr2 hr0
    rw [hl]; simp [h01]

/-- **C13**, exactly: for parallel segments of positive length the end points of one that lie strictly inside the other are
all reported if and only if the first end point of the first segment lies on the second segment, or there are none. -/
theorem lineIntersect_collinear_iff (p0 p1 p2 p3 : Vec2 R) (h01 : p0 ≠ p1) (h23 : p2 ≠ p3)
    (hpar : Parallel p0 p1 p2 p3) (hr2 : p2.InRange) (hr0 : p0.InRange) :
    (∀ q, (q = p0 ∧ InsideSeg p0 p2 p3) ∨ (q = p1 ∧ InsideSeg p1 p2 p3) ∨ (q = p2 ∧ InsideSeg p2 p0 p1) ∨
        (q = p3 ∧ InsideSeg p3 p0 p1) →
      ∃ l, lineIntersect p0.fin p1.fin p2.fin p3.fin = some l ∧ ∃ info ∈ l, info.p = q.fin) ↔
    (OnSeg p0 p2 p3 ∨ ¬ (InsideSeg p1 p2 p3 ∨ InsideSeg p2 p0 p1 ∨ InsideSeg p3 p0 p1)) := by
  constructor
  · intro h
    by_contra hc
    push Not at hc
    obtain ⟨hoff, hin⟩ := hc
    have he := lineIntersect_parallel_off p0 p1 p2 p3 hpar (Or.inr hoff)
    have no : ∀ q, ¬ ∃ l, lineIntersect p0.fin p1.fin p2.fin p3.fin = some l ∧ ∃ info ∈ l, info.p = Vec2.fin q := by
      rintro q ⟨l, h1, info, h2, _⟩
      rw [he] at h1; injection h1 with h1; subst h1; cases h2
    rcases hin with h1 | h1 | h1
    · exact no p1 (h p1 (Or.inr (Or.inl ⟨rfl, h1⟩)))
    · exact no p2 (h p2 (Or.inr (Or.inr (Or.inl ⟨rfl, h1⟩))))
    · exact no p3 (h p3 (Or.inr (Or.inr (Or.inr ⟨rfl, h1⟩))))
  · rintro (hon | hno) q hq
    · obtain ⟨l, h1, _, h3⟩ := lineIntersect_collinear_spec p0 p1 p2 p3 h01 h23 hpar hon hr2 hr0
      exact ⟨l, h1, (h3 q).mpr hq⟩
    · by_cases hon : OnSeg p0 p2 p3
      · obtain ⟨l, h1, _, h3⟩ := lineIntersect_collinear_spec p0 p1 p2 p3 h01 h23 hpar hon hr2 hr0
        exact ⟨l, h1, (h3 q).mpr hq⟩
      · exfalso
        rcases hq with h | h | h | h
        · exact hon h.2.1
        · exact hno (Or.inl h.2)
        · exact hno (Or.inr (Or.inl h.2))
        · exact hno (Or.inr (Or.inr h.2))

/-- Both sides of `lineIntersect_overflow_iff` occur. -/
example : lineIntersect (⟨1, 2⟩ : Vec2 ℚ).fin (⟨1, 2⟩ : Vec2 ℚ).fin (⟨0, 2⟩ : Vec2 ℚ).fin (⟨3, 2⟩ : Vec2 ℚ).fin = none ∧
    (lineIntersect (⟨1, 1⟩ : Vec2 ℚ).fin (⟨1, 1⟩ : Vec2 ℚ).fin (⟨0, 0⟩ : Vec2 ℚ).fin (⟨3, 3⟩ : Vec2 ℚ).fin).map
      List.length = some 2 := by decide +kernel

/-- Both sides of `lineIntersect_collinear_iff` occur: an overlap from outside is missed, one from inside is not. -/
example : lineIntersect (⟨0, 0⟩ : Vec2 ℚ).fin (⟨3, 3⟩ : Vec2 ℚ).fin (⟨1, 1⟩ : Vec2 ℚ).fin (⟨4, 4⟩ : Vec2 ℚ).fin = some [] ∧
    (lineIntersect (⟨1, 1⟩ : Vec2 ℚ).fin (⟨4, 4⟩ : Vec2 ℚ).fin (⟨0, 0⟩ : Vec2 ℚ).fin (⟨3, 3⟩ : Vec2 ℚ).fin).map
      List.length = some 2 := by decide +kernel

end River
