import Verif.Props.SolverIff

/-! # C22, C23, C24: exactly when points of a curve are lost

Outside the tolerance bands, and where the equation has fewer than three different solutions, the cubic solver is exact or fails (`Fails`). For these equations the
theorems here say exactly when the functions that use the solver lose a point. -/

namespace River

/-- Equations outside the tolerance bands that do not have three different solutions: of degree at most two, or with discriminant zero or positive. -/
def Handled (a3 a2 a1 a0 : ℝ) : Prop :=
  (a3 = 0 ∧ ((1 / 100000000 ≤ |a2| ∧ Clear (a1 * a1 - 4 * a2 * a0)) ∨ (a2 = 0 ∧ 1 / 100000000 ≤ |a1|) ∨ (a2 = 0 ∧ a1 = 0 ∧ a0 ≠ 0))) ∨
  (1 / 100000000 ≤ |a3| ∧ ((depK a3 a2 a1 a0 = 0 ∧ Clear (rcbrt (-depQ a3 a2 a1 a0 / 2))) ∨ 1 / 100000000 ≤ depK a3 a2 a1 a0))

theorem handled_cases {a3 a2 a1 a0 : ℝ} (h : Handled a3 a2 a1 a0) (hf : ¬ Fails a3 a2 a1 a0) : SolverExact a3 a2 a1 a0 := by
  apply solverExact_of
  rcases h with h | ⟨h3, h | h⟩
  · exact .inl h
  · exact .inr ⟨h3, .inl h⟩
  · exact .inr ⟨h3, .inr ⟨h, fun hp => hf ⟨h3, hp.1, hp.2, h⟩⟩⟩

/-- **C21**, exactly: such an equation is solved if and only if it is not one of those on which the solver fails. -/
theorem resolvCubic_exact_iff_partial (a3 a2 a1 a0 : ℝ) (h : Handled a3 a2 a1 a0) : SolverExact a3 a2 a1 a0 ↔ ¬ Fails a3 a2 a1 a0 := by
  refine ⟨?_, handled_cases h⟩
  rintro ⟨l, hl, _⟩
  rw [← resolvCubic_numbers_iff, hl]
  intro v hv
  obtain ⟨x, _, rfl⟩ := List.mem_map.1 hv
  exact ⟨x, rfl⟩

/-- **C22**, exactly: `point_at_y` finds the parameters at which the curve has the height `y`, all of them and no others, if and only if the solver does not fail at this
height or the curve does not reach it. -/
theorem Cubic.pointAtY_iff_partial (c : Cubic ℝ) (y : ℝ) (h : Handled c.py3 c.py2 c.py1 (c.p0.y - y)) :
    (∀ t : ℝ, Ext.fin t ∈ c.fin.pointAtY (Ext.fin y) ↔ 0 ≤ t ∧ t ≤ 1 ∧ (c.pointAt t).y = y) ↔
    ¬ (Fails c.py3 c.py2 c.py1 (c.p0.y - y) ∧ ∃ t, 0 ≤ t ∧ t ≤ 1 ∧ (c.pointAt t).y = y) := by
  by_cases hf : Fails c.py3 c.py2 c.py1 (c.p0.y - y)
  · rw [Cubic.pointAtY_fails c y hf]
    simp only [List.not_mem_nil, false_iff, hf, true_and, not_exists]
  · obtain ⟨l, h1, _, h3⟩ := Cubic.pointAtY_exact_partial c y (handled_cases h hf)
    simp only [hf, false_and, not_false_eq_true, iff_true, h1]
    intro t
    rw [← h3]
    simp

/-- **C23**, exactly: at a height the curve has in one point only, `curr_x` is the abscissa of that point if and only if the solver does not fail there, or the chord has the
same abscissa at that height. -/
theorem Seg.currX_iff_partial (c1 c2 t frm : Vec2 ℝ) (y : ℝ)
    (h : Handled (Cubic.py3 ⟨frm, c1, c2, t⟩) (Cubic.py2 ⟨frm, c1, c2, t⟩) (Cubic.py1 ⟨frm, c1, c2, t⟩) (frm.y - y))
    (s : ℝ) (hs : 0 ≤ s ∧ s ≤ 1 ∧ ((⟨frm, c1, c2, t⟩ : Cubic ℝ).pointAt s).y = y)
    (huniq : ∀ s', 0 ≤ s' ∧ s' ≤ 1 ∧ ((⟨frm, c1, c2, t⟩ : Cubic ℝ).pointAt s').y = y → s' = s) :
    Seg.currX (.cubic c1.fin c2.fin t.fin) frm.fin (Ext.fin y) = Ext.fin ((⟨frm, c1, c2, t⟩ : Cubic ℝ).pointAt s).x ↔
    ¬ Fails (Cubic.py3 ⟨frm, c1, c2, t⟩) (Cubic.py2 ⟨frm, c1, c2, t⟩) (Cubic.py1 ⟨frm, c1, c2, t⟩) (frm.y - y) ∨
      Seg.currX (.line t.fin) frm.fin (Ext.fin y) = Ext.fin ((⟨frm, c1, c2, t⟩ : Cubic ℝ).pointAt s).x := by
  by_cases hf : Fails (Cubic.py3 ⟨frm, c1, c2, t⟩) (Cubic.py2 ⟨frm, c1, c2, t⟩) (Cubic.py1 ⟨frm, c1, c2, t⟩) (frm.y - y)
  · rw [Seg.currX_chord c1 c2 t frm y hf]
    simp only [hf, not_true_eq_false, false_or]
  · simp only [hf, not_false_eq_true, true_or, iff_true]
    exact Seg.currX_cubic_partial c1 c2 t frm y (handled_cases h hf) s hs huniq

/-- C24: where the solver fails nothing is reported. -/
theorem lineCubicIntersect_fails (s0 s1 : Vec2 ℝ) (c : Cubic ℝ) (A B C : ℝ) (hg : generalFrom s0.fin s1.fin = (.fin A, .fin B, .fin C))
    (hf : Fails (lc3 A B c) (lc2 A B c) (lc1 A B c) (lc0 A B C c)) : lineCubicIntersect s0.fin s1.fin c.fin = some [] := by
  obtain ⟨h3, hp, hq, hk⟩ := hf
  unfold lineCubicIntersect
  rw [hg]
  dsimp only
  have ec : resolvCubic (Ext.fin A *. c.fin.polT3.x +. Ext.fin B *. c.fin.polT3.y)
      (Ext.fin A *. c.fin.polT2.x +. Ext.fin B *. c.fin.polT2.y)
      (Ext.fin A *. c.fin.polT1.x +. Ext.fin B *. c.fin.polT1.y)
      (Ext.fin A *. c.fin.p0.x +. Ext.fin B *. c.fin.p0.y +. Ext.fin C) = [Ext.nan] := by
    rw [← resolvCubic_nan_general _ _ _ _ h3 hp hq hk]
    unfold Cubic.polT3 Cubic.polT2 Cubic.polT1 Cubic.fin Vec2.sub Vec2.add Vec2.smul Vec2.fin lc3 lc2 lc1 lc0
    simp only [Ext.fin_mul, Ext.lit_eq, Ext.fin_sub, Ext.fin_add, Rat.cast_ofNat]
  rw [ec]
  simp

/-- **C24**, exactly: let the line through the segment be `A x + B y + C = 0` as the code computes it. Every common point of the segment and the curve is reported if and
only if the solver does not fail on the equation for them, or there is no common point. -/
theorem lineCubicIntersect_iff_partial (s0 s1 : Vec2 ℝ) (hs : s0 ≠ s1) (hr : s0.InRange) (c : Cubic ℝ) (A B C : ℝ)
    (hg : generalFrom s0.fin s1.fin = (.fin A, .fin B, .fin C)) (h : Handled (lc3 A B c) (lc2 A B c) (lc1 A B c) (lc0 A B C c)) :
    (∀ t, 0 ≤ t → t ≤ 1 → OnSeg (c.pointAt t) s0 s1 → ∃ l, lineCubicIntersect s0.fin s1.fin c.fin = some l ∧ ∃ i ∈ l, i.t1 = .fin t) ↔
    ¬ (Fails (lc3 A B c) (lc2 A B c) (lc1 A B c) (lc0 A B C c) ∧ ∃ t, 0 ≤ t ∧ t ≤ 1 ∧ OnSeg (c.pointAt t) s0 s1) := by
  by_cases hf : Fails (lc3 A B c) (lc2 A B c) (lc1 A B c) (lc0 A B C c)
  · rw [lineCubicIntersect_fails s0 s1 c A B C hg hf]
    simp [hf]
  · obtain ⟨l, h1, _, h3⟩ := lineCubicIntersect_exact_partial s0 s1 hs hr c fun A' B' C' hg' => by
      rw [hg] at hg'
      simp only [Prod.mk.injEq, Ext.fin.injEq] at hg'
      obtain ⟨rfl, rfl, rfl⟩ := hg'
      exact handled_cases h hf
    simp only [hf, false_and, not_false_eq_true, iff_true]
    intro t t0 t1 ht
    exact ⟨l, h1, h3 t t0 t1 ht⟩

/-- Concrete cases: the curve `drop` at the heights 1/8, where the solver fails and a point is lost, and at the height -1/8, where it does not fail. -/
theorem rootIff_case : (Handled Cubic.drop.py3 Cubic.drop.py2 Cubic.drop.py1 (Cubic.drop.p0.y - 1 / 8) ∧
      Fails Cubic.drop.py3 Cubic.drop.py2 Cubic.drop.py1 (Cubic.drop.p0.y - 1 / 8) ∧ (Cubic.drop.pointAt (1 / 2)).y = 1 / 8) ∧
    (Handled Cubic.drop.py3 Cubic.drop.py2 Cubic.drop.py1 (Cubic.drop.p0.y - -(1 / 8)) ∧
      ¬ Fails Cubic.drop.py3 Cubic.drop.py2 Cubic.drop.py1 (Cubic.drop.p0.y - -(1 / 8))) := by
  refine ⟨⟨.inr ⟨?_, .inr ?_⟩, ?_, Cubic.pointAtY_misses.2⟩, .inr ⟨?_, .inr ?_⟩, ?_⟩ <;>
    (try unfold Fails) <;> unfold Cubic.py3 Cubic.drop <;> (try unfold depK depP depQ Cubic.py2 Cubic.py1) <;> norm_num

end River
