import Verif.Props.BezierMono

/-! # C18: exactly when the stored pieces of a curve are monotone -/

set_option linter.unusedSectionVars false

namespace River
namespace Cubic

/-- Two interior extrema are the roots of the derivative. -/
theorem splitY_two (c : Cubic ℝ) (t1 t2 : ℝ) (h : c.splitY = [t1, t2]) :
    c.yB = -c.yA * (t1 + t2) ∧ c.yC = c.yA * (t1 * t2) := by
  unfold splitY at h
  simp only [derA_y, derB_y, derC_y] at h
  split at h
  · split at h
    · simp at h
    · split at h <;> simp at h
  · rename_i ha
    have ha' : c.yA ≠ 0 := by
      intro e; rw [e] at ha; apply ha; rw [isZero_real]; norm_num
    split at h
    · rename_i hk
      simp only [field_lt, field_lit, field_mul, field_sub, decide_eq_true_eq] at hk
      have hk' : 0 < c.yB * c.yB - 4 * c.yA * c.yC := by push_cast at hk; exact hk
      have hs := Real.mul_self_sqrt hk'.le
      set r1 := (FNum.neg c.yB +. FTrans.sqrt (c.yB *. c.yB -. FNum.lit 4 *. c.yA *. c.yC)) /. (FNum.lit 2 *. c.yA) with hr1
      set r2 := (FNum.neg c.yB -. FTrans.sqrt (c.yB *. c.yB -. FNum.lit 4 *. c.yA *. c.yC)) /. (FNum.lit 2 *. c.yA) with hr2
      have e1 : r1 = (-c.yB + Real.sqrt (c.yB * c.yB - 4 * c.yA * c.yC)) / (2 * c.yA) := by
        rw [hr1]; simp; rfl
      have e2 : r2 = (-c.yB - Real.sqrt (c.yB * c.yB - 4 * c.yA * c.yC)) / (2 * c.yA) := by
        rw [hr2]; simp; rfl
      have : t1 = r1 ∧ t2 = r2 := by
        split at h <;> split at h <;> simp at h
        exact ⟨h.1.symm, h.2.symm⟩
      obtain ⟨rfl, rfl⟩ := this
      rw [e1, e2]
      obtain ⟨q, hq⟩ : ∃ q, q = Real.sqrt (c.yB * c.yB - 4 * c.yA * c.yC) := ⟨_, rfl⟩
      rw [← hq] at hs ⊢
      constructor
      · field_simp; ring
      · field_simp; linear_combination hs
    · simp at h

/-- **C18**, exactly: outside the tolerance bands of the solver, every stored piece is monotone in `y` if and only if the
curve does not have two interior extrema of which the first is a maximum (positive leading coefficient of the derivative). -/
theorem readPieces_monotone_iff (c : Cubic ℝ) (htol : c.OutsideTolerance)
    (hend : ∀ t ∈ c.splitY, 1 / 1000000 < t ∧ t < 1 - 1 / 1000000) :
    (∀ p ∈ c.readPieces, p.MonoY) ↔ (c.yA ≤ 0 ∨ c.splitY.length ≤ 1) := by
  refine ⟨?_, readPieces_monotone_partial c htol hend⟩
  intro hall
  by_contra hc
  push Not at hc
  obtain ⟨ha, hl⟩ := hc
  match h : c.splitY with
  | [] => rw [h] at hl; simp at hl
  | [_] => rw [h] at hl; simp at hl
  | _ :: _ :: _ :: l =>
    have : c.splitY.length ≤ 2 := by
      unfold splitY; dsimp only
      split
      · split
        · simp
        · split <;> simp
      · split
        · split <;> split <;> simp
        · simp
    rw [h] at this; simp at this
  | [t1, t2] =>
    have h21 : t2 < t1 := by
      rcases splitY_order c t1 t2 h with ⟨h', _⟩ | ⟨_, h'⟩
      · linarith
      · exact h'
    obtain ⟨hB, hC⟩ := splitY_two c t1 t2 h
    have m2 := splitY_mem c t2 (by rw [h]; simp)
    have m1 := splitY_mem c t1 (by rw [h]; simp)
    have hne1 : ∀ t ∈ c.splitY, t ≠ 1 := fun t ht => ne_of_lt (splitY_mem _ t ht).2
    have he : c.splitY ≠ [] := by rw [h]; simp
    have hr := readPieces_of_splitY c hend
    rw [if_neg he] at hr
    obtain ⟨hlen, htr⟩ := splitMany_eval c c.splitY he hne1
    rw [← hr] at hlen htr
    have h0 : 0 < c.readPieces.length := by rw [hlen]; omega
    obtain ⟨u, v, hu, hv, ht⟩ := htr 0 c.readPieces[0] (List.getElem?_eq_getElem h0)
    rw [h] at hu hv
    simp at hu hv
    have hm := hall _ (List.getElem_mem h0)
    have hy : ∀ s, (c.readPieces[0].eval s).y = cub c.yA c.yB c.yC c.p0.y (u + s * (v - u)) := by
      intro s; rw [← eval_y, ← pointAt_eq_eval, ← pointAt_eq_eval, ht]
    subst hu hv
    have ht1 : (0 : ℝ) < t1 := m1.1
    have hw : t2 / t1 * t1 = t2 := div_mul_cancel₀ _ ht1.ne'
    have w0 : 0 ≤ t2 / t1 := div_nonneg m2.1.le ht1.le
    have w1 : t2 / t1 ≤ 1 := (div_le_one ht1).mpr h21.le
    have y0 := hy 0
    have y1 := hy (t2 / t1)
    have y2 := hy 1
    simp only [sub_zero, zero_add, hw, one_mul, zero_mul] at y0 y1 y2
    have up : (c.readPieces[0].eval 0).y < (c.readPieces[0].eval (t2 / t1)).y := by
      rw [y0, y1, hB, hC]
      have : 0 < c.yA * (t2 * t2) * (3 * t1 - t2) :=
        mul_pos (mul_pos ha (mul_pos m2.1 m2.1)) (by linarith)
      unfold cub; nlinarith
    have down : (c.readPieces[0].eval 1).y < (c.readPieces[0].eval (t2 / t1)).y := by
      rw [y1, y2, hB, hC]
      have hd : 0 < t1 - t2 := by linarith
      have : 0 < c.yA * ((t1 - t2) * (t1 - t2) * (t1 - t2)) := mul_pos ha (mul_pos (mul_pos hd hd) hd)
      unfold cub; nlinarith
    rcases hm with hm | hm
    · exact absurd (hm _ 1 w0 w1 (le_refl _)) (not_le.mpr down)
    · exact absurd (hm 0 _ (le_refl _) w0 w1) (not_le.mpr up)

/-- Both sides of `readPieces_monotone_iff` occur: `wave` is not cut into monotone pieces, `waveDown` is. -/
example : ¬ (wave.yA ≤ 0 ∨ wave.splitY.length ≤ 1) ∧ (waveDown.yA ≤ 0 ∨ waveDown.splitY.length ≤ 1) := by
  constructor
  · rw [wave_splitY]; unfold yA wave dA; norm_num
  · left; unfold yA waveDown dA; norm_num

end Cubic
end River
