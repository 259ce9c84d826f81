import Verif.Lemmas.UprightReal
import Verif.Props.Upright

/-! # C74: which curves rise or fall all the way, and are handled correctly in exact arithmetic

The height of a curve is a polynomial `htA r³ + htB r² + htC r + p.y` of the parameter. -/

namespace River.Upright

attribute [local instance 10000] FTrans.toFNum

/-- In exact arithmetic the cubic solver delivers the root if the depressed cubic `z³ + p z + q` has a positive `p` that is not too small. -/
theorem resolvCubic_rising {a3 a2 a1 a0 x : ℝ} (h3 : 1 / 100000000 ≤ |a3|) (hp : 1 / 100000000 ≤ (depP a3 a2 a1 / 3) ^ 3)
    (hx : Root3 a3 a2 a1 a0 x) : resolvCubic a3 a2 a1 a0 = [x] := by
  have h0 : a3 ≠ 0 := by intro e; rw [e] at h3; norm_num at h3
  have pp : 0 < depP a3 a2 a1 := by
    by_contra hc
    have : (depP a3 a2 a1 / 3) ^ 3 ≤ 0 := Odd.pow_nonpos_iff (by decide) |>.2 (by linarith [not_lt.1 hc])
    linarith
  have hk : 1 / 100000000 ≤ depK a3 a2 a1 a0 := by
    unfold depK; nlinarith [sq_nonneg (depQ a3 a2 a1 a0 / 2)]
  have hkp : 0 < depK a3 a2 a1 a0 := by linarith
  have hz : isZero a3 = false := by rw [Bool.eq_false_iff, Ne, isZero_exact, not_lt]; exact h3
  have hzk : isZero (depK a3 a2 a1 a0) = false := by rw [Bool.eq_false_iff, Ne, isZero_exact, not_lt, abs_of_pos hkp]; exact hk
  have l0 : (FNum.lit 0 : ℝ) = 0 := exact_zero
  have l2 : (FNum.lit 2 : ℝ) = 2 := by rw [Exact.lit_eq]; norm_num
  have l3 : (FNum.lit 3 : ℝ) = 3 := by rw [Exact.lit_eq]; norm_num
  have l27 : (FNum.lit 27 : ℝ) = 27 := by rw [Exact.lit_eq]; norm_num
  have ep : a1 / a3 - a2 / a3 * (a2 / a3) / 3 = depP a3 a2 a1 := by unfold depP; ring
  have eq : 2 * (a2 / a3 * (a2 / a3)) * (a2 / a3) / 27 - a2 / a3 * (a1 / a3) / 3 + a0 / a3 = depQ a3 a2 a1 a0 := by unfold depQ; ring
  have ek : (FTrans.powi (depQ a3 a2 a1 a0 / 2) 2 : ℝ) + FTrans.powi (depP a3 a2 a1 / 3) 3 = depK a3 a2 a1 a0 := rfl
  have es : (FTrans.sqrt (depK a3 a2 a1 a0) : ℝ) = Real.sqrt (depK a3 a2 a1 a0) := rfl
  have ec : ∀ z : ℝ, (FTrans.cbrt z : ℝ) = rcbrt z := fun _ => rfl
  unfold resolvCubic
  simp only [hz, Bool.false_eq_true, if_false, Exact.div_eq, Exact.mul_eq, Exact.sub_eq, Exact.add_eq, Exact.neg_eq, l0, l2, l3, l27, ep, eq, ek, hzk, es, ec,
    lt_eq_decide, decide_eq_true_eq, if_pos hkp]
  obtain ⟨y, e1, e2⟩ := resolvCubic_single_partial a3 a2 a1 a0 h3 hk (fun h => pp.ne' h.1)
  have hx' : x = y := (e2 x).1 hx
  rw [resolvCubic_fin a3 a2 a1 a0 h3] at e1
  dsimp only at e1
  rw [if_neg (by rw [abs_of_pos hkp]; linarith), if_pos hkp] at e1
  have hv0 : rcbrt (-depQ a3 a2 a1 a0 / 2 + Real.sqrt (depK a3 a2 a1 a0)) ≠ 0 := by
    intro e
    have hv3 := rcbrt_pow (-depQ a3 a2 a1 a0 / 2 + Real.sqrt (depK a3 a2 a1 a0))
    rw [e] at hv3
    have hs2 : Real.sqrt (depK a3 a2 a1 a0) ^ 2 = depK a3 a2 a1 a0 := Real.sq_sqrt hkp.le
    have hsq : Real.sqrt (depK a3 a2 a1 a0) = depQ a3 a2 a1 a0 / 2 := by linarith
    rw [hsq] at hs2
    have : depK a3 a2 a1 a0 = (depQ a3 a2 a1 a0 / 2) ^ 2 + (depP a3 a2 a1 / 3) ^ 3 := rfl
    linarith
  rw [Ext.fin_div _ _ (mul_ne_zero three_ne_zero hv0), Ext.fin_add, Ext.fin_sub, List.cons.injEq, Ext.fin.injEq] at e1
  rw [hx', ← e1.1]

theorem pow_pos_of {z : ℝ} (h : 1 / 100000000 ≤ (z / 3) ^ 3) : 0 < z := by
  by_contra hc
  have : (z / 3) ^ 3 ≤ 0 := Odd.pow_nonpos_iff (by decide) |>.2 (by linarith [not_lt.1 hc])
  linarith

/-- Curves whose height is a cubic polynomial that rises or falls everywhere, not too slowly. -/
theorem fine_cubic {p c1 c2 q : Vec2 ℝ} (hA : 1 / 100000000 ≤ |htA p c1 c2 q|)
    (hp : 1 / 100000000 ≤ (depP (htA p c1 c2 q) (htB p c1 c2) (htC p c1) / 3) ^ 3) : Fine (p, Seg.cubic c1 c2 q) := by
  have pp := pow_pos_of hp
  have h0 : htA p c1 c2 q ≠ 0 := by intro e; rw [e] at hA; norm_num at hA
  refine ⟨?_, reaches_real _, ?_, ?_⟩
  · have key : ∀ a b : ℝ, a < b → ∃ m, 0 < m ∧
        (sidePoint (p, Seg.cubic c1 c2 q) b).y - (sidePoint (p, Seg.cubic c1 c2 q) a).y = htA p c1 c2 q * m := by
      intro a b hab
      obtain ⟨A, eA⟩ : ∃ A, A = htA p c1 c2 q := ⟨_, rfl⟩
      obtain ⟨B, eB⟩ : ∃ B, B = htB p c1 c2 := ⟨_, rfl⟩
      obtain ⟨C, eC⟩ : ∃ C, C = htC p c1 := ⟨_, rfl⟩
      refine ⟨(b - a) * ((a + B / A / 3) ^ 2 + (a + B / A / 3) * (b + B / A / 3) + (b + B / A / 3) ^ 2 + depP A B C), ?_, ?_⟩
      · refine mul_pos (sub_pos.2 hab) ?_
        have : 0 < depP A B C := by rw [eA, eB, eC]; exact pp
        nlinarith [sq_nonneg (a + B / A / 3 + (b + B / A / 3)), sq_nonneg (a + B / A / 3), sq_nonneg (b + B / A / 3)]
      · rw [height_pol, height_pol, ← eA, ← eB, ← eC]
        rw [← eA] at h0
        unfold depP
        field_simp
        ring
    rcases lt_or_gt_of_ne h0 with hl | hl
    · right
      intro a b _ hab _
      obtain ⟨m, m0, e⟩ := key a b hab
      nlinarith [mul_neg_of_neg_of_pos hl m0]
    · left
      intro a b _ hab _
      obtain ⟨m, m0, e⟩ := key a b hab
      nlinarith [mul_pos hl m0]
  · obtain ⟨_, _, _, d1, d2, d3⟩ := pol_real p c1 c2 q
    refine whole_of ?_
    have hz : isZero (3 * htA p c1 c2 q) = false := by
      rw [Bool.eq_false_iff, Ne, isZero_exact, not_lt, abs_mul, abs_of_pos (by norm_num : (0:ℝ) < 3)]; linarith
    have l4 : (FNum.lit 4 : ℝ) = 4 := by rw [Exact.lit_eq]; norm_num
    have hk : ¬ (0 : ℝ) < 2 * htB p c1 c2 * (2 * htB p c1 c2) - 4 * (3 * htA p c1 c2 q) * htC p c1 := by
      rw [not_lt]
      have : 2 * htB p c1 c2 * (2 * htB p c1 c2) - 4 * (3 * htA p c1 c2 q) * htC p c1 =
          -(12 * htA p c1 c2 q ^ 2 * depP (htA p c1 c2 q) (htB p c1 c2) (htC p c1)) := by
        unfold depP; field_simp; ring
      rw [this]
      have : 0 < htA p c1 c2 q ^ 2 := by positivity
      have := mul_pos this pp
      linarith
    unfold Cubic.splitY
    simp only [d1, d2, d3, hz, Bool.false_eq_true, if_false, Exact.mul_eq, Exact.sub_eq, l4, exact_zero, lt_eq_decide, decide_eq_true_eq, if_neg hk]
  · intro r r0 r1
    refine currX_real ?_
    rw [resolvCubic_rising (x := r) hA hp (by unfold Root3; rw [height_pol]; ring)]
    simp [r0, r1]

/-- Curves whose height is a quadratic polynomial, and which are not too flat at their ends. -/
theorem fine_quadratic {p c1 c2 q : Vec2 ℝ} (hA : htA p c1 c2 q = 0) (hB : 1 / 100000000 ≤ |htB p c1 c2|)
    (hd : (1 / 10000 ≤ 3 * (c1.y - p.y) ∧ 1 / 10000 ≤ 3 * (q.y - c2.y)) ∨ (3 * (c1.y - p.y) ≤ -(1 / 10000) ∧ 3 * (q.y - c2.y) ≤ -(1 / 10000))) :
    Fine (p, Seg.cubic c1 c2 q) := by
  have hB0 : htB p c1 c2 ≠ 0 := by intro e; rw [e] at hB; norm_num at hB
  have e1 : htC p c1 = 3 * (c1.y - p.y) := by unfold htC; ring
  have e2 : 2 * htB p c1 c2 + htC p c1 = 3 * (q.y - c2.y) := by
    unfold htA at hA; unfold htB htC; linear_combination (-3) * hA
  rw [← e1, ← e2] at hd
  have eh : ∀ r, (sidePoint (p, Seg.cubic c1 c2 q) r).y = htB p c1 c2 * r ^ 2 + htC p c1 * r + p.y := by
    intro r; rw [height_pol, hA]; ring
  obtain ⟨B, eB⟩ : ∃ B, B = htB p c1 c2 := ⟨_, rfl⟩
  obtain ⟨C, eC⟩ : ∃ C, C = htC p c1 := ⟨_, rfl⟩
  obtain ⟨_, _, _, d1, d2, d3⟩ := pol_real p c1 c2 q
  rw [hA, mul_zero] at d1
  rw [← eB, ← eC] at hd eh
  rw [← eB] at hB hB0 d2
  rw [← eC] at d3
  have der : ∀ r, 0 ≤ r → r ≤ 1 → (1 / 10000 ≤ C ∧ 1 / 10000 ≤ 2 * B + C ∧ 1 / 10000 ≤ 2 * B * r + C) ∨
      (C ≤ -(1 / 10000) ∧ 2 * B + C ≤ -(1 / 10000) ∧ 2 * B * r + C ≤ -(1 / 10000)) := by
    intro r r0 r1
    rcases hd with ⟨k1, k2⟩ | ⟨k1, k2⟩
    · left; exact ⟨k1, k2, by nlinarith [mul_nonneg r0 (sub_nonneg.2 k2), mul_nonneg (sub_nonneg.2 r1) (sub_nonneg.2 k1)]⟩
    · right; exact ⟨k1, k2, by nlinarith [mul_nonneg r0 (sub_nonneg.2 k2), mul_nonneg (sub_nonneg.2 r1) (sub_nonneg.2 k1)]⟩
  have hz0 : isZero (0 : ℝ) = true := by rw [isZero_exact]; norm_num
  refine ⟨?_, reaches_real _, ?_, ?_⟩
  · rcases hd with ⟨k1, k2⟩ | ⟨k1, k2⟩
    · left
      intro a b a0 hab b1
      rw [eh, eh]
      have ha := der a a0 (by linarith)
      have hb := der b (by linarith) b1
      have : 0 < B * (a + b) + C := by
        rcases ha with ha | ha <;> rcases hb with hb | hb <;> linarith [ha.1, hb.1, ha.2.2, hb.2.2]
      nlinarith [mul_pos (sub_pos.2 hab) this]
    · right
      intro a b a0 hab b1
      rw [eh, eh]
      have ha := der a a0 (by linarith)
      have hb := der b (by linarith) b1
      have : B * (a + b) + C < 0 := by
        rcases ha with ha | ha <;> rcases hb with hb | hb <;> linarith [ha.1, hb.1, ha.2.2, hb.2.2]
      nlinarith [mul_neg_of_pos_of_neg (sub_pos.2 hab) this]
  · refine whole_of ?_
    unfold Cubic.splitY
    simp only [d1, d2, d3, hz0, if_true]
    have hzb : isZero (2 * B) = false := by
      rw [Bool.eq_false_iff, Ne, isZero_exact, not_lt, abs_mul, abs_of_pos (by norm_num : (0:ℝ) < 2)]; linarith
    rw [hzb]
    simp only [Bool.false_eq_true, if_false, Exact.neg_eq, Exact.div_eq]
    rw [if_neg]
    simp only [Bool.and_eq_true, lt_eq_decide, decide_eq_true_eq, exact_zero, exact_one]
    rintro ⟨t0, t1⟩
    have := der _ t0.le t1.le
    have e : 2 * B * (-C / (2 * B)) + C = 0 := by field_simp; ring
    rw [e] at this
    rcases this with h | h <;> linarith [h.2.2]
  · intro r r0 r1
    refine currX_real ?_
    rw [hA, eh, ← eB, ← eC]
    have hzb : isZero B = false := by rw [Bool.eq_false_iff, Ne, isZero_exact, not_lt]; exact hB
    have l4 : (FNum.lit 4 : ℝ) = 4 := by rw [Exact.lit_eq]; norm_num
    have l2 : (FNum.lit 2 : ℝ) = 2 := by rw [Exact.lit_eq]; norm_num
    have ek : C * C - 4 * B * (p.y - (B * r ^ 2 + C * r + p.y)) = (2 * B * r + C) ^ 2 := by ring
    have hg : 1 / 100000000 ≤ (2 * B * r + C) ^ 2 := by
      rcases der r r0 r1 with h | h <;> nlinarith [h.2.2]
    have hpos : 0 < (2 * B * r + C) ^ 2 := by linarith
    have hzk : isZero ((2 * B * r + C) ^ 2) = false := by
      rw [Bool.eq_false_iff, Ne, isZero_exact, not_lt, abs_of_pos hpos]; exact hg
    have es : (FTrans.sqrt ((2 * B * r + C) ^ 2) : ℝ) = |2 * B * r + C| := Real.sqrt_sq_eq_abs _
    unfold resolvCubic resolvQuad
    simp only [hz0, if_true, hzb, Bool.false_eq_true, if_false, Exact.mul_eq, Exact.sub_eq, Exact.add_eq, Exact.div_eq, Exact.neg_eq, l4, l2, ek, hzk, exact_zero,
      lt_eq_decide, decide_eq_true_eq, if_pos hpos, es]
    -- the other root
    have other : ¬ (0 ≤ -C / B - r ∧ -C / B - r ≤ 1) := by
      rintro ⟨t0, t1⟩
      have e : 2 * B * (-C / B - r) + C = -(2 * B * r + C) := by field_simp; ring
      have h1 := der _ t0 t1
      have h2 := der r r0 r1
      rw [e] at h1
      rcases h1 with h1 | h1 <;> rcases h2 with h2 | h2 <;> linarith [h1.1, h2.1, h1.2.2, h2.2.2]
    rcases der r r0 r1 with h | h
    · rw [abs_of_pos (by linarith [h.2.2])]
      have x1 : (-C + (2 * B * r + C)) / (2 * B) = r := by field_simp; ring
      have x2 : (-C - (2 * B * r + C)) / (2 * B) = -C / B - r := by field_simp; ring
      rw [x1, x2, List.filter_cons_of_pos (by simp [r0, r1]), List.filter_cons_of_neg (by simpa using other)]
      rfl
    · rw [abs_of_neg (by linarith [h.2.2])]
      have x1 : (-C + -(2 * B * r + C)) / (2 * B) = -C / B - r := by field_simp; ring
      have x2 : (-C - -(2 * B * r + C)) / (2 * B) = r := by field_simp; ring
      rw [x1, x2, List.filter_cons_of_neg (by simpa using other), List.filter_cons_of_pos (by simp [r0, r1])]
      rfl

end River.Upright
