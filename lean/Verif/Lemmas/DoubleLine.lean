import Verif.Lemmas.DoubleRound
import Verif.Lemmas.CurvedBreak

/-! # Segments between points of the grid, computed with doubles -/

namespace River

/-- The double holds an integer of limited size. -/
structure Holds (x : R64) (a : ℤ) (A : ℤ) : Prop where
  eq : x = R64.of a
  le : |a| ≤ A

theorem Holds.q {x : R64} {a A : ℤ} (h : Holds x a A) : x.q = a := h.eq

theorem Holds.add {x y : R64} {a b A B : ℤ} (hx : Holds x a A) (hy : Holds y b B) (h : A + B < 2 ^ 53) : Holds (x +. y) (a + b) (A + B) := by
  have hl : |a + b| ≤ A + B := (abs_add_le a b).trans (add_le_add hx.le hy.le)
  refine ⟨?_, hl⟩
  rw [R64.add_eq, hx.q, hy.q]
  have := rnd_int (a + b) (hl.trans_lt h)
  push_cast at this ⊢
  rw [this]

theorem Holds.sub {x y : R64} {a b A B : ℤ} (hx : Holds x a A) (hy : Holds y b B) (h : A + B < 2 ^ 53) : Holds (x -. y) (a - b) (A + B) := by
  have hl : |a - b| ≤ A + B := (abs_sub a b).trans (add_le_add hx.le hy.le)
  refine ⟨?_, hl⟩
  rw [R64.sub_eq, hx.q, hy.q]
  have := rnd_int (a - b) (hl.trans_lt h)
  push_cast at this ⊢
  rw [this]

theorem Holds.mul {x y : R64} {a b A B : ℤ} (hx : Holds x a A) (hy : Holds y b B) (h : A * B < 2 ^ 53) : Holds (x *. y) (a * b) (A * B) := by
  have hl : |a * b| ≤ A * B := by
    rw [abs_mul]
    exact mul_le_mul hx.le hy.le (abs_nonneg _) ((abs_nonneg _).trans hx.le)
  refine ⟨?_, hl⟩
  rw [R64.mul_eq, hx.q, hy.q]
  have := rnd_int (a * b) (hl.trans_lt h)
  push_cast at this ⊢
  rw [this]

theorem R64.lt_iff (a b : R64) : (a <. b) = true ↔ a.q < b.q := by
  change decide (a.q < b.q) = true ↔ _
  rw [decide_eq_true_eq]

theorem R64.le_iff (a b : R64) : (a ≤. b) = true ↔ a.q ≤ b.q := by
  change decide (a.q ≤ b.q) = true ↔ _
  rw [decide_eq_true_eq]

theorem R64.eq_iff (a b : R64) : (a ==. b) = true ↔ a.q = b.q := by
  change decide (a.q = b.q) = true ↔ _
  rw [decide_eq_true_eq]

theorem R64.zero : (FNum.lit 0 : R64).q = 0 := rndSigned_zero
theorem R64.one : (FNum.lit 1 : R64).q = 1 := by
  have := rnd_int 1 (by norm_num)
  push_cast at this
  exact this
theorem R64.two : (FNum.lit 2 : R64).q = 2 := by
  have := rnd_int 2 (by norm_num)
  push_cast at this
  exact this

/-- A point of the grid: integer coordinates of absolute value at most 32768. -/
def OnGrid (p : Vec2 ℚ) : Prop := ∃ a b : ℤ, |a| ≤ 2 ^ 15 ∧ |b| ≤ 2 ^ 15 ∧ p = ⟨a, b⟩

/-! ## quotients computed by way of the reciprocal -/

theorem quot_near (n d : ℤ) (hd : d ≠ 0) (hb : |d| ≤ 2 ^ 33) :
    ∃ θ : ℚ, |θ| ≤ 2 ^ (-51 : ℤ) ∧ rndSigned (n * rndSigned (1 / d)) = n / d * (1 + θ) := by
  have hdq : (d : ℚ) ≠ 0 := by exact_mod_cast hd
  have hd1 : (1 : ℚ) ≤ |(d : ℚ)| := by exact_mod_cast Int.one_le_abs hd
  have hbq : |(d : ℚ)| ≤ 2 ^ 33 := by exact_mod_cast hb
  have hdp : 0 < |(d : ℚ)| := lt_of_lt_of_le one_pos hd1
  by_cases hn : n = 0
  · subst hn
    exact ⟨0, by norm_num, by simp [rndSigned_zero]⟩
  have hnq : (n : ℚ) ≠ 0 := by exact_mod_cast hn
  have hn1 : (1 : ℚ) ≤ |(n : ℚ)| := by exact_mod_cast Int.one_le_abs hn
  have htiny : (2 : ℚ) ^ (-1022 : ℤ) ≤ 2 ^ (-34 : ℤ) := zpow_le_zpow_right₀ (by norm_num) (by norm_num)
  have habs : |1 / (d : ℚ)| = 1 / |(d : ℚ)| := by rw [abs_div, abs_one]
  have h1 : 2 ^ (-33 : ℤ) ≤ |1 / (d : ℚ)| := by
    rw [habs, le_div_iff₀ hdp]
    calc (2 : ℚ) ^ (-33 : ℤ) * |(d : ℚ)| ≤ 2 ^ (-33 : ℤ) * 2 ^ 33 := by gcongr
      _ = 1 := by norm_num
  have hr := rnd_rel (v := 1 / d) (htiny.trans (le_trans (by norm_num) h1))
  obtain ⟨R, hR⟩ : ∃ R, R = rndSigned (1 / (d : ℚ)) := ⟨_, rfl⟩
  rw [← hR] at hr ⊢
  obtain ⟨δ, hδ⟩ : ∃ δ, δ = d * R - 1 := ⟨_, rfl⟩
  have hRd : R = (1 + δ) / d := by rw [hδ]; field_simp; ring
  have hδ1 : |δ| ≤ 2 ^ (-53 : ℤ) := by
    have e : R - 1 / d = δ * (1 / d) := by rw [hRd]; field_simp; ring
    rw [e, abs_mul, mul_comm |1 / (d : ℚ)|] at hr
    exact le_of_mul_le_mul_right hr (lt_of_lt_of_le (by norm_num) h1)
  obtain ⟨v, hv⟩ : ∃ v, v = (n : ℚ) * R := ⟨_, rfl⟩
  rw [← hv]
  have hve : v = n / d * (1 + δ) := by rw [hv, hRd]; field_simp
  have hd2 : -(1 / 2) ≤ δ := le_trans (by norm_num) (abs_le.1 hδ1).1
  have hδp : (1 : ℚ) / 2 ≤ 1 + δ := by linarith
  have hvabs : 2 ^ (-34 : ℤ) ≤ |v| := by
    rw [hve, abs_mul, abs_of_nonneg (by linarith : (0 : ℚ) ≤ 1 + δ), abs_div]
    calc (2 : ℚ) ^ (-34 : ℤ) = 1 / 2 ^ 33 * (1 / 2) := by norm_num
      _ ≤ |(n : ℚ)| / |(d : ℚ)| * (1 + δ) := by gcongr
  have hr2 := rnd_rel (v := v) (htiny.trans hvabs)
  have hv0 : v ≠ 0 := by
    intro h
    rw [h, abs_zero] at hvabs
    exact absurd hvabs (by norm_num)
  obtain ⟨ε, hε⟩ : ∃ ε, ε = rndSigned v / v - 1 := ⟨_, rfl⟩
  have hwv : rndSigned v = v * (1 + ε) := by rw [hε]; field_simp; ring
  have hε1 : |ε| ≤ 2 ^ (-53 : ℤ) := by
    have e : rndSigned v - v = v * ε := by rw [hwv]; ring
    rw [e, abs_mul] at hr2
    exact le_of_mul_le_mul_left hr2 (abs_pos.2 hv0)
  refine ⟨δ + ε + δ * ε, ?_, ?_⟩
  · have h3 : |δ * ε| ≤ 2 ^ (-53 : ℤ) * 1 := by
      rw [abs_mul]
      exact mul_le_mul hδ1 (hε1.trans (by norm_num)) (abs_nonneg _) (by positivity)
    calc |δ + ε + δ * ε| ≤ |δ| + |ε| + |δ * ε| := (abs_add_le _ _).trans (add_le_add (abs_add_le _ _) le_rfl)
      _ ≤ 2 ^ (-53 : ℤ) + 2 ^ (-53 : ℤ) + 2 ^ (-53 : ℤ) * 1 := add_le_add (add_le_add hδ1 hε1) h3
      _ ≤ 2 ^ (-51 : ℤ) := by norm_num
  · rw [hwv, hve]; ring

/-- The position on a segment: if the computed one is between 0 and 1, so is the exact one. -/
theorem quot_unit {n d : ℤ} (hd : d ≠ 0) (hb : |d| ≤ 2 ^ 33) (h0 : 0 ≤ rndSigned (n * rndSigned (1 / d))) (h1 : rndSigned (n * rndSigned (1 / d)) ≤ 1) :
    0 ≤ (n : ℚ) / d ∧ (n : ℚ) / d ≤ 1 := by
  obtain ⟨θ, hθ, e⟩ := quot_near n d hd hb
  rw [e] at h0 h1
  have hθ' := abs_le.1 hθ
  have hp : (0 : ℚ) < 1 + θ := by
    have : (2 : ℚ) ^ (-51 : ℤ) < 1 := by norm_num
    linarith
  refine ⟨by by_contra hc; push Not at hc; exact absurd h0 (not_le.2 (mul_neg_of_neg_of_pos hc hp)), ?_⟩
  by_contra hc
  push Not at hc
  have hdp : (0 : ℚ) < |(d : ℚ)| := abs_pos.2 (by exact_mod_cast hd)
  have hbq : |(d : ℚ)| ≤ 2 ^ 33 := by exact_mod_cast hb
  have key : 1 + 1 / |(d : ℚ)| ≤ (n : ℚ) / d := by
    rcases lt_or_gt_of_ne hd with h | h
    · have hq : (d : ℚ) < 0 := by exact_mod_cast h
      rw [lt_div_iff_of_neg hq, one_mul] at hc
      have : n < d := by exact_mod_cast hc
      have : (n : ℚ) + 1 ≤ d := by exact_mod_cast this
      rw [abs_of_neg hq, le_div_iff_of_neg hq, add_mul, one_mul, div_mul_eq_mul_div, one_mul, div_neg, div_self hq.ne]
      linarith
    · have hq : (0 : ℚ) < d := by exact_mod_cast h
      rw [lt_div_iff₀ hq, one_mul] at hc
      have : d < n := by exact_mod_cast hc
      have : (d : ℚ) + 1 ≤ n := by exact_mod_cast this
      rw [abs_of_pos hq, le_div_iff₀ hq, add_mul, one_mul, div_mul_cancel₀ _ hq.ne']
      linarith
  have h33 : (1 : ℚ) / 2 ^ 33 ≤ 1 / |(d : ℚ)| := one_div_le_one_div_of_le hdp hbq
  have : (1 + 1 / 2 ^ 33) * (1 - 2 ^ (-51 : ℤ)) ≤ (n : ℚ) / d * (1 + θ) := by
    refine mul_le_mul (by linarith) (by linarith) (by norm_num) (by linarith [show (0 : ℚ) < 1 / 2 ^ 33 by norm_num])
  have h2 : (1 : ℚ) < (1 + 1 / 2 ^ 33) * (1 - 2 ^ (-51 : ℤ)) := by norm_num
  linarith

theorem inUnit_bounds : 0 ≤ rndSigned (rndSigned 0 + rndSigned (1 / 1000000)) ∧
    rndSigned (rndSigned 1 - rndSigned (1 / 1000000)) ≤ 1 - 1 / 2000000 := by decide +kernel

/-- Ends of a segment are recognised. -/
theorem quot_end {n d : ℤ} (hd : d ≠ 0) (hb : |d| ≤ 2 ^ 33) (h : (n : ℚ) / d = 0 ∨ (n : ℚ) / d = 1) :
    inUnit (K := R64) (R64.of (rndSigned (n * rndSigned (1 / d)))) = false := by
  obtain ⟨θ, hθ, e⟩ := quot_near n d hd hb
  rw [e]
  have hθ' : -(1 / 4000000) ≤ θ := le_trans (by norm_num) (abs_le.1 hθ).1
  rw [Bool.eq_false_iff]
  intro hu
  unfold inUnit at hu
  rw [Bool.and_eq_true, R64.lt_iff, R64.lt_iff] at hu
  obtain ⟨u1, u2⟩ := hu
  have k1 : rndSigned (rndSigned 0 + rndSigned (1 / 1000000)) < (n : ℚ) / d * (1 + θ) := u1
  have k2 : (n : ℚ) / d * (1 + θ) < rndSigned (rndSigned 1 - rndSigned (1 / 1000000)) := u2
  rcases h with h | h
  · rw [h, zero_mul] at k1
    linarith [inUnit_bounds.1]
  · rw [h, one_mul] at k2
    have := inUnit_bounds.2
    linarith

theorem pointBetween_iff {K : Type} [FNum K] [LinearOrder K] [LawfulOrd K] {p q r : Vec2 K}
    (hq : (FNum.neg FNum.maxNum ≤ q.x ∧ q.x ≤ FNum.maxNum) ∧ FNum.neg FNum.maxNum ≤ q.y ∧ q.y ≤ FNum.maxNum) :
    pointBetween p q r = true ↔ if q.x = r.x then min q.y r.y ≤ p.y ∧ p.y ≤ max q.y r.y else min q.x r.x ≤ p.x ∧ p.x ≤ max q.x r.x := by
  obtain ⟨⟨k1, k2⟩, k3, k4⟩ := hq
  unfold pointBetween Rect.of
  simp only [List.foldl_cons, List.foldl_nil, Rect.extend, Rect.start, fmin_eq_min, fmax_eq_max, le_eq_decide, eq_eq_decide,
    min_eq_right k2, min_eq_right k4, max_eq_right k1, max_eq_right k3, decide_eq_true_eq]
  split <;> rw [Bool.and_eq_true, decide_eq_true_eq, decide_eq_true_eq]

/-! ## the distance of a point from a line -/

theorem rnd_nonneg {v : ℚ} (h : 0 ≤ v) : 0 ≤ rndSigned v := by
  unfold rndSigned
  rw [if_neg (not_lt.2 h)]
  unfold rndMag
  split_ifs
  · exact le_rfl
  · simp only [pow2_eq]; positivity

theorem rnd_big {v c : ℚ} (hc : 2 ^ (-1022 : ℤ) ≤ c) (h : c ≤ |v|) : c / 2 < |rndSigned v| := by
  have hc0 : 0 < c := lt_of_lt_of_le (by positivity) hc
  have h1 := rnd_rel (v := v) (hc.trans h)
  have h2 : |v| ≤ |rndSigned v| + |rndSigned v - v| := by
    have := abs_sub_abs_le_abs_sub v (rndSigned v)
    rw [abs_sub_comm] at this
    linarith
  have h3 : |v| * 2 ^ (-53 : ℤ) ≤ |v| * (1 / 4) := mul_le_mul_of_nonneg_left (by norm_num) (abs_nonneg _)
  have h4 := h1.trans h3
  clear hc h1 h3
  linarith

theorem sq_zero {u v : ℚ} (h : rndSigned (rndSigned (u * u) + rndSigned (v * v)) = 0) : |u| < 1 / 2 ^ 20 ∧ |v| < 1 / 2 ^ 20 := by
  have tiny : (2 : ℚ) ^ (-1022 : ℤ) ≤ 2 ^ (-41 : ℤ) := zpow_le_zpow_right₀ (by norm_num) (by norm_num)
  have key : ∀ u v : ℚ, rndSigned (rndSigned (u * u) + rndSigned (v * v)) = 0 → |u| < 1 / 2 ^ 20 := by
    intro u v h
    by_contra hc
    push Not at hc
    have h1 : 2 ^ (-40 : ℤ) ≤ |u * u| := by
      rw [abs_mul]
      calc (2 : ℚ) ^ (-40 : ℤ) = 1 / 2 ^ 20 * (1 / 2 ^ 20) := by norm_num
        _ ≤ |u| * |u| := mul_le_mul hc hc (by norm_num) (abs_nonneg _)
    have h2 := rnd_big (tiny.trans (by norm_num)) h1
    have p1 := rnd_nonneg (mul_self_nonneg u)
    have p2 := rnd_nonneg (mul_self_nonneg v)
    rw [abs_of_nonneg p1] at h2
    have h3 := rnd_big (v := rndSigned (u * u) + rndSigned (v * v)) (c := 2 ^ (-41 : ℤ)) tiny (by
      rw [abs_of_nonneg (by linarith)]
      exact le_trans (by norm_num) (h2.le.trans (le_add_of_nonneg_right p2)))
    rw [h, abs_zero] at h3
    exact absurd h3 (by norm_num)
  exact ⟨key u v h, key v u (by rw [add_comm]; exact h)⟩

/-- The coordinates of the foot of the perpendicular, whatever position on the line was computed for it. -/
theorem foot_near {a l p : ℤ} (ha : |a| ≤ 2 ^ 16) (hl : |l| ≤ 2 ^ 15) {φ : ℚ} (hφ : |φ| ≤ 2)
    (h : |rndSigned (p - rndSigned (l + rndSigned (a * φ)))| < 1 / 2 ^ 20) : |(p : ℚ) - l - a * φ| < 1 / 2 ^ 18 := by
  have haq : |(a : ℚ)| ≤ 2 ^ 16 := by exact_mod_cast ha
  have hlq : |(l : ℚ)| ≤ 2 ^ 15 := by exact_mod_cast hl
  have h1 : |(a : ℚ) * φ| ≤ 2 ^ 17 := by
    rw [abs_mul]
    calc |(a : ℚ)| * |φ| ≤ 2 ^ 16 * 2 := mul_le_mul haq hφ (abs_nonneg _) (by norm_num)
      _ = 2 ^ 17 := by norm_num
  have e1 := rnd_err (v := a * φ) (E := 17) (by norm_num) (h1.trans_lt (by norm_num))
  obtain ⟨w, hw⟩ : ∃ w, w = rndSigned (a * φ) := ⟨_, rfl⟩
  rw [← hw] at e1 h
  have e1' : |w - a * φ| ≤ 1 / 2 ^ 36 := e1.trans (by norm_num)
  have h2 : |(l : ℚ) + w| ≤ 2 ^ 18 := by
    have := abs_add_le (l : ℚ) w
    have := abs_add_le (w - a * φ) (a * φ)
    rw [sub_add_cancel] at this
    have : (2 : ℚ) ^ 15 + (1 / 2 ^ 36 + 2 ^ 17) ≤ 2 ^ 18 := by norm_num
    linarith
  have e2 := rnd_err (v := l + w) (E := 18) (by norm_num) (h2.trans_lt (by norm_num))
  obtain ⟨D, hD⟩ : ∃ D, D = rndSigned ((l : ℚ) + w) := ⟨_, rfl⟩
  rw [← hD] at e2 h
  have e2' : |D - (l + w)| ≤ 1 / 2 ^ 35 := e2.trans (by norm_num)
  have h3 : |(p : ℚ) - D| < 1 / 2 ^ 19 := by
    by_contra hc
    push Not at hc
    have := rnd_big (v := (p : ℚ) - D) (c := 1 / 2 ^ 19)
      (le_trans (zpow_le_zpow_right₀ (by norm_num) (by norm_num : (-1022 : ℤ) ≤ -19)) (by norm_num)) hc
    have e : (1 : ℚ) / 2 ^ 19 / 2 = 1 / 2 ^ 20 := by norm_num
    linarith
  have e : (p : ℚ) - l - a * φ = (p - D) + (D - (l + w)) + (w - a * φ) := by ring
  rw [e]
  have a1 := abs_add_le ((p : ℚ) - D + (D - (l + w))) (w - a * φ)
  have a2 := abs_add_le ((p : ℚ) - D) (D - (l + w))
  have : (1 : ℚ) / 2 ^ 19 + 1 / 2 ^ 35 + 1 / 2 ^ 36 < 1 / 2 ^ 18 := by norm_num
  linarith

theorem Holds.dist2_zero {x y : R64} {a b : ℤ} (hx : Holds x a (2 ^ 16)) (hy : Holds y b (2 ^ 16)) (h : (x *. x +. y *. y).q = 0) : a = 0 ∧ b = 0 := by
  have := ((hx.mul hx (by norm_num)).add (hy.mul hy (by norm_num)) (by norm_num)).q
  rw [h] at this
  have : a * a + b * b = 0 := by exact_mod_cast this.symm
  constructor <;> nlinarith [mul_self_nonneg a, mul_self_nonneg b]

/-- If the computed distance of a grid point from the line through two others is 0, they are on one line. -/
theorem dist2_zero {px py ax ay bx by' : ℤ} (hp : |px| ≤ 2 ^ 15 ∧ |py| ≤ 2 ^ 15) (ha : |ax| ≤ 2 ^ 15 ∧ |ay| ≤ 2 ^ 15) (hb : |bx| ≤ 2 ^ 15 ∧ |by'| ≤ 2 ^ 15)
    (hne : ax ≠ bx ∨ ay ≠ by')
    (h : (dist2PointLine (K := R64) ⟨R64.of px, R64.of py⟩ ⟨R64.of ax, R64.of ay⟩ ⟨R64.of bx, R64.of by'⟩ ==. FNum.lit 0) = true) :
    (px - ax) * (by' - ay) = (py - ay) * (bx - ax) := by
  rw [R64.eq_iff, R64.zero] at h
  have cpx : Holds (R64.of px) px (2 ^ 15) := ⟨rfl, hp.1⟩
  have cpy : Holds (R64.of py) py (2 ^ 15) := ⟨rfl, hp.2⟩
  have cax : Holds (R64.of ax) ax (2 ^ 15) := ⟨rfl, ha.1⟩
  have cay : Holds (R64.of ay) ay (2 ^ 15) := ⟨rfl, ha.2⟩
  have cbx : Holds (R64.of bx) bx (2 ^ 15) := ⟨rfl, hb.1⟩
  have cby : Holds (R64.of by') by' (2 ^ 15) := ⟨rfl, hb.2⟩
  have ACx : Holds _ _ (2 ^ 16) := cpx.sub cax (by norm_num)
  have ACy : Holds _ _ (2 ^ 16) := cpy.sub cay (by norm_num)
  have ABx : Holds _ _ (2 ^ 16) := cbx.sub cax (by norm_num)
  have ABy : Holds _ _ (2 ^ 16) := cby.sub cay (by norm_num)
  have PBx : Holds _ _ (2 ^ 16) := cpx.sub cbx (by norm_num)
  have PBy : Holds _ _ (2 ^ 16) := cpy.sub cby (by norm_num)
  have hd := (ABx.mul ABx (by norm_num)).add (ABy.mul ABy (by norm_num)) (by norm_num)
  have hf := (ABx.mul ACx (by norm_num)).add (ABy.mul ACy (by norm_num)) (by norm_num)
  obtain ⟨d, hde⟩ : ∃ d, d = (bx - ax) * (bx - ax) + (by' - ay) * (by' - ay) := ⟨_, rfl⟩
  obtain ⟨f, hfe⟩ : ∃ f, f = (bx - ax) * (px - ax) + (by' - ay) * (py - ay) := ⟨_, rfl⟩
  rw [← hde] at hd
  rw [← hfe] at hf
  unfold dist2PointLine at h
  dsimp only at h
  split at h
  · obtain ⟨e1, e2⟩ := ACx.dist2_zero ACy h
    rw [e1, e2]; ring
  · next c1 =>
    split at h
    · obtain ⟨e1, e2⟩ := PBx.dist2_zero PBy h
      have e1 : px = bx := by omega
      have e2 : py = by' := by omega
      rw [e1, e2]; ring
    · next c2 =>
      simp only [Vec2.sub, Vec2.dist2, Vec2.dot, Vec2.add, Vec2.smul] at h c1 c2
      rw [R64.lt_iff, hf.q, R64.zero, not_lt] at c1
      rw [R64.lt_iff, hf.q, hd.q, not_lt] at c2
      have hd0 : 0 < d := by
        rw [hde]
        rcases hne with h | h
        · have : 0 < (bx - ax) * (bx - ax) := by
            exact mul_self_pos.2 (sub_ne_zero.2 (Ne.symm h))
          nlinarith [mul_self_nonneg (by' - ay)]
        · have : 0 < (by' - ay) * (by' - ay) := by
            exact mul_self_pos.2 (sub_ne_zero.2 (Ne.symm h))
          nlinarith [mul_self_nonneg (bx - ax)]
      have hdq : (0 : ℚ) < d := by exact_mod_cast hd0
      rw [R64.div_eq, hf.q, hd.q] at h
      obtain ⟨φ, hφe⟩ : ∃ φ, φ = rndSigned ((f : ℚ) / d) := ⟨_, rfl⟩
      rw [← hφe] at h
      have hφ : |φ| ≤ 2 := by
        have h0 : |(f : ℚ) / d| ≤ 1 := by
          rw [abs_of_nonneg (div_nonneg c1 hdq.le), div_le_one hdq]; exact c2
        have := rnd_err (v := (f : ℚ) / d) (E := 0) (by norm_num) (h0.trans_lt (by norm_num))
        rw [← hφe] at this
        have h2 := abs_add_le (φ - f / d) (f / d)
        rw [sub_add_cancel] at h2
        have : (2 : ℚ) ^ ((0 : ℤ) - 53) ≤ 1 := by norm_num
        linarith
      obtain ⟨s1, s2⟩ := sq_zero h
      rw [R64.add_eq, R64.mul_eq, ABx.q, cax.q] at s1
      rw [R64.add_eq, R64.mul_eq, ABy.q, cay.q] at s2
      have n1 := foot_near (p := px) ABx.le ha.1 hφ s1
      have n2 := foot_near (p := py) ABy.le ha.2 hφ s2
      have a1 : |((bx - ax : ℤ) : ℚ)| ≤ 2 ^ 16 := by exact_mod_cast ABx.le
      have a2 : |((by' - ay : ℤ) : ℚ)| ≤ 2 ^ 16 := by exact_mod_cast ABy.le
      obtain ⟨u, hu⟩ : ∃ u, u = (px : ℚ) - ax - ((bx - ax : ℤ) : ℚ) * φ := ⟨_, rfl⟩
      obtain ⟨v, hv⟩ : ∃ v, v = (py : ℚ) - ay - ((by' - ay : ℤ) : ℚ) * φ := ⟨_, rfl⟩
      rw [← hu] at n1
      rw [← hv] at n2
      have key : (((px - ax) * (by' - ay) - (py - ay) * (bx - ax) : ℤ) : ℚ) = u * ((by' - ay : ℤ) : ℚ) - v * ((bx - ax : ℤ) : ℚ) := by
        rw [hu, hv]; push_cast; ring
      have m1 : |u * ((by' - ay : ℤ) : ℚ)| ≤ 1 / 4 := by
        rw [abs_mul]
        calc |u| * |((by' - ay : ℤ) : ℚ)| ≤ 1 / 2 ^ 18 * 2 ^ 16 := mul_le_mul n1.le a2 (abs_nonneg _) (by norm_num)
          _ = 1 / 4 := by norm_num
      have m2 : |v * ((bx - ax : ℤ) : ℚ)| ≤ 1 / 4 := by
        rw [abs_mul]
        calc |v| * |((bx - ax : ℤ) : ℚ)| ≤ 1 / 2 ^ 18 * 2 ^ 16 := mul_le_mul n2.le a1 (abs_nonneg _) (by norm_num)
          _ = 1 / 4 := by norm_num
      have hlt : |(((px - ax) * (by' - ay) - (py - ay) * (bx - ax) : ℤ) : ℚ)| < 1 := by
        rw [key]
        have := abs_sub (u * ((by' - ay : ℤ) : ℚ)) (v * ((bx - ax : ℤ) : ℚ))
        linarith
      have : |(px - ax) * (by' - ay) - (py - ay) * (bx - ax)| < 1 := by exact_mod_cast hlt
      have := Int.abs_lt_one_iff.1 this
      linarith

/-! ## intersections of segments -/

theorem max_big : (2 ^ 15 : ℚ) ≤ dblMax := by decide +kernel

theorem grid_range {a b : ℤ} (ha : |a| ≤ 2 ^ 15) (hb : |b| ≤ 2 ^ 15) :
    (-(dblMax : ℚ) ≤ a ∧ (a : ℚ) ≤ dblMax) ∧ -(dblMax : ℚ) ≤ b ∧ (b : ℚ) ≤ dblMax := by
  have hm := max_big
  have h1 : |(a : ℚ)| ≤ 2 ^ 15 := by exact_mod_cast ha
  have h2 : |(b : ℚ)| ≤ 2 ^ 15 := by exact_mod_cast hb
  obtain ⟨a1, a2⟩ := abs_le.1 (h1.trans hm)
  obtain ⟨b1, b2⟩ := abs_le.1 (h2.trans hm)
  exact ⟨⟨a1, a2⟩, b1, b2⟩

/-- A point on the line through two others that is found to be between them is on the segment. -/
theorem between_onSeg {px py ax ay bx by' : ℤ} (ha : |ax| ≤ 2 ^ 15 ∧ |ay| ≤ 2 ^ 15) (hb : |bx| ≤ 2 ^ 15 ∧ |by'| ≤ 2 ^ 15)
    (hne : ax ≠ bx ∨ ay ≠ by') (hc : (px - ax) * (by' - ay) = (py - ay) * (bx - ax))
    (h : pointBetween (K := R64) ⟨R64.of px, R64.of py⟩ ⟨R64.of ax, R64.of ay⟩ ⟨R64.of bx, R64.of by'⟩ = true) :
    OnSeg (⟨px, py⟩ : Vec2 ℚ) ⟨ax, ay⟩ ⟨bx, by'⟩ := by
  have hcq : ((px : ℚ) - ax) * (by' - ay) = (py - ay) * (bx - ax) := by exact_mod_cast hc
  have ra := grid_range ha.1 ha.2
  have rb := grid_range hb.1 hb.2
  have hneq : (⟨ax, ay⟩ : Vec2 ℚ) ≠ ⟨bx, by'⟩ := by
    intro e
    have e1 : (ax : ℚ) = bx := congrArg Vec2.x e
    have e2 : (ay : ℚ) = by' := congrArg Vec2.y e
    rcases hne with h | h
    · exact h (by exact_mod_cast e1)
    · exact h (by exact_mod_cast e2)
  obtain ⟨t, ht⟩ : ∃ t : ℚ, (⟨(px : ℚ), (py : ℚ)⟩ : Vec2 ℚ) = lerp ⟨(ax : ℚ), (ay : ℚ)⟩ ⟨(bx : ℚ), (by' : ℚ)⟩ t := by
    by_cases hx : (bx : ℚ) - ax = 0
    · have hy : (by' : ℚ) - ay ≠ 0 := by
        intro hy
        exact hneq (Vec2.ext (by simp only; linarith) (by simp only; linarith))
      refine ⟨(py - ay) / (by' - ay), Vec2.ext ?_ ?_⟩
      · simp only [lerp, hx, mul_zero, add_zero]
        rw [hx, mul_zero] at hcq
        have := (mul_eq_zero.1 hcq).resolve_right hy
        linarith
      · simp only [lerp]; field_simp; ring
    · refine ⟨(px - ax) / (bx - ax), Vec2.ext ?_ ?_⟩
      · simp only [lerp]; field_simp; ring
      · simp only [lerp]
        rw [div_mul_eq_mul_div, hcq, mul_div_cancel_right₀ _ hx]; ring
  have h64 := (pointBetween_iff (K := R64) (p := ⟨R64.of px, R64.of py⟩) (q := ⟨R64.of ax, R64.of ay⟩) (r := ⟨R64.of bx, R64.of by'⟩) ra).1 h
  have hQ := (pointBetween_iff (K := ℚ) (p := ⟨(px : ℚ), (py : ℚ)⟩) (q := ⟨(ax : ℚ), (ay : ℚ)⟩) (r := ⟨(bx : ℚ), (by' : ℚ)⟩) ra).2 h64
  obtain ⟨t0, t1⟩ := (pointBetween_exact (K := ℚ) ⟨ra.1.1, ra.1.2, ra.2.1, ra.2.2⟩ ⟨rb.1.1, rb.1.2, rb.2.1, rb.2.2⟩ t hneq ht).1 hQ
  exact ⟨t, t0, t1, ht⟩

theorem OnSeg.ends {a b : Vec2 ℚ} : OnSeg a a b ∧ OnSeg b a b :=
  ⟨⟨0, le_rfl, zero_le_one, (lerp_zero _ _).symm⟩, ⟨1, zero_le_one, le_rfl, (lerp_one _ _).symm⟩⟩

/-- Segments between grid points that have at most common ends are found to have no other intersections. -/
theorem lineIntersect_grid {p0 p1 p2 p3 : Vec2 ℚ} (g0 : OnGrid p0) (g1 : OnGrid p1) (g2 : OnGrid p2) (g3 : OnGrid p3) (n01 : p0 ≠ p1) (n23 : p2 ≠ p3)
    (hE : ∀ p, OnSeg p p0 p1 → OnSeg p p2 p3 → (p = p0 ∨ p = p1) ∧ (p = p2 ∨ p = p3)) :
    ∃ l, lineIntersect (K := R64) p0 p1 p2 p3 = some l ∧ ∀ d ∈ l, inUnit (K := R64) d.t0 = false ∧ inUnit (K := R64) d.t1 = false := by
  obtain ⟨x0, y0, hx0, hy0, rfl⟩ := g0
  obtain ⟨x1, y1, hx1, hy1, rfl⟩ := g1
  obtain ⟨x2, y2, hx2, hy2, rfl⟩ := g2
  obtain ⟨x3, y3, hx3, hy3, rfl⟩ := g3
  have m01 : x0 ≠ x1 ∨ y0 ≠ y1 := by
    by_contra h
    push Not at h
    exact n01 (by rw [h.1, h.2])
  have m23 : x2 ≠ x3 ∨ y2 ≠ y3 := by
    by_contra h
    push Not at h
    exact n23 (by rw [h.1, h.2])
  have H : ∀ {a : ℤ}, |a| ≤ 2 ^ 15 → Holds (R64.of a) a (2 ^ 15) := fun h => ⟨rfl, h⟩
  suffices key : ∀ P0 P1 P2 P3 : Vec2 R64, P0 = ⟨R64.of x0, R64.of y0⟩ → P1 = ⟨R64.of x1, R64.of y1⟩ → P2 = ⟨R64.of x2, R64.of y2⟩ →
      P3 = ⟨R64.of x3, R64.of y3⟩ → ∃ l, lineIntersect P0 P1 P2 P3 = some l ∧ ∀ d ∈ l, inUnit d.t0 = false ∧ inUnit d.t1 = false from
    key _ _ _ _ rfl rfl rfl rfl
  intro P0 P1 P2 P3 h0' h1' h2' h3'
  have ax : Holds (P1.sub P0).x (x1 - x0) (2 ^ 16) := by rw [h0', h1']; exact (H hx1).sub (H hx0) (by norm_num)
  have ay : Holds (P1.sub P0).y (y1 - y0) (2 ^ 16) := by rw [h0', h1']; exact (H hy1).sub (H hy0) (by norm_num)
  have bx : Holds (P2.sub P3).x (x2 - x3) (2 ^ 16) := by rw [h2', h3']; exact (H hx2).sub (H hx3) (by norm_num)
  have by' : Holds (P2.sub P3).y (y2 - y3) (2 ^ 16) := by rw [h2', h3']; exact (H hy2).sub (H hy3) (by norm_num)
  have cx : Holds (P0.sub P2).x (x0 - x2) (2 ^ 16) := by rw [h0', h2']; exact (H hx0).sub (H hx2) (by norm_num)
  have cy : Holds (P0.sub P2).y (y0 - y2) (2 ^ 16) := by rw [h0', h2']; exact (H hy0).sub (H hy2) (by norm_num)
  have hden : Holds _ _ (2 ^ 33) := (ay.mul bx (by norm_num)).sub (ax.mul by' (by norm_num)) (by norm_num)
  have hna : Holds _ _ (2 ^ 33) := (by'.mul cx (by norm_num)).sub (bx.mul cy (by norm_num)) (by norm_num)
  have hnb : Holds _ _ (2 ^ 33) := (ax.mul cy (by norm_num)).sub (ay.mul cx (by norm_num)) (by norm_num)
  obtain ⟨d, hd⟩ : ∃ d, d = (y1 - y0) * (x2 - x3) - (x1 - x0) * (y2 - y3) := ⟨_, rfl⟩
  obtain ⟨na, hnae⟩ : ∃ n, n = (y2 - y3) * (x0 - x2) - (x2 - x3) * (y0 - y2) := ⟨_, rfl⟩
  obtain ⟨nb, hnbe⟩ : ∃ n, n = (x1 - x0) * (y0 - y2) - (y1 - y0) * (x0 - x2) := ⟨_, rfl⟩
  rw [← hd] at hden
  rw [← hnae] at hna
  rw [← hnbe] at hnb
  unfold lineIntersect
  dsimp only
  by_cases h0 : d = 0
  · -- parallel
    have hz : (((P1.sub P0).y *. (P2.sub P3).x -.
        (P1.sub P0).x *. (P2.sub P3).y ==. FNum.lit 0) : Bool) = true := by
      rw [R64.eq_iff, R64.zero]
      refine hden.q.trans ?_
      rw [h0]; rfl
    rw [hz, Bool.true_or, if_pos rfl]
    split
    · next hdist =>
      have hcol := dist2_zero (px := x0) (py := y0) (ax := x2) (ay := y2) (bx := x3) (by' := y3) ⟨hx0, hy0⟩ ⟨hx2, hy2⟩ ⟨hx3, hy3⟩ m23 (by rw [← h0', ← h2', ← h3']; exact hdist)
      have bne : ∀ a b : Vec2 R64, a.bne b = true ↔ a ≠ b := by
        intro a b; unfold Vec2.bne; rw [Bool.not_eq_true', ← Bool.not_eq_true, Vec2.beq_iff]
      have c1 : (x1 - x2) * (y3 - y2) = (y1 - y2) * (x3 - x2) := by
        rw [hd] at h0; linear_combination hcol + h0
      -- the other two points are on the line of the first two
      have c2 : (x2 - x0) * (y1 - y0) = (y2 - y0) * (x1 - x0) := by
        rcases m23 with h | h
        · have hx : x2 - x3 ≠ 0 := sub_ne_zero.2 h
          apply mul_right_cancel₀ hx
          rw [hd] at h0
          linear_combination (x2 - x0) * h0 + (x1 - x0) * hcol
        · have hy : y2 - y3 ≠ 0 := sub_ne_zero.2 h
          apply mul_right_cancel₀ hy
          rw [hd] at h0
          linear_combination (y2 - y0) * h0 + (y1 - y0) * hcol
      have c3 : (x3 - x0) * (y1 - y0) = (y3 - y0) * (x1 - x0) := by
        rw [hd] at h0; linear_combination c2 - h0
      have k0 : (P0.bne P2 && P0.bne P3 &&
          pointBetween P0 P2 P3) = false := by
        rw [Bool.eq_false_iff]
        intro h
        rw [Bool.and_eq_true, Bool.and_eq_true, bne, bne] at h
        obtain ⟨⟨h1, h2⟩, h3⟩ := h
        rcases (hE _ OnSeg.ends.1 (between_onSeg ⟨hx2, hy2⟩ ⟨hx3, hy3⟩ m23 hcol (by rw [← h0', ← h2', ← h3']; exact h3))).2 with e | e
        · exact h1 (by rw [h0', h2']; exact e)
        · exact h2 (by rw [h0', h3']; exact e)
      have k1 : (P1.bne P2 && P1.bne P3 &&
          pointBetween P1 P2 P3) = false := by
        rw [Bool.eq_false_iff]
        intro h
        rw [Bool.and_eq_true, Bool.and_eq_true, bne, bne] at h
        obtain ⟨⟨h1, h2⟩, h3⟩ := h
        rcases (hE _ OnSeg.ends.2 (between_onSeg ⟨hx2, hy2⟩ ⟨hx3, hy3⟩ m23 c1 (by rw [← h1', ← h2', ← h3']; exact h3))).2 with e | e
        · exact h1 (by rw [h1', h2']; exact e)
        · exact h2 (by rw [h1', h3']; exact e)
      have k2 : (P2.bne P0 && P2.bne P1 &&
          pointBetween P2 P0 P1) = false := by
        rw [Bool.eq_false_iff]
        intro h
        rw [Bool.and_eq_true, Bool.and_eq_true, bne, bne] at h
        obtain ⟨⟨h1, h2⟩, h3⟩ := h
        rcases (hE _ (between_onSeg ⟨hx0, hy0⟩ ⟨hx1, hy1⟩ m01 c2 (by rw [← h2', ← h0', ← h1']; exact h3)) OnSeg.ends.1).1 with e | e
        · exact h1 (by rw [h2', h0']; exact e)
        · exact h2 (by rw [h2', h1']; exact e)
      have k3 : (P3.bne P0 && P3.bne P1 &&
          pointBetween P3 P0 P1) = false := by
        rw [Bool.eq_false_iff]
        intro h
        rw [Bool.and_eq_true, Bool.and_eq_true, bne, bne] at h
        obtain ⟨⟨h1, h2⟩, h3⟩ := h
        rcases (hE _ (between_onSeg ⟨hx0, hy0⟩ ⟨hx1, hy1⟩ m01 c3 (by rw [← h3', ← h0', ← h1']; exact h3)) OnSeg.ends.2).1 with e | e
        · exact h1 (by rw [h3', h0']; exact e)
        · exact h2 (by rw [h3', h1']; exact e)
      rw [k0, k1, k2, k3]
      exact ⟨[], rfl, by simp⟩
    · exact ⟨[], rfl, by simp⟩
  · -- not parallel
    have hz : (((P1.sub P0).y *. (P2.sub P3).x -.
        (P1.sub P0).x *. (P2.sub P3).y ==. FNum.lit 0) : Bool) = false := by
      rw [Bool.eq_false_iff, Ne, R64.eq_iff, R64.zero]
      intro h
      apply h0
      have := hden.q.symm.trans h
      exact_mod_cast this
    rw [hz, Bool.false_or, if_neg (by intro h; exact Bool.false_ne_true h)]
    split
    · next hin =>
      refine ⟨_, rfl, ?_⟩
      intro i hi
      rw [List.mem_singleton] at hi
      subst hi
      rw [Bool.and_eq_true, Bool.and_eq_true, Bool.and_eq_true, R64.le_iff, R64.le_iff, R64.le_iff, R64.le_iff, R64.zero, R64.one] at hin
      obtain ⟨⟨a0, a1⟩, b0, b1⟩ := hin
      have ea : (((P2.sub P3).y *. (P0.sub P2).x -.
          (P2.sub P3).x *. (P0.sub P2).y) *.
          (FNum.lit 1 /. ((P1.sub P0).y *. (P2.sub P3).x -.
        (P1.sub P0).x *. (P2.sub P3).y)) : R64) =
          R64.of (rndSigned (na * rndSigned (1 / d))) := by
        rw [R64.mul_eq, R64.div_eq, R64.one]
        refine congrArg R64.of (congrArg rndSigned (congrArg₂ (· * ·) hna.q (congrArg rndSigned (congrArg (1 / ·) hden.q))))
      have eb : (((P1.sub P0).x *. (P0.sub P2).y -.
          (P1.sub P0).y *. (P0.sub P2).x) *.
          (FNum.lit 1 /. ((P1.sub P0).y *. (P2.sub P3).x -.
        (P1.sub P0).x *. (P2.sub P3).y)) : R64) =
          R64.of (rndSigned (nb * rndSigned (1 / d))) := by
        rw [R64.mul_eq, R64.div_eq, R64.one]
        refine congrArg R64.of (congrArg rndSigned (congrArg₂ (· * ·) hnb.q (congrArg rndSigned (congrArg (1 / ·) hden.q))))
      rw [ea] at a0 a1
      rw [eb] at b0 b1
      dsimp only
      rw [ea, eb]
      obtain ⟨s0, s1⟩ := quot_unit h0 hden.le a0 a1
      obtain ⟨t0, t1⟩ := quot_unit h0 hden.le b0 b1
      have hdq : (d : ℚ) ≠ 0 := by exact_mod_cast h0
      have meet : lerp (⟨(x0 : ℚ), (y0 : ℚ)⟩ : Vec2 ℚ) ⟨(x1 : ℚ), (y1 : ℚ)⟩ ((na : ℚ) / d) = lerp ⟨(x2 : ℚ), (y2 : ℚ)⟩ ⟨(x3 : ℚ), (y3 : ℚ)⟩ ((nb : ℚ) / d) := by
        refine Vec2.ext ?_ ?_
        · simp only [lerp]
          field_simp
          rw [hd, hnae, hnbe]; push_cast; ring
        · simp only [lerp]
          field_simp
          rw [hd, hnae, hnbe]; push_cast; ring
      obtain ⟨e1, e2⟩ := hE _ ⟨_, s0, s1, rfl⟩ ⟨_, t0, t1, meet⟩
      have lerp_end : ∀ {a b : Vec2 ℚ} {t : ℚ}, a ≠ b → (lerp a b t = a ∨ lerp a b t = b) → t = 0 ∨ t = 1 := by
        intro a b t hne h
        have hx : ∀ {u v : ℚ}, u ≠ v → (u + t * (v - u) = u ∨ u + t * (v - u) = v) → t = 0 ∨ t = 1 := by
          intro u v huv h
          have : v - u ≠ 0 := sub_ne_zero.2 huv.symm
          rcases h with h | h
          · left; exact (mul_eq_zero.1 (by linarith : t * (v - u) = 0)).resolve_right this
          · right
            have : (t - 1) * (v - u) = 0 := by linear_combination h
            exact sub_eq_zero.1 ((mul_eq_zero.1 this).resolve_right (by assumption))
        by_cases ex : a.x = b.x
        · refine hx (u := a.y) (v := b.y) (fun e => hne (Vec2.ext ex e)) ?_
          exact h.imp (fun h => congrArg Vec2.y h) (fun h => congrArg Vec2.y h)
        · exact hx ex (h.imp (fun h => congrArg Vec2.x h) (fun h => congrArg Vec2.x h))
      rw [meet] at e2
      exact ⟨quot_end h0 hden.le (lerp_end n01 e1), quot_end h0 hden.le (lerp_end n23 e2)⟩
    · exact ⟨[], rfl, by simp⟩

end River
