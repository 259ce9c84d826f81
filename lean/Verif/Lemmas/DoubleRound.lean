import Verif.Props.Double

/-! # Rounding errors of doubles -/

namespace River

theorem rndMag_zero : rndMag 0 = 0 := by unfold rndMag; simp

theorem rndSigned_neg (v : ℚ) : rndSigned (-v) = -rndSigned v := by
  unfold rndSigned
  rcases lt_trichotomy v 0 with h | h | h
  · rw [if_neg (by linarith), if_pos h, neg_neg]
  · subst h; simp [rndMag_zero]
  · rw [if_pos (by linarith), if_neg (by linarith), neg_neg]

theorem rndSigned_zero : rndSigned 0 = 0 := by unfold rndSigned; simp [rndMag_zero]

/-- The error is at most half a unit in the last place. -/
theorem rndMag_err {q : ℚ} (hq : 0 ≤ q) {E : ℤ} (hE : -1022 ≤ E) (h : q < 2 ^ (E + 1)) : |rndMag q - q| ≤ 2 ^ (E - 53) := by
  unfold rndMag
  split_ifs with h0
  · rw [h0]; simp only [sub_self, abs_zero]; positivity
  have hq' : 0 < q := lt_of_le_of_ne hq (Ne.symm h0)
  obtain ⟨h1, h2, h3⟩ := leadExp_spec hq'
  simp only [pow2_eq]
  obtain ⟨F, hF⟩ : ∃ F, F = leadExp q := ⟨_, rfl⟩
  rw [← hF] at h1 h2 h3 ⊢
  have hFE : F ≤ E := by
    rcases h1.lt_or_eq with h | h
    · have := h3 h
      have hlt : (2 : ℚ) ^ F < 2 ^ (E + 1) := this.trans_lt (by assumption)
      have := (zpow_lt_zpow_iff_right₀ (by norm_num : (1 : ℚ) < 2)).1 hlt
      omega
    · omega
  have hu : (0 : ℚ) < 2 ^ (F - 52) := by positivity
  obtain ⟨x, hx⟩ : ∃ x, x = q / 2 ^ (F - 52) := ⟨_, rfl⟩
  have hqx : q = x * 2 ^ (F - 52) := by rw [hx, div_mul_cancel₀ _ hu.ne']
  have hx0 : 0 ≤ x := by rw [hx]; positivity
  rw [← hx]
  have e : (nearestEven x : ℚ) * 2 ^ (F - 52) - q = (nearestEven x - x) * 2 ^ (F - 52) := by rw [hqx]; ring
  rw [e, abs_mul, abs_of_pos hu]
  calc |(nearestEven x : ℚ) - x| * 2 ^ (F - 52) ≤ 1 / 2 * 2 ^ (F - 52) := by
        have := nearestEven_near hx0
        gcongr
    _ = 2 ^ (F - 53) := by
        rw [show F - 52 = F - 53 + 1 by ring, zpow_add_one₀ (by norm_num)]; ring
    _ ≤ 2 ^ (E - 53) := zpow_le_zpow_right₀ (by norm_num) (by omega)

theorem rnd_err {v : ℚ} {E : ℤ} (hE : -1022 ≤ E) (h : |v| < 2 ^ (E + 1)) : |rndSigned v - v| ≤ 2 ^ (E - 53) := by
  unfold rndSigned
  split_ifs with h0
  · rw [abs_of_neg h0] at h
    have := rndMag_err (q := -v) (by linarith) hE h
    rw [show -rndMag (-v) - v = -(rndMag (-v) - -v) by ring, abs_neg]
    exact this
  · rw [abs_of_nonneg (not_lt.1 h0)] at h
    exact rndMag_err (not_lt.1 h0) hE h

/-- The relative error of numbers that are not tiny. -/
theorem rnd_rel {v : ℚ} (h : 2 ^ (-1022 : ℤ) ≤ |v|) : |rndSigned v - v| ≤ |v| * 2 ^ (-53 : ℤ) := by
  obtain ⟨E, h1, h2⟩ := exists_mem_Ico_zpow (x := |v|) (y := (2 : ℚ)) (lt_of_lt_of_le (by positivity) h) (by norm_num)
  have hE : -1022 ≤ E := by
    have := (zpow_lt_zpow_iff_right₀ (by norm_num : (1 : ℚ) < 2)).1 (h.trans_lt h2)
    omega
  refine (rnd_err hE h2).trans ?_
  rw [show E - 53 = E + -53 by ring, zpow_add₀ (by norm_num)]
  gcongr

theorem rnd_scaled (m : ℤ) (e : ℤ) (hm : |m| < 2 ^ 53) (he : -1074 ≤ e) : rndSigned (m * 2 ^ e) = m * 2 ^ e := by
  have hp : (0 : ℚ) < 2 ^ e := by positivity
  have key : ∀ n : ℕ, n < 2 ^ 53 → rndMag (n * 2 ^ e) = n * 2 ^ e := fun n hn => rndMag_exact (by positivity) ⟨n, e, hn, he, rfl⟩
  have hn : m.natAbs < 2 ^ 53 := by zify; exact hm
  have hk := key m.natAbs hn
  unfold rndSigned
  rcases lt_or_ge m 0 with h | h
  · have hc : ((m.natAbs : ℕ) : ℚ) = -m := by
      rw [Nat.cast_natAbs, abs_of_neg h]; push_cast; rfl
    rw [hc] at hk
    have hmq : (m : ℚ) < 0 := by exact_mod_cast h
    rw [if_pos (mul_neg_of_neg_of_pos hmq hp), ← neg_mul, hk]; ring
  · have hc : ((m.natAbs : ℕ) : ℚ) = m := by
      rw [Nat.cast_natAbs, abs_of_nonneg h]
    rw [hc] at hk
    have hmq : (0 : ℚ) ≤ m := by exact_mod_cast h
    rw [if_neg (not_lt.2 (by positivity)), hk]

theorem rnd_int (m : ℤ) (hm : |m| < 2 ^ 53) : rndSigned m = m := by
  have := rnd_scaled m 0 hm (by norm_num)
  rwa [zpow_zero, mul_one] at this

theorem rnd_half (m : ℤ) (hm : |m| < 2 ^ 53) : rndSigned (m / 2) = m / 2 := by
  have := rnd_scaled m (-1) hm (by norm_num)
  rwa [zpow_neg_one, ← div_eq_mul_inv] at this

/-! ## the operations on doubles -/

theorem R64.add_eq (a b : R64) : a +. b = R64.of (rndSigned (a.q + b.q)) := rfl
theorem R64.sub_eq (a b : R64) : a -. b = R64.of (rndSigned (a.q - b.q)) := rfl
theorem R64.mul_eq (a b : R64) : a *. b = R64.of (rndSigned (a.q * b.q)) := rfl
theorem R64.div_eq (a b : R64) : a /. b = R64.of (rndSigned (a.q / b.q)) := rfl
theorem R64.lit_eq (q : ℚ) : (FNum.lit q : R64) = R64.of (rndSigned q) := rfl

end River
