import Verif.Lemmas.DoubleLine

/-! # Rounding of multiples of powers of two -/

namespace River

/-- The leading exponent is determined by the powers of two around a number. -/
theorem leadExp_unique {q : ℚ} {E : ℤ} (hE : -1022 ≤ E) (h1 : 2 ^ E ≤ q) (h2 : q < 2 ^ (E + 1)) : leadExp q = E := by
  have hq : 0 < q := lt_of_lt_of_le (by positivity) h1
  obtain ⟨k1, k2, k3⟩ := leadExp_spec hq
  have a := (zpow_lt_zpow_iff_right₀ (by norm_num : (1 : ℚ) < 2)).1 (h1.trans_lt k2)
  rcases k1.lt_or_eq with k | k
  · have b := (zpow_lt_zpow_iff_right₀ (by norm_num : (1 : ℚ) < 2)).1 ((k3 k).trans_lt h2)
    omega
  · omega

theorem exists_exp {q : ℚ} (hq : 0 < q) : ∃ E : ℤ, 2 ^ E ≤ q ∧ q < 2 ^ (E + 1) := by
  obtain ⟨E, h1, h2⟩ := exists_mem_Ico_zpow (x := q) (y := (2 : ℚ)) hq (by norm_num)
  exact ⟨E, h1, h2⟩

theorem exp_le {q : ℚ} {E F : ℤ} (h : 2 ^ F ≤ q) (h2 : q < 2 ^ (E + 1)) : F ≤ E := by
  have := (zpow_lt_zpow_iff_right₀ (by norm_num : (1 : ℚ) < 2)).1 (h.trans_lt h2)
  omega

/-- A power of two as factor does not matter to the rounding, unless the number or the result is tiny. -/
theorem rndMag_scale {q : ℚ} {e : ℤ} (h : 2 ^ (-1022 : ℤ) ≤ q) (h' : 2 ^ (-1022 - e) ≤ q) : rndMag (2 ^ e * q) = 2 ^ e * rndMag q := by
  have hq : 0 < q := lt_of_lt_of_le (by positivity) h
  obtain ⟨E, h1, h2⟩ := exists_exp hq
  have l1 := exp_le h h2
  have l2 := exp_le h' h2
  have e1 : leadExp q = E := leadExp_unique l1 h1 h2
  have e2 : leadExp (2 ^ e * q) = e + E := by
    refine leadExp_unique (by omega) ?_ ?_
    · rw [zpow_add₀ (by norm_num)]; gcongr
    · rw [add_assoc, zpow_add₀ (by norm_num)]; gcongr
  have hne : (2 : ℚ) ^ e * q ≠ 0 := by positivity
  unfold rndMag
  rw [if_neg hne, if_neg hq.ne']
  simp only
  rw [e1, e2, pow2_eq, pow2_eq, show e + E - 52 = e + (E - 52) by ring, zpow_add₀ (by norm_num : (2 : ℚ) ≠ 0) e]
  have : (2 : ℚ) ^ e * q / (2 ^ e * 2 ^ (E - 52)) = q / 2 ^ (E - 52) := by
    field_simp
  rw [this]; ring

/-- Not tiny, or zero. -/
def NotTiny (i : ℕ) (v : ℚ) : Prop := v = 0 ∨ 2 ^ (-(i : ℤ)) ≤ |v|

/-- Multiples of `2 ^ -i`. -/
def MultOf (i : ℕ) (v : ℚ) : Prop := ∃ n : ℤ, v = n * 2 ^ (-(i : ℤ))

theorem MultOf.notTiny {i : ℕ} {v : ℚ} (h : MultOf i v) : NotTiny i v := by
  obtain ⟨n, rfl⟩ := h
  by_cases h0 : n = 0
  · exact Or.inl (by rw [h0]; simp)
  · refine Or.inr ?_
    have hp : (0 : ℚ) < 2 ^ (-(i : ℤ)) := by positivity
    rw [abs_mul, abs_of_pos hp]
    have h1 : (1 : ℚ) ≤ |(n : ℚ)| := by exact_mod_cast Int.one_le_abs h0
    nlinarith

theorem MultOf.neg {i : ℕ} {v : ℚ} (h : MultOf i v) : MultOf i (-v) := by
  obtain ⟨n, rfl⟩ := h
  exact ⟨-n, by push_cast; ring⟩

theorem MultOf.add {i : ℕ} {v w : ℚ} (h : MultOf i v) (h' : MultOf i w) : MultOf i (v + w) := by
  obtain ⟨n, rfl⟩ := h
  obtain ⟨m, rfl⟩ := h'
  exact ⟨n + m, by push_cast; ring⟩

theorem MultOf.mul {i j : ℕ} {v w : ℚ} (h : MultOf i v) (h' : MultOf j w) : MultOf (i + j) (v * w) := by
  obtain ⟨n, rfl⟩ := h
  obtain ⟨m, rfl⟩ := h'
  refine ⟨n * m, ?_⟩
  rw [Nat.cast_add, neg_add, zpow_add₀ (by norm_num)]
  push_cast; ring

theorem multOf_zpow {i : ℕ} (n : ℤ) {F : ℤ} (h : -(i : ℤ) ≤ F) : MultOf i (n * 2 ^ F) := by
  obtain ⟨k, hk⟩ := Int.eq_ofNat_of_zero_le (sub_nonneg.2 h)
  refine ⟨n * 2 ^ k, ?_⟩
  have : F = (k : ℤ) + -(i : ℤ) := by omega
  rw [this, zpow_add₀ (by norm_num), zpow_natCast]
  push_cast; ring

theorem MultOf.mono {i j : ℕ} (hij : i ≤ j) {v : ℚ} (h : MultOf i v) : MultOf j v := by
  obtain ⟨n, rfl⟩ := h
  exact multOf_zpow n (by omega)

/-- What is rounded from a number that is not tiny is a multiple of a small power of two. -/
theorem rndMag_mult {i : ℕ} {q : ℚ} (hi : i ≤ 1022) (h : 2 ^ (-(i : ℤ)) ≤ q) : MultOf (i + 52) (rndMag q) := by
  have hq : 0 < q := lt_of_lt_of_le (by positivity) h
  obtain ⟨E, h1, h2⟩ := exists_exp hq
  have l := exp_le h h2
  have e1 : leadExp q = E := leadExp_unique (by omega) h1 h2
  unfold rndMag
  rw [if_neg hq.ne']
  simp only
  rw [e1, pow2_eq]
  have := multOf_zpow (i := i + 52) (nearestEven (q / 2 ^ (E - 52)) : ℤ) (F := E - 52) (by push_cast; omega)
  exact_mod_cast this

theorem rnd_mult {i : ℕ} {v : ℚ} (hi : i ≤ 1022) (h : NotTiny i v) : MultOf (i + 52) (rndSigned v) := by
  rcases h with rfl | h
  · exact ⟨0, by rw [rndSigned_zero]; simp⟩
  · unfold rndSigned
    split_ifs with h0
    · rw [abs_of_neg h0] at h
      exact (rndMag_mult hi h).neg
    · rw [abs_of_nonneg (not_lt.1 h0)] at h
      exact rndMag_mult hi h

/-- Rounding leaves multiples of a power of two what they are. -/
theorem rndMag_keep {i : ℕ} {q : ℚ} (hi : i ≤ 1022) (hq : 0 ≤ q) (h : MultOf i q) : MultOf i (rndMag q) := by
  rcases hq.lt_or_eq with hq | hq
  · have hs := h.notTiny.resolve_left hq.ne'
    rw [abs_of_pos hq] at hs
    obtain ⟨E, h1, h2⟩ := exists_exp hq
    have l := exp_le hs h2
    have e1 : leadExp q = E := leadExp_unique (by omega) h1 h2
    by_cases hE : -(i : ℤ) ≤ E - 52
    · unfold rndMag
      rw [if_neg hq.ne']
      simp only
      rw [e1, pow2_eq]
      have := multOf_zpow (i := i) (nearestEven (q / 2 ^ (E - 52)) : ℤ) (F := E - 52) hE
      exact_mod_cast this
    · obtain ⟨n, hn⟩ := h
      have hp : (0 : ℚ) < 2 ^ (-(i : ℤ)) := by positivity
      have n0 : 0 ≤ n := by
        have : (0 : ℚ) < n := by
          rw [hn] at hq
          exact (mul_pos_iff_of_pos_right hp).1 hq
        exact_mod_cast this.le
      have hlt : n < 2 ^ 53 := by
        have h3 : (n : ℚ) * 2 ^ (-(i : ℤ)) < 2 ^ (53 : ℤ) * 2 ^ (-(i : ℤ)) := by
          rw [← hn, ← zpow_add₀ (by norm_num)]
          exact h2.trans_le (zpow_le_zpow_right₀ (by norm_num) (by omega))
        have h4 := lt_of_mul_lt_mul_right h3 hp.le
        exact_mod_cast h4
      have hr : Rep q := ⟨n.toNat, -(i : ℤ), by omega, by omega, by
        have : ((n.toNat : ℕ) : ℚ) = (n : ℚ) := by
          rw [← Int.cast_natCast, Int.toNat_of_nonneg n0]
        rw [hn, this]⟩
      rw [rndMag_exact hq.le hr]
      exact ⟨n, hn⟩
  · rw [← hq, rndMag_zero]; exact ⟨0, by simp⟩

theorem rnd_keep {i : ℕ} {v : ℚ} (hi : i ≤ 1022) (h : MultOf i v) : MultOf i (rndSigned v) := by
  unfold rndSigned
  split_ifs with h0
  · exact (rndMag_keep hi (by linarith) h.neg).neg
  · exact rndMag_keep hi (not_lt.1 h0) h

theorem rnd_scale {i : ℕ} {v : ℚ} {e : ℤ} (h : NotTiny i v) (hi : i ≤ 1022) (he : (i : ℤ) ≤ 1022 + e) : rndSigned (2 ^ e * v) = 2 ^ e * rndSigned v := by
  have hp : (0 : ℚ) < 2 ^ e := by positivity
  have k1 : (2 : ℚ) ^ (-1022 : ℤ) ≤ 2 ^ (-(i : ℤ)) := zpow_le_zpow_right₀ (by norm_num) (by omega)
  have k2 : (2 : ℚ) ^ (-1022 - e) ≤ 2 ^ (-(i : ℤ)) := zpow_le_zpow_right₀ (by norm_num) (by omega)
  rcases h with rfl | h
  · rw [mul_zero, rndSigned_zero, mul_zero]
  unfold rndSigned
  by_cases h0 : v < 0
  · rw [if_pos (mul_neg_of_pos_of_neg hp h0), if_pos h0, ← mul_neg]
    rw [abs_of_neg h0] at h
    rw [rndMag_scale (k1.trans h) (k2.trans h)]; ring
  · rw [if_neg (not_lt.2 (mul_nonneg hp.le (not_lt.1 h0))), if_neg h0]
    rw [abs_of_nonneg (not_lt.1 h0)] at h
    rw [rndMag_scale (k1.trans h) (k2.trans h)]

/-- Only zero is rounded to zero. -/
theorem rnd_zero_iff {i : ℕ} {v : ℚ} (h : NotTiny i v) (hi : i ≤ 1022) : rndSigned v = 0 ↔ v = 0 := by
  refine ⟨fun e => ?_, fun e => by rw [e, rndSigned_zero]⟩
  rcases h with h | h
  · exact h
  · exfalso
    have := rnd_big (v := v) (c := 2 ^ (-(i : ℤ))) (zpow_le_zpow_right₀ (by norm_num) (by omega)) h
    rw [e, abs_zero] at this
    have : (0 : ℚ) < 2 ^ (-(i : ℤ)) / 2 := by positivity
    linarith

end River
