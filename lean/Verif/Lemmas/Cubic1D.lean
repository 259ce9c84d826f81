import Verif.Spec.Bezier

/-! # One-dimensional facts about cubic polynomials (helper lemmas) -/

namespace River

/-- Coefficients of the derivative of `bern`. -/
def dA (a b c d : ℝ) : ℝ := 3 * d - 9 * c + 9 * b - 3 * a
def dB (a b c : ℝ) : ℝ := 6 * a - 12 * b + 6 * c
def dC (a b : ℝ) : ℝ := 3 * (b - a)

/-- A cubic polynomial given by its value at 0 and the coefficients of its derivative. -/
noncomputable def cub (A B C o t : ℝ) : ℝ := o + C * t + B * t ^ 2 / 2 + A * t ^ 3 / 3

theorem bern_eq_cub (a b c d t : ℝ) : bern a b c d t = cub (dA a b c d) (dB a b c) (dC a b) a t := by
  unfold bern cub dA dB dC; ring

/-- Simpson's rule is exact for cubics. -/
theorem cub_simpson (A B C o s t : ℝ) : cub A B C o t - cub A B C o s =
    (t - s) / 6 * ((A * s ^ 2 + B * s + C) + 4 * (A * ((s + t) / 2) ^ 2 + B * ((s + t) / 2) + C) +
      (A * t ^ 2 + B * t + C)) := by
  unfold cub; ring

theorem cub_mono {A B C : ℝ} (o : ℝ) {u v : ℝ} (h : ∀ w, u ≤ w → w ≤ v → 0 ≤ A * w ^ 2 + B * w + C) {s t : ℝ}
    (hs : u ≤ s) (hst : s ≤ t) (ht : t ≤ v) : cub A B C o s ≤ cub A B C o t := by
  have := cub_simpson A B C o s t
  have h1 := h s hs (hst.trans ht)
  have h2 := h ((s + t) / 2) (by linarith) (by linarith)
  have h3 := h t (hs.trans hst) ht
  have : 0 ≤ cub A B C o t - cub A B C o s := by
    rw [this]; exact mul_nonneg (by linarith) (by linarith)
  linarith

theorem cub_anti {A B C : ℝ} (o : ℝ) {u v : ℝ} (h : ∀ w, u ≤ w → w ≤ v → A * w ^ 2 + B * w + C ≤ 0) {s t : ℝ}
    (hs : u ≤ s) (hst : s ≤ t) (ht : t ≤ v) : cub A B C o t ≤ cub A B C o s := by
  have := cub_simpson A B C o s t
  have h1 := h s hs (hst.trans ht)
  have h2 := h ((s + t) / 2) (by linarith) (by linarith)
  have h3 := h t (hs.trans hst) ht
  have : cub A B C o t - cub A B C o s ≤ 0 := by
    rw [this]; exact mul_nonpos_of_nonneg_of_nonpos (by linarith) (by linarith)
  linarith

/-- The derivative does not change sign on `[u,v]`. -/
def ConstSign (A B C u v : ℝ) : Prop :=
  (∀ w, u ≤ w → w ≤ v → 0 ≤ A * w ^ 2 + B * w + C) ∨ (∀ w, u ≤ w → w ≤ v → A * w ^ 2 + B * w + C ≤ 0)

theorem ConstSign.lower {A B C u v : ℝ} (h : ConstSign A B C u v) (o lo t : ℝ) (hu : u ≤ t) (hv : t ≤ v)
    (h1 : lo ≤ cub A B C o u) (h2 : lo ≤ cub A B C o v) : lo ≤ cub A B C o t := by
  rcases h with h | h
  · exact h1.trans (cub_mono o h (le_refl _) hu hv)
  · exact h2.trans (cub_anti o h hu hv (le_refl _))

/-- clamp to `[0,1]` -/
noncomputable def cl (r : ℝ) : ℝ := max 0 (min r 1)

theorem cl_mem (r : ℝ) : 0 ≤ cl r ∧ cl r ≤ 1 :=
  ⟨le_max_left _ _, max_le zero_le_one (min_le_right _ _)⟩

theorem cl_cases (r : ℝ) : (0 < r ∧ r < 1 ∧ cl r = r) ∨ (r ≤ 0 ∧ cl r = 0) ∨ (1 ≤ r ∧ cl r = 1) := by
  unfold cl
  rcases le_or_gt r 0 with h | h
  · right; left; exact ⟨h, by rw [min_eq_left (by linarith), max_eq_left h]⟩
  · rcases lt_or_ge r 1 with h' | h'
    · left; exact ⟨h, h', by rw [min_eq_left h'.le, max_eq_right h.le]⟩
    · right; right; exact ⟨h', by rw [min_eq_right h', max_eq_right zero_le_one]⟩

theorem cl_mono {r s : ℝ} (h : r ≤ s) : cl r ≤ cl s := max_le_max (le_refl _) (min_le_min h (le_refl _))

/-- factored derivative: sign constant left of, between and right of ordered roots -/
theorem constSign_factored {A B C r s : ℝ} (hrs : r ≤ s) (hf : ∀ w, A * w ^ 2 + B * w + C = A * (w - r) * (w - s))
    {u v : ℝ} (h : v ≤ r ∨ (r ≤ u ∧ v ≤ s) ∨ s ≤ u) : ConstSign A B C u v := by
  rcases le_total 0 A with hA | hA
  · rcases h with h | ⟨h1, h2⟩ | h
    · left; intro w h3 h4; rw [hf, mul_assoc]
      exact mul_nonneg hA (mul_nonneg_of_nonpos_of_nonpos (by linarith) (by linarith))
    · right; intro w h3 h4; rw [hf, mul_assoc]
      exact mul_nonpos_of_nonneg_of_nonpos hA (mul_nonpos_of_nonneg_of_nonpos (by linarith) (by linarith))
    · left; intro w h3 h4; rw [hf, mul_assoc]
      exact mul_nonneg hA (mul_nonneg (by linarith) (by linarith))
  · rcases h with h | ⟨h1, h2⟩ | h
    · right; intro w h3 h4; rw [hf, mul_assoc]
      exact mul_nonpos_of_nonpos_of_nonneg hA (mul_nonneg_of_nonpos_of_nonpos (by linarith) (by linarith))
    · left; intro w h3 h4; rw [hf, mul_assoc]
      exact mul_nonneg_of_nonpos_of_nonpos hA (mul_nonpos_of_nonneg_of_nonpos (by linarith) (by linarith))
    · right; intro w h3 h4; rw [hf, mul_assoc]
      exact mul_nonpos_of_nonpos_of_nonneg hA (mul_nonneg (by linarith) (by linarith))

/-- linear derivative -/
theorem constSign_linear {B C r : ℝ} (hf : ∀ w, B * w + C = B * (w - r)) {u v : ℝ} (h : v ≤ r ∨ r ≤ u) :
    ConstSign 0 B C u v := by
  have e : ∀ w, (0 : ℝ) * w ^ 2 + B * w + C = B * (w - r) := fun w => by rw [zero_mul, zero_add, hf]
  rcases le_total 0 B with hB | hB
  · rcases h with h | h
    · right; intro w h3 h4; rw [e]; exact mul_nonpos_of_nonneg_of_nonpos hB (by linarith)
    · left; intro w h3 h4; rw [e]; exact mul_nonneg hB (by linarith)
  · rcases h with h | h
    · left; intro w h3 h4; rw [e]; exact mul_nonneg_of_nonpos_of_nonpos hB (by linarith)
    · right; intro w h3 h4; rw [e]; exact mul_nonpos_of_nonpos_of_nonneg hB (by linarith)

theorem constSign_const (C u v : ℝ) : ConstSign 0 0 C u v := by
  rcases le_total 0 C with h | h
  · left; intro w _ _; simpa using h
  · right; intro w _ _; simpa using h

/-- no real root (or a double one) -/
theorem constSign_disc {A B C : ℝ} (hk : B * B - 4 * A * C ≤ 0) (hA : A ≠ 0) (u v : ℝ) : ConstSign A B C u v := by
  have key : ∀ w, 0 ≤ 4 * A * (A * w ^ 2 + B * w + C) := by
    intro w
    have : 4 * A * (A * w ^ 2 + B * w + C) = (2 * A * w + B) ^ 2 - (B * B - 4 * A * C) := by ring
    rw [this]; nlinarith [sq_nonneg (2 * A * w + B)]
  rcases lt_or_gt_of_ne hA with h | h
  · right; intro w _ _
    by_contra hc
    have := mul_neg_of_neg_of_pos (show 4 * A < 0 by linarith) (not_le.mp hc)
    linarith [key w]
  · left; intro w _ _
    by_contra hc
    have := mul_neg_of_pos_of_neg (show 0 < 4 * A by linarith) (not_le.mp hc)
    linarith [key w]

/-- lower bound from the critical values, quadratic derivative -/
theorem lower_factored {A B C r s : ℝ} (hrs : r ≤ s) (hf : ∀ w, A * w ^ 2 + B * w + C = A * (w - r) * (w - s))
    (o lo t : ℝ) (ht0 : 0 ≤ t) (ht1 : t ≤ 1) (h0 : lo ≤ cub A B C o 0) (h1 : lo ≤ cub A B C o 1)
    (hr : 0 < r → r < 1 → lo ≤ cub A B C o r) (hs : 0 < s → s < 1 → lo ≤ cub A B C o s) : lo ≤ cub A B C o t := by
  have hcr : lo ≤ cub A B C o (cl r) := by
    rcases cl_cases r with ⟨a, b, e⟩ | ⟨_, e⟩ | ⟨_, e⟩ <;> rw [e]
    · exact hr a b
    · exact h0
    · exact h1
  have hcs : lo ≤ cub A B C o (cl s) := by
    rcases cl_cases s with ⟨a, b, e⟩ | ⟨_, e⟩ | ⟨_, e⟩ <;> rw [e]
    · exact hs a b
    · exact h0
    · exact h1
  rcases le_or_gt t (cl r) with h | h
  · rcases cl_cases r with ⟨a, b, e⟩ | ⟨_, e⟩ | ⟨a, e⟩
    · exact (constSign_factored hrs hf (Or.inl (le_of_eq e))).lower o lo t ht0 h h0 hcr
    · rw [e] at h; have : t = 0 := le_antisymm h ht0; subst this; exact h0
    · exact (constSign_factored hrs hf (Or.inl (e.le.trans a))).lower o lo t ht0 h h0 hcr
  · rcases le_or_gt t (cl s) with h' | h'
    · rcases cl_cases r with ⟨a, b, e⟩ | ⟨a, e⟩ | ⟨a, e⟩
      · rcases cl_cases s with ⟨c, d, e'⟩ | ⟨c, e'⟩ | ⟨c, e'⟩
        · exact (constSign_factored hrs hf (Or.inr (Or.inl ⟨e.ge, e'.le⟩))).lower o lo t h.le h' hcr hcs
        · linarith
        · exact (constSign_factored hrs hf (Or.inr (Or.inl ⟨e.ge, e'.le.trans c⟩))).lower o lo t h.le h' hcr hcs
      · rcases cl_cases s with ⟨c, d, e'⟩ | ⟨c, e'⟩ | ⟨c, e'⟩
        · exact (constSign_factored hrs hf (Or.inr (Or.inl ⟨a.trans e.ge, e'.le⟩))).lower o lo t h.le h' hcr hcs
        · linarith
        · exact (constSign_factored hrs hf (Or.inr (Or.inl ⟨a.trans e.ge, e'.le.trans c⟩))).lower o lo t h.le h' hcr
            hcs
      · linarith
    · rcases cl_cases s with ⟨c, d, e'⟩ | ⟨c, e'⟩ | ⟨c, e'⟩
      · exact (constSign_factored hrs hf (Or.inr (Or.inr e'.ge))).lower o lo t h'.le ht1 hcs h1
      · exact (constSign_factored hrs hf (Or.inr (Or.inr (c.trans e'.ge)))).lower o lo t h'.le ht1 hcs h1
      · linarith

/-- lower bound from the critical values, linear derivative -/
theorem lower_linear {B C r : ℝ} (hf : ∀ w, B * w + C = B * (w - r))
    (o lo t : ℝ) (ht0 : 0 ≤ t) (ht1 : t ≤ 1) (h0 : lo ≤ cub 0 B C o 0) (h1 : lo ≤ cub 0 B C o 1)
    (hr : 0 < r → r < 1 → lo ≤ cub 0 B C o r) : lo ≤ cub 0 B C o t := by
  have hcr : lo ≤ cub 0 B C o (cl r) := by
    rcases cl_cases r with ⟨a, b, e⟩ | ⟨_, e⟩ | ⟨_, e⟩ <;> rw [e]
    · exact hr a b
    · exact h0
    · exact h1
  rcases le_or_gt t (cl r) with h | h
  · rcases cl_cases r with ⟨a, b, e⟩ | ⟨_, e⟩ | ⟨a, e⟩
    · exact (constSign_linear hf (Or.inl (le_of_eq e))).lower o lo t ht0 h h0 hcr
    · rw [e] at h; have : t = 0 := le_antisymm h ht0; subst this; exact h0
    · exact (constSign_linear hf (Or.inl (e.le.trans a))).lower o lo t ht0 h h0 hcr
  · rcases cl_cases r with ⟨c, d, e'⟩ | ⟨c, e'⟩ | ⟨c, e'⟩
    · exact (constSign_linear hf (Or.inr e'.ge)).lower o lo t h.le ht1 hcr h1
    · exact (constSign_linear hf (Or.inr (c.trans e'.ge))).lower o lo t h.le ht1 hcr h1
    · linarith

/-- the two roots of the quadratic formula factor the polynomial -/
theorem quad_factor {A B C : ℝ} (hA : A ≠ 0) (hk : 0 ≤ B * B - 4 * A * C) (w : ℝ) :
    A * w ^ 2 + B * w + C = A * (w - (-B + Real.sqrt (B * B - 4 * A * C)) / (2 * A)) *
      (w - (-B - Real.sqrt (B * B - 4 * A * C)) / (2 * A)) := by
  have hs := Real.mul_self_sqrt hk
  set q := Real.sqrt (B * B - 4 * A * C) with hq
  have h2 : (2 * A) ≠ 0 := mul_ne_zero two_ne_zero hA
  field_simp
  linear_combination (1 : ℝ) * hs

end River
