import Verif.Props.ArcSplit

/-! # C51: for every arc, exactly when the number of pieces is right -/

namespace River
open Real

/-- The upper end of an arc lies in the first half of the way between two turning points (the middle of it belongs to the first half if
the number of turning points before is even). -/
def Early (x : ℝ) : Prop := 0 < Int.fract x ∧ (Int.fract x < 1 / 2 ∨ (Int.fract x = 1 / 2 ∧ Even ⌊x⌋))

theorem ceil_cases (x : ℝ) : (Int.fract x = 0 ∧ ⌈x⌉ = ⌊x⌋) ∨ (Int.fract x ≠ 0 ∧ ⌈x⌉ = ⌊x⌋ + 1) := by
  by_cases h : Int.fract x = 0
  · left
    refine ⟨h, ?_⟩
    have : x = (⌊x⌋ : ℤ) := by
      have := Int.floor_add_fract x
      rw [h] at this; simpa using this.symm
    rw [this, Int.ceil_intCast, Int.floor_intCast]
  · right
    refine ⟨h, ?_⟩
    rw [Int.ceil_eq_floor_add_one_iff_notMem]
    rintro ⟨z, rfl⟩
    exact h (Int.fract_intCast z)

open Classical in
/-- What is computed, in terms of the phases of the ends divided by half a turn. -/
theorem splitNum_value (a : Arc ℝ) {s e : ℝ} (hph : a.phases = (s, e)) :
    a.splitNum = if FAngle.toInt (s / π) = FAngle.toInt (e / π) then 1 else
      if FAngle.toInt (s / π) + 1 = FAngle.toInt (e / π) ∧ e - s = π then 1 else
      FAngle.toInt (e / π) - FAngle.toInt (s / π) + (if Early (e / π) then 1 else 0) + 1 := by
  have hp := Real.pi_pos
  have er : FNum.lt (FNum.lit 0 : ℝ) (FAngle.remainder e FAngle.pi) = decide (Early (e / π)) := by
    rw [field_lt, decide_eq_decide, Early, ← remainder_pos_iff]
    simp only [field_lit]
    have : e / π * π = e := div_mul_cancel₀ _ hp.ne'
    rw [this]
    norm_num [FAngle.remainder, FAngle.pi]
  unfold Arc.splitNum
  rw [hph]
  dsimp only
  rw [er]
  rw [show s /. FAngle.pi = s / π from rfl, show e /. FAngle.pi = e / π from rfl]
  have c2 : ((FAngle.toInt (s / π) + 1 == FAngle.toInt (e / π)) && (e -. s ==. FAngle.pi)) =
      decide (FAngle.toInt (s / π) + 1 = FAngle.toInt (e / π) ∧ e - s = π) := by
    rw [field_eq, Bool.decide_and]
    rfl
  rw [c2]
  by_cases h1 : FAngle.toInt (s / π) = FAngle.toInt (e / π)
  · rw [if_pos (by simpa using h1), if_pos h1]; rfl
  · rw [if_neg (by simpa using h1), if_neg h1]
    by_cases h2 : FAngle.toInt (s / π) + 1 = FAngle.toInt (e / π) ∧ e - s = π
    · rw [if_pos (by simpa using h2), if_pos h2]; rfl
    · rw [if_neg (by simpa using h2), if_neg h2]
      by_cases h3 : Early (e / π)
      · rw [if_pos (by simpa using h3), if_pos h3]
      · rw [if_neg (by simpa using h3), if_neg h3]

theorem phases_le (a : Arc ℝ) {s e : ℝ} (hph : a.phases = (s, e)) : s ≤ e := by
  have := a.phases_eq
  rw [hph, Prod.mk.injEq] at this
  rw [this.1, this.2]
  have := min_le_max (a := a.startRad) (b := a.startRad + a.sweep)
  linarith

theorem half_turn {s e : ℝ} (h : e - s = π) : ⌊e / π⌋ = ⌊s / π⌋ + 1 ∧ ⌈e / π⌉ = ⌈s / π⌉ + 1 ∧ Int.fract (e / π) = Int.fract (s / π) := by
  have hp := Real.pi_pos
  have hdiv : e / π = s / π + 1 := by
    have : e = s + π := by linarith
    rw [this, add_div, div_self hp.ne']
  rw [hdiv]
  exact ⟨Int.floor_add_one _, Int.ceil_add_one _, Int.fract_add_one _⟩

/-- **C51**, both ends before the top of the circle: the number reported is right exactly if the arc passes no turning point, or is half a turn
between two of them, or is not half a turn, starts at no turning point and does not end in the first half of the way between two of them.
With `splitNum_right_iff_partial` and `splitNum_right_iff_across_partial` this covers every arc. -/
theorem splitNum_right_iff_before_partial (a : Arc ℝ) {s e : ℝ} (hph : a.phases = (s, e)) (he : e < 0) :
    a.splitNum = a.turns.ncard + 1 ↔
      ⌈s / π⌉ = ⌈e / π⌉ ∨ (e - s = π ∧ Int.fract (s / π) = 0) ∨ (e - s ≠ π ∧ Int.fract (s / π) ≠ 0 ∧ ¬ Early (e / π)) := by
  classical
  have hp := Real.pi_pos
  have hse := phases_le a hph
  rw [a.turns_card hph, splitNum_value a hph]
  have es : FAngle.toInt (s / π) = ⌈s / π⌉ := (toInt_bounds _).2.1 (div_neg_of_neg_of_pos (by linarith) hp)
  have ee : FAngle.toInt (e / π) = ⌈e / π⌉ := (toInt_bounds _).2.1 (div_neg_of_neg_of_pos he hp)
  have hce : ⌈s / π⌉ ≤ ⌈e / π⌉ := Int.ceil_le_ceil (by gcongr)
  rw [es, ee]
  have cs := ceil_cases (s / π)
  by_cases h1 : ⌈s / π⌉ = ⌈e / π⌉
  · rw [if_pos h1]
    simp only [h1, true_or, iff_true]
    omega
  · rw [if_neg h1]
    by_cases h2 : e - s = π
    · obtain ⟨k1, k2, k3⟩ := half_turn h2
      rw [if_pos ⟨k2.symm, h2⟩]
      simp only [h1, h2, ne_eq, not_true_eq_false, false_and, or_false, false_or, true_and]
      constructor
      · intro h
        rcases cs with c | c
        · exact c.1
        · omega
      · intro h
        rcases cs with c | c
        · omega
        · exact absurd h c.1
    · rw [if_neg (fun h => h2 h.2)]
      simp only [h1, h2, ne_eq, not_false_eq_true, false_and, false_or, true_and]
      by_cases h3 : Early (e / π)
      · rw [if_pos h3]
        simp only [h3, not_true_eq_false, and_false, iff_false]
        omega
      · rw [if_neg h3]
        simp only [h3, not_false_eq_true, and_true]
        rcases cs with c | c
        · simp only [c.1, not_true_eq_false, iff_false]; omega
        · simp only [c.1, not_false_eq_true, iff_true]; omega

/-- **C51**, an arc across the top of the circle, or ending at it: the number reported is right exactly if it is the half turn from the bottom
to the top, or ends at a turning point without starting at one, or ends at none, reaches the bottom of the circle on one side at least and
either starts at a turning point or ends in the first half of the way between two, but not both. -/
theorem splitNum_right_iff_across_partial (a : Arc ℝ) {s e : ℝ} (hph : a.phases = (s, e)) (hs : s < 0) (he : 0 ≤ e) :
    a.splitNum = a.turns.ncard + 1 ↔
      (s = -π ∧ e = 0) ∨ (Int.fract (e / π) = 0 ∧ Int.fract (s / π) ≠ 0) ∨
      (Int.fract (e / π) ≠ 0 ∧ ¬ (-π < s ∧ e < π) ∧ (Early (e / π) ↔ Int.fract (s / π) ≠ 0)) := by
  classical
  have hp := Real.pi_pos
  rw [a.turns_card hph, splitNum_value a hph]
  have s0 : s / π < 0 := div_neg_of_neg_of_pos hs hp
  have e0 : 0 ≤ e / π := div_nonneg he hp.le
  have es : FAngle.toInt (s / π) = ⌈s / π⌉ := (toInt_bounds _).2.1 s0
  have ee : FAngle.toInt (e / π) = ⌊e / π⌋ := (toInt_bounds _).1 e0
  have f1 : ⌊s / π⌋ < 0 := Int.floor_lt.2 (by simpa using s0)
  have f2 : ⌈s / π⌉ ≤ 0 := Int.ceil_le.2 (by simpa using s0.le)
  have f3 : 0 ≤ ⌊e / π⌋ := Int.floor_nonneg.2 e0
  rw [es, ee]
  have cs := ceil_cases (s / π)
  have ce := ceil_cases (e / π)
  have k1 : -π < s ↔ ⌈s / π⌉ = 0 := by
    rw [Int.ceil_eq_iff]
    constructor
    · intro h
      have : -1 < s / π := by rw [lt_div_iff₀ hp]; linarith
      exact ⟨by push_cast; linarith, by push_cast; linarith⟩
    · rintro ⟨h, _⟩
      push_cast at h
      rw [zero_sub, lt_div_iff₀ hp] at h
      linarith
  have k2 : e < π ↔ ⌊e / π⌋ = 0 := by
    rw [Int.floor_eq_zero_iff, Set.mem_Ico, div_lt_one hp]
    exact ⟨fun h => ⟨e0, h⟩, fun h => h.2⟩
  have hearly : Int.fract (e / π) = 0 → ¬ Early (e / π) := by
    intro h hE
    rw [Early, h] at hE
    exact lt_irrefl _ hE.1
  have hspec : s = -π ∧ e = 0 → ⌈s / π⌉ = -1 ∧ ⌊s / π⌋ = -1 ∧ ⌊e / π⌋ = 0 ∧ ⌈e / π⌉ = 0 := by
    rintro ⟨rfl, rfl⟩
    have : -π / π = ((-1 : ℤ) : ℝ) := by rw [neg_div, div_self hp.ne']; norm_num
    rw [this, Int.ceil_intCast, Int.floor_intCast]
    simp
  by_cases h1 : ⌈s / π⌉ = ⌊e / π⌋
  · have z1 : ⌈s / π⌉ = 0 := by omega
    have z2 : ⌊e / π⌋ = 0 := by omega
    rw [if_pos h1]
    have hn : ¬ (s = -π ∧ e = 0) := fun h => by have := hspec h; omega
    have hsf : Int.fract (s / π) ≠ 0 := by
      rcases cs with c | c
      · omega
      · exact c.1
    simp only [k1, k2, z1, z2, and_self, not_true_eq_false, false_and, and_false, or_false, hn, false_or, hsf, ne_eq, not_false_eq_true, and_true]
    rcases ce with c | c
    · simp only [c.1, iff_true]; omega
    · simp only [c.1, iff_false]; omega
  · rw [if_neg h1]
    have hb : ¬ (-π < s ∧ e < π) := by rw [k1, k2]; omega
    by_cases h2 : ⌈s / π⌉ + 1 = ⌊e / π⌋ ∧ e - s = π
    · rw [if_pos h2]
      obtain ⟨g1, g2, g3⟩ := half_turn h2.2
      have c1 : ⌈s / π⌉ = ⌊s / π⌋ := by omega
      have c2 : Int.fract (s / π) = 0 := by
        rcases cs with c | c
        · exact c.1
        · omega
      have hv : s = -π ∧ e = 0 := by
        have hfl : ⌊e / π⌋ = 0 := by omega
        have : e / π = 0 := by
          have := Int.floor_add_fract (e / π)
          rw [hfl, g3, c2] at this
          simpa using this.symm
        have he0 : e = 0 := by
          rcases div_eq_zero_iff.1 this with h | h
          · exact h
          · exact absurd h hp.ne'
        exact ⟨by linarith [h2.2], he0⟩
      simp only [hv, and_self, true_or, iff_true]
      have := hspec hv
      obtain ⟨rfl, rfl⟩ := hv
      omega
    · rw [if_neg h2]
      have hn : ¬ (s = -π ∧ e = 0) := fun h => h2 ⟨by have := hspec h; omega, by rw [h.1, h.2]; ring⟩
      simp only [hn, false_or, hb, not_false_eq_true, true_and]
      have hmax : max (⌈e / π⌉ - 1 - ⌊s / π⌋) 0 = ⌈e / π⌉ - 1 - ⌊s / π⌋ := by omega
      rw [hmax]
      by_cases h3 : Early (e / π)
      · rw [if_pos h3]
        rcases ce with c | c
        · exact absurd h3 (hearly c.1)
        · rcases cs with d | d
          · simp only [ne_eq, c.1, d.1, h3, not_true_eq_false, not_false_eq_true, false_and, and_false, or_false, iff_false, true_and]; omega
          · simp only [ne_eq, c.1, d.1, h3, not_false_eq_true, false_and, true_and, false_or, iff_true]; omega
      · rw [if_neg h3]
        rcases ce with c | c <;> rcases cs with d | d <;>
          simp only [ne_eq, c.1, d.1, h3, not_true_eq_false, not_false_eq_true, false_and, true_and, or_false, false_or, iff_true, iff_false, and_self] <;> omega

/-- C51 across the top: the first quarter of the circle, up to its top, is one piece and reported as one. -/
theorem splitNum_quarter : let a : Arc ℝ := ⟨⟨1, 0⟩, ⟨0, 1⟩, ⟨0, 0⟩, π / 2, 0, π / 2, 1⟩
    a.phases = (-(π / 2), 0) ∧ a.splitNum = a.turns.ncard + 1 := by
  intro a
  have hp := Real.pi_pos
  have hph : a.phases = (-(π / 2), 0) := by
    rw [a.phases_eq]
    change (min 0 (0 + π / 2) - π / 2, max 0 (0 + π / 2) - π / 2) = (-(π / 2), 0)
    rw [min_eq_left (by linarith), max_eq_right (by linarith)]
    ext <;> simp
  have e1 : -(π / 2) / π = -(1 / 2) := by field_simp
  have f1 : Int.fract (-(1 / 2) : ℝ) ≠ 0 := by
    rw [Int.fract, show ⌊(-(1 / 2) : ℝ)⌋ = -1 by rw [Int.floor_eq_iff]; norm_num]; norm_num
  exact ⟨hph, (splitNum_right_iff_across_partial a hph (by linarith) le_rfl).2 (Or.inr (Or.inl ⟨by simp, by rw [e1]; exact f1⟩))⟩

/-- C51 across the top: the upper half of the circle has two pieces, and another number is reported. -/
theorem splitNum_upper_half_wrong : let a : Arc ℝ := ⟨⟨1, 0⟩, ⟨-1, 0⟩, ⟨0, 0⟩, π, 0, π, 1⟩
    a.phases = (-(π / 2), π / 2) ∧ a.splitNum ≠ a.turns.ncard + 1 := by
  intro a
  have hp := Real.pi_pos
  have hph : a.phases = (-(π / 2), π / 2) := by
    rw [a.phases_eq]
    change (min 0 (0 + π) - π / 2, max 0 (0 + π) - π / 2) = (-(π / 2), π / 2)
    rw [min_eq_left (by linarith), max_eq_right (by linarith)]
    ext <;> simp; ring
  have e2 : π / 2 / π = 1 / 2 := by field_simp
  have f2 : Int.fract (1 / 2 : ℝ) ≠ 0 := by
    rw [Int.fract, show ⌊(1 / 2 : ℝ)⌋ = 0 by rw [Int.floor_eq_iff]; norm_num]; norm_num
  refine ⟨hph, fun h => ?_⟩
  rcases (splitNum_right_iff_across_partial a hph (by linarith) (by linarith)).1 h with h | ⟨h, _⟩ | ⟨_, h, _⟩
  · linarith [h.2]
  · rw [e2] at h; exact f2 h
  · exact h ⟨by linarith, by linarith⟩

/-- C51 before the top: the first eighth of the circle is one piece and reported as one. -/
theorem splitNum_eighth (p q : Vec2 ℝ) : let a : Arc ℝ := ⟨p, q, ⟨0, 0⟩, π / 4, 0, π / 4, 1⟩
    a.phases = (-(π / 2), -(π / 4)) ∧ a.splitNum = a.turns.ncard + 1 := by
  intro a
  have hp := Real.pi_pos
  have hph : a.phases = (-(π / 2), -(π / 4)) := by
    rw [a.phases_eq]
    change (min 0 (0 + π / 4) - π / 2, max 0 (0 + π / 4) - π / 2) = (-(π / 2), -(π / 4))
    rw [min_eq_left (by linarith), max_eq_right (by linarith)]
    ext <;> simp; ring
  have e1 : -(π / 2) / π = -(1 / 2) := by field_simp
  have e2 : -(π / 4) / π = -(1 / 4) := by field_simp
  refine ⟨hph, (splitNum_right_iff_before_partial a hph (by linarith)).2 (Or.inl ?_)⟩
  rw [e1, e2, show ⌈(-(1 / 2) : ℝ)⌉ = 0 by rw [Int.ceil_eq_iff]; norm_num, show ⌈(-(1 / 4) : ℝ)⌉ = 0 by rw [Int.ceil_eq_iff]; norm_num]

end River
