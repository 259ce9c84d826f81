import Verif.Props.Arc

/-! # C51: exactly when the number of pieces of an arc is right -/

namespace River
open Real

/-- The turning points an arc passes strictly between its ends. -/
def Arc.turns (a : Arc ℝ) : Set ℝ :=
  {θ | min a.startRad (a.startRad + a.sweep) < θ ∧ θ < max a.startRad (a.startRad + a.sweep) ∧ Turning θ}

theorem Arc.phases_eq (a : Arc ℝ) : a.phases = (min a.startRad (a.startRad + a.sweep) - π / 2, max a.startRad (a.startRad + a.sweep) - π / 2) := by
  unfold Arc.phases
  simp only [field_lt, field_add, field_sub, field_div, field_lit, FAngle.pi, decide_eq_true_eq]
  split_ifs with h
  · rw [min_eq_right h.le, max_eq_left h.le]; norm_num
  · rw [min_eq_left (not_lt.1 h), max_eq_right (not_lt.1 h)]; norm_num

/-- The turning points strictly inside, counted. -/
theorem Arc.turns_card (a : Arc ℝ) {s e : ℝ} (hph : a.phases = (s, e)) : (a.turns.ncard : ℤ) = max (⌈e / π⌉ - 1 - ⌊s / π⌋) 0 := by
  have hp := Real.pi_pos
  rw [a.phases_eq, Prod.mk.injEq] at hph
  have himg : a.turns = (fun k : ℤ => (k : ℝ) * π + π / 2) '' (Set.Ioo ⌊s / π⌋ ⌈e / π⌉) := by
    ext θ
    simp only [Arc.turns, Set.mem_setOf_eq, Set.mem_image, Set.mem_Ioo, Turning]
    constructor
    · rintro ⟨h1, h2, h3⟩
      obtain ⟨k, hk⟩ := Real.cos_eq_zero_iff.1 h3
      refine ⟨k, ⟨?_, ?_⟩, ?_⟩
      · rw [Int.floor_lt, div_lt_iff₀ hp]
        rw [hk] at h1
        linarith [hph.1]
      · rw [Int.lt_ceil, lt_div_iff₀ hp]
        rw [hk] at h2
        linarith [hph.2]
      · rw [hk]; ring
    · rintro ⟨k, ⟨h1, h2⟩, rfl⟩
      rw [Int.floor_lt, div_lt_iff₀ hp] at h1
      rw [Int.lt_ceil, lt_div_iff₀ hp] at h2
      refine ⟨by linarith [hph.1], by linarith [hph.2], Real.cos_eq_zero_iff.2 ⟨k, by ring⟩⟩
  rw [himg, Set.ncard_image_of_injective, ← Finset.coe_Ioo, Set.ncard_coe_finset, Int.card_Ioo]
  · omega
  · intro x y h
    have h' : (x : ℝ) * π = y * π := by simpa using h
    exact_mod_cast mul_right_cancel₀ hp.ne' h'

theorem remainder_pos_iff (q : ℝ) : 0 < q * π - π * roundEven q ↔ (0 < Int.fract q ∧ (Int.fract q < 1 / 2 ∨ (Int.fract q = 1 / 2 ∧ Even ⌊q⌋))) := by
  have hp := Real.pi_pos
  have hq : q = ⌊q⌋ + Int.fract q := (Int.floor_add_fract q).symm
  have h0 := Int.fract_nonneg q
  have h1 := Int.fract_lt_one q
  have e : q * π - π * roundEven q = π * (q - roundEven q) := by ring
  rw [e, mul_pos_iff_of_pos_left hp]
  unfold roundEven
  have ef : q - ⌊q⌋ = Int.fract q := rfl
  simp only [ef]
  split_ifs with a b c
  · rw [ef]
    exact ⟨fun h => ⟨h, Or.inl a⟩, fun h => h.1⟩
  · push_cast
    constructor
    · intro h; linarith [ef]
    · rintro ⟨_, h | ⟨h, _⟩⟩ <;> linarith
  · rw [ef]
    exact ⟨fun h => ⟨h, Or.inr ⟨by linarith, c⟩⟩, fun h => h.1⟩
  · push_cast
    constructor
    · intro h; linarith [ef]
    · rintro ⟨_, h | ⟨_, h⟩⟩
      · exact absurd h a
      · exact absurd h c

/-- **C51**, what holds: for an arc whose lower end lies at or after the top of the circle, the number of pieces reported is right,
one more than the turning points passed, exactly if the arc passes no turning point and ends at none it did not start at, or runs from
one turning point to the next, or is not half a turn and ends in the second half of the way between two turning points (in the
middle of it, if the number of turning points before is odd). -/
theorem splitNum_right_iff_partial (a : Arc ℝ) {s e : ℝ} (hph : a.phases = (s, e)) (hs : 0 ≤ s) :
    a.splitNum = a.turns.ncard + 1 ↔
      ⌊s / π⌋ = ⌊e / π⌋ ∨ (e - s = π ∧ Int.fract (s / π) = 0) ∨
      (e - s ≠ π ∧ (1 / 2 < Int.fract (e / π) ∨ (Int.fract (e / π) = 1 / 2 ∧ ¬ Even ⌊e / π⌋))) := by
  have hp := Real.pi_pos
  have hse : s ≤ e := by
    have := a.phases_eq
    rw [hph, Prod.mk.injEq] at this
    rw [this.1, this.2]
    have := min_le_max (a := a.startRad) (b := a.startRad + a.sweep)
    linarith
  rw [a.turns_card hph]
  have es : FAngle.toInt (s /. FAngle.pi) = ⌊s / π⌋ := if_pos (div_nonneg hs hp.le)
  have ee : FAngle.toInt (e /. FAngle.pi) = ⌊e / π⌋ := if_pos (div_nonneg (hs.trans hse) hp.le)
  have er : FNum.lt (FNum.lit 0 : ℝ) (FAngle.remainder e FAngle.pi) =
      decide (0 < Int.fract (e / π) ∧ (Int.fract (e / π) < 1 / 2 ∨ (Int.fract (e / π) = 1 / 2 ∧ Even ⌊e / π⌋))) := by
    rw [field_lt, decide_eq_decide, ← remainder_pos_iff]
    simp only [field_lit]
    have : e / π * π = e := div_mul_cancel₀ _ hp.ne'
    rw [this]
    norm_num [FAngle.remainder, FAngle.pi]
  have hm : ⌊s / π⌋ ≤ ⌊e / π⌋ := Int.floor_le_floor (by gcongr)
  have hceil : (Int.fract (e / π) = 0 → ⌈e / π⌉ = ⌊e / π⌋) ∧ (Int.fract (e / π) ≠ 0 → ⌈e / π⌉ = ⌊e / π⌋ + 1) := by
    constructor
    · intro h
      have : (e / π) = (⌊e / π⌋ : ℤ) := by rw [← Int.floor_add_fract (e / π), h]; simp
      rw [this, Int.ceil_intCast, Int.floor_intCast]
    · intro h
      rw [Int.ceil_eq_iff]
      have h0 := lt_of_le_of_ne (Int.fract_nonneg (e / π)) (Ne.symm h)
      have h1 := Int.fract_lt_one (e / π)
      have := Int.floor_add_fract (e / π)
      push_cast
      constructor <;> linarith
  have hf0 := Int.fract_nonneg (e / π)
  unfold Arc.splitNum
  rw [hph]
  dsimp only
  rw [es, ee, er]
  by_cases h1 : ⌊s / π⌋ = ⌊e / π⌋
  · rw [if_pos (by simpa using h1)]
    have : max (⌈e / π⌉ - 1 - ⌊s / π⌋) 0 = 0 := by
      by_cases hfr : Int.fract (e / π) = 0
      · rw [hceil.1 hfr]; omega
      · rw [hceil.2 hfr]; omega
    rw [this]
    simp [h1]
  · rw [if_neg (by simpa using h1)]
    by_cases h2 : e - s = π
    · have hdiv : e / π = s / π + 1 := by
        have : e = s + π := by linarith
        rw [this, add_div, div_self hp.ne']
      have hfl : ⌊e / π⌋ = ⌊s / π⌋ + 1 := by rw [hdiv, Int.floor_add_one]
      have hfr : Int.fract (e / π) = Int.fract (s / π) := by rw [hdiv, Int.fract_add_one]
      rw [if_pos (by simp [hfl, h2, field_eq, FAngle.pi])]
      by_cases hz : Int.fract (s / π) = 0
      · rw [hceil.1 (by rw [hfr, hz]), hfl]
        simp [hz, h2]
      · rw [hceil.2 (by rw [hfr]; exact hz), hfl]
        simp [hz, h2]
    · rw [if_neg (by simp [h2, field_eq, FAngle.pi])]
      have hlt : ⌊s / π⌋ < ⌊e / π⌋ := lt_of_le_of_ne hm h1
      by_cases hfr : Int.fract (e / π) = 0
      · rw [hceil.1 hfr, if_neg (by simp [hfr])]
        constructor
        · intro h; omega
        · rintro (h | ⟨h, _⟩ | ⟨_, h | ⟨h, _⟩⟩)
          · exact absurd h h1
          · exact absurd h h2
          · rw [hfr] at h; norm_num at h
          · rw [hfr] at h; norm_num at h
      · have hpos : 0 < Int.fract (e / π) := lt_of_le_of_ne hf0 (Ne.symm hfr)
        rw [hceil.2 hfr]
        by_cases hc : Int.fract (e / π) < 1 / 2 ∨ (Int.fract (e / π) = 1 / 2 ∧ Even ⌊e / π⌋)
        · rw [if_pos (by simpa using ⟨hpos, by simpa using hc⟩)]
          constructor
          · intro h; omega
          · rintro (h | ⟨h, _⟩ | ⟨_, h⟩)
            · exact absurd h h1
            · exact absurd h h2
            · exfalso
              rcases hc with hc | ⟨hc, hc'⟩ <;> rcases h with h | ⟨h, h'⟩
              · linarith
              · linarith
              · linarith
              · exact h' hc'
        · rw [if_neg (by simp only [decide_eq_true_eq]; exact fun h => hc h.2)]
          constructor
          · intro _
            push Not at hc
            refine Or.inr (Or.inr ⟨h2, ?_⟩)
            rcases hc.1.lt_or_eq with h | h
            · exact Or.inl h
            · exact Or.inr ⟨h.symm, by simpa using hc.2 h.symm⟩
          · intro _; omega

/-- How far truncation towards zero is from floor and ceiling. -/
theorem toInt_bounds (x : ℝ) : (0 ≤ x → FAngle.toInt x = ⌊x⌋) ∧ (x < 0 → FAngle.toInt x = ⌈x⌉) ∧ ⌊x⌋ ≤ ⌈x⌉ ∧ ⌈x⌉ ≤ ⌊x⌋ + 1 :=
  ⟨fun h => if_pos h, fun h => if_neg (not_le.2 h), Int.floor_le_ceil x, Int.ceil_le_floor_add_one x⟩

/-- **C51**, what holds for every arc: the number of pieces reported is at most one too small and at most two too large; at most one
too large if the lower end is not before the top of the circle. -/
theorem splitNum_error_partial (a : Arc ℝ) : (a.turns.ncard : ℤ) ≤ a.splitNum ∧ a.splitNum ≤ a.turns.ncard + 3 ∧
    (0 ≤ a.phases.1 → a.splitNum ≤ a.turns.ncard + 2) := by
  have hp := Real.pi_pos
  obtain ⟨s, e, hph⟩ : ∃ s e, a.phases = (s, e) := ⟨_, _, rfl⟩
  have hse : s ≤ e := by
    have := a.phases_eq
    rw [hph, Prod.mk.injEq] at this
    rw [this.1, this.2]
    have := min_le_max (a := a.startRad) (b := a.startRad + a.sweep)
    linarith
  rw [a.turns_card hph, hph]
  have er : FNum.lt (FNum.lit 0 : ℝ) (FAngle.remainder e FAngle.pi) =
      decide (0 < Int.fract (e / π) ∧ (Int.fract (e / π) < 1 / 2 ∨ (Int.fract (e / π) = 1 / 2 ∧ Even ⌊e / π⌋))) := by
    rw [field_lt, decide_eq_decide, ← remainder_pos_iff]
    simp only [field_lit]
    have : e / π * π = e := div_mul_cancel₀ _ hp.ne'
    rw [this]
    norm_num [FAngle.remainder, FAngle.pi]
  obtain ⟨s1, s2, s3, s4⟩ := toInt_bounds (s / π)
  obtain ⟨e1, e2, e3, e4⟩ := toInt_bounds (e / π)
  have hle : s / π ≤ e / π := by gcongr
  have hfl : ⌊s / π⌋ ≤ ⌊e / π⌋ := Int.floor_le_floor hle
  have hce : ⌈s / π⌉ ≤ ⌈e / π⌉ := Int.ceil_le_ceil hle
  have hsplit : ⌈e / π⌉ = ⌊e / π⌋ ∧ Int.fract (e / π) = 0 ∨ ⌈e / π⌉ = ⌊e / π⌋ + 1 := by
    rcases Int.ceil_eq_floor_add_one_iff_notMem (e / π) |>.symm with h
    by_cases hm : e / π ∈ Set.range ((↑) : ℤ → ℝ)
    · obtain ⟨z, hz⟩ := hm
      left
      rw [← hz, Int.ceil_intCast, Int.floor_intCast, Int.fract_intCast]
      exact ⟨rfl, rfl⟩
    · right
      exact h.1 hm
  have hs0 : 0 ≤ s / π ↔ 0 ≤ s := by rw [le_div_iff₀ hp, zero_mul]
  have hneg : s / π < 0 → ⌊s / π⌋ < 0 ∧ ⌈s / π⌉ ≤ 0 := fun h => ⟨Int.floor_lt.2 (by simpa using h), Int.ceil_le.2 (by simpa using h.le)⟩
  have hpos : 0 ≤ e / π → 0 ≤ ⌊e / π⌋ := Int.floor_nonneg.2
  have hhalf : e - s = π → ⌊e / π⌋ = ⌊s / π⌋ + 1 ∧ ⌈e / π⌉ = ⌈s / π⌉ + 1 := by
    intro h
    have hdiv : e / π = s / π + 1 := by
      have : e = s + π := by linarith
      rw [this, add_div, div_self hp.ne']
    rw [hdiv]
    exact ⟨Int.floor_add_one _, Int.ceil_add_one _⟩
  obtain ⟨δ, hδ⟩ : ∃ δ : ℤ, δ = if FNum.lt (FNum.lit 0 : ℝ) (FAngle.remainder e FAngle.pi) then 1 else 0 := ⟨_, rfl⟩
  have hδ1 : 0 ≤ δ ∧ δ ≤ 1 := by
    rw [hδ]; split <;> omega
  have hδ0 : Int.fract (e / π) = 0 → δ = 0 := by
    intro h
    rw [hδ, er, h]
    simp
  have key : ((a.splitNum = 1 ∧ FAngle.toInt (s / π) = FAngle.toInt (e / π)) ∨ (a.splitNum = 1 ∧ e - s = π) ∨
      (a.splitNum = FAngle.toInt (e / π) - FAngle.toInt (s / π) + δ + 1 ∧ FAngle.toInt (s / π) ≠ FAngle.toInt (e / π))) := by
    unfold Arc.splitNum
    rw [hph]
    dsimp only
    rw [← hδ]
    change _ ∨ _ ∨ _
    rw [show s / π = s /. FAngle.pi from rfl, show e / π = e /. FAngle.pi from rfl]
    by_cases h1 : FAngle.toInt (s /. FAngle.pi) = FAngle.toInt (e /. FAngle.pi)
    · rw [if_pos (by simpa using h1)]
      exact Or.inl ⟨rfl, h1⟩
    · rw [if_neg (by simpa using h1)]
      by_cases h2 : e - s = π
      · right; left
        refine ⟨?_, h2⟩
        rw [if_pos]
        · rfl
        · obtain ⟨f1, f2⟩ := hhalf h2
          have h3 : FAngle.toInt (s / π) + 1 = FAngle.toInt (e / π) := by
            have h1' : FAngle.toInt (s / π) ≠ FAngle.toInt (e / π) := h1
            rcases lt_or_ge (s / π) 0 with g | g <;> rcases lt_or_ge (e / π) 0 with k | k
            · rw [s2 g, e2 k]; omega
            · have := hneg g
              have := hpos k
              rw [s2 g, e1 k] at h1' ⊢
              omega
            · linarith
            · rw [s1 g, e1 k]; omega
          rw [field_eq]
          simp only [field_sub, FAngle.pi, Bool.and_eq_true, decide_eq_true_eq, beq_iff_eq]
          exact ⟨h3, h2⟩
      · right; right
        refine ⟨?_, h1⟩
        rw [if_neg]
        rw [field_eq]
        simp only [field_sub, FAngle.pi, Bool.and_eq_true, decide_eq_true_eq]
        exact fun h => h2 h.2
  have hsd : 0 ≤ (s, e).1 ↔ 0 ≤ s / π := hs0.symm
  rw [hsd]
  have hδs : ⌈e / π⌉ = ⌊e / π⌋ ∧ δ = 0 ∨ ⌈e / π⌉ = ⌊e / π⌋ + 1 := hsplit.imp (fun h => ⟨h.1, hδ0 h.2⟩) id
  rcases lt_or_ge (s / π) 0 with g | g <;> rcases lt_or_ge (e / π) 0 with k | k
  · have g' := hneg g
    rw [s2 g, e2 k] at key
    rcases key with ⟨h1, h2⟩ | ⟨h1, h2⟩ | ⟨h1, h2⟩
    · refine ⟨by omega, by omega, fun h => absurd g (not_lt.2 h)⟩
    · have := hhalf h2
      refine ⟨by omega, by omega, fun h => absurd g (not_lt.2 h)⟩
    · refine ⟨by omega, by omega, fun h => absurd g (not_lt.2 h)⟩
  · have g' := hneg g
    have k' := hpos k
    rw [s2 g, e1 k] at key
    rcases key with ⟨h1, h2⟩ | ⟨h1, h2⟩ | ⟨h1, h2⟩
    · refine ⟨by omega, by omega, fun h => absurd g (not_lt.2 h)⟩
    · have := hhalf h2
      refine ⟨by omega, by omega, fun h => absurd g (not_lt.2 h)⟩
    · refine ⟨by omega, by omega, fun h => absurd g (not_lt.2 h)⟩
  · linarith
  · rw [s1 g, e1 k] at key
    rcases key with ⟨h1, h2⟩ | ⟨h1, h2⟩ | ⟨h1, h2⟩
    · refine ⟨by omega, by omega, fun _ => by omega⟩
    · have := hhalf h2
      refine ⟨by omega, by omega, fun _ => by omega⟩
    · refine ⟨by omega, by omega, fun _ => by omega⟩

/-- C51, a case in which it is right: the left half of the circle, from the top to the bottom, is one piece. -/
theorem splitNum_half : let a : Arc ℝ := ⟨⟨0, 1⟩, ⟨0, -1⟩, ⟨0, 0⟩, π, π / 2, 3 * π / 2, 1⟩
    a.phases = (0, π) ∧ a.splitNum = 1 ∧ a.turns.ncard = 0 := by
  intro a
  have hp := Real.pi_pos
  have hph : a.phases = (0, π) := by
    rw [a.phases_eq]
    change (min (π / 2) (π / 2 + π) - π / 2, max (π / 2) (π / 2 + π) - π / 2) = (0, π)
    rw [min_eq_left (by linarith), max_eq_right (by linarith)]
    ext <;> simp
  have hc : a.turns.ncard = 0 := by
    have := a.turns_card hph
    rw [div_self hp.ne'] at this
    simpa using this
  refine ⟨hph, ?_, hc⟩
  rw [(splitNum_right_iff_partial a hph le_rfl).2 (Or.inr (Or.inl ⟨by ring, by simp⟩)), hc]
  rfl

/-- **C51 is false** also for half turns: the lower half of the circle, from its leftmost to its rightmost point, passes the
bottom and so has two pieces, but one is reported. -/
theorem splitNum_half_wrong : let a : Arc ℝ := ⟨⟨-1, 0⟩, ⟨1, 0⟩, ⟨0, 0⟩, π, π, 2 * π, 1⟩
    a.phases = (π / 2, 3 * π / 2) ∧ a.splitNum = 1 ∧ a.turns.ncard = 1 := by
  intro a
  have hp := Real.pi_pos
  have hph : a.phases = (π / 2, 3 * π / 2) := by
    rw [a.phases_eq]
    change (min π (π + π) - π / 2, max π (π + π) - π / 2) = (π / 2, 3 * π / 2)
    rw [min_eq_left (by linarith), max_eq_right (by linarith)]
    ext <;> simp <;> ring
  have e1 : π / 2 / π = 1 / 2 := by field_simp
  have e2 : 3 * π / 2 / π = 3 / 2 := by field_simp
  have f1 : ⌊(1 / 2 : ℝ)⌋ = 0 := by rw [Int.floor_eq_iff]; norm_num
  have f2 : ⌊(3 / 2 : ℝ)⌋ = 1 := by rw [Int.floor_eq_iff]; norm_num
  have f3 : ⌈(3 / 2 : ℝ)⌉ = 2 := by rw [Int.ceil_eq_iff]; norm_num
  refine ⟨hph, ?_, ?_⟩
  · unfold Arc.splitNum
    rw [hph]
    dsimp only
    have es : FAngle.toInt ((π / 2) /. FAngle.pi) = 0 := by
      change (if (0 : ℝ) ≤ π / 2 / π then ⌊π / 2 / π⌋ else ⌈π / 2 / π⌉) = 0
      rw [e1, if_pos (by norm_num), f1]
    have ee : FAngle.toInt ((3 * π / 2) /. FAngle.pi) = 1 := by
      change (if (0 : ℝ) ≤ 3 * π / 2 / π then ⌊3 * π / 2 / π⌋ else ⌈3 * π / 2 / π⌉) = 1
      rw [e2, if_pos (by norm_num), f2]
    rw [es, ee, if_neg (by decide), if_pos]
    · rfl
    · rw [Bool.and_eq_true]
      refine ⟨rfl, ?_⟩
      rw [field_eq]
      simp only [field_sub, FAngle.pi, decide_eq_true_eq]
      ring
  · have := a.turns_card hph
    rw [e1, e2, f1, f3] at this
    simpa using this

end River
