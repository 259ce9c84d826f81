import Verif.Model.ArcInt
import Verif.Props.ArcSplit

/-! # C51: when counting the pieces of an arc is undefined -/

namespace River
open Real

/-- **C51**: unless it is undefined, the number counted with the `int`s of the program is the one counted with unbounded integers. Any arithmetic. -/
theorem splitInt_num {K : Type} [FAngle K] (a : Arc K) {n : Int} (h : a.splitInt = some n) : n = a.splitNum := by
  obtain ⟨s, e, hph⟩ : ∃ s e, a.phases = (s, e) := ⟨_, _, rfl⟩
  unfold Arc.splitInt at h
  unfold Arc.splitNum
  rw [hph] at h ⊢
  dsimp only at h ⊢
  generalize (if FNum.lit 0 <. FAngle.remainder e FAngle.pi then (1 : Int) else 0) = δ at h ⊢
  split_ifs at h ⊢ <;> simp_all

/-- **C51**, any arithmetic: where counting is defined, both quotients converted to `int` lie within its range. -/
theorem splitInt_fits {K : Type} [FAngle K] (a : Arc K) (h : a.splitInt ≠ none) :
    (-2 ^ 31 ≤ FAngle.toInt (a.phases.1 /. FAngle.pi) ∧ FAngle.toInt (a.phases.1 /. FAngle.pi) < 2 ^ 31) ∧
    -2 ^ 31 ≤ FAngle.toInt (a.phases.2 /. FAngle.pi) ∧ FAngle.toInt (a.phases.2 /. FAngle.pi) < 2 ^ 31 := by
  obtain ⟨s, e, hph⟩ : ∃ s e, a.phases = (s, e) := ⟨_, _, rfl⟩
  unfold Arc.splitInt at h
  rw [hph] at h ⊢
  dsimp only at h ⊢
  generalize FAngle.toInt (s /. FAngle.pi) = sq at h ⊢
  generalize FAngle.toInt (e /. FAngle.pi) = eq at h ⊢
  split_ifs at h with h1 <;> first
    | exact absurd rfl h
    | (simp only [fitsInt, Bool.not_eq_true', Bool.and_eq_false_iff, decide_eq_false_iff_not] at h1; omega)

theorem toInt_near {x : ℝ} (h : -(1 / 2) ≤ x) (h' : x < 3 / 2) : FAngle.toInt x = 0 ∨ FAngle.toInt x = 1 := by
  obtain ⟨x1, x2, -, -⟩ := toInt_bounds x
  rcases le_or_gt 0 x with hx | hx
  · rw [x1 hx]
    have a : 0 ≤ ⌊x⌋ := Int.floor_nonneg.2 hx
    have b : ⌊x⌋ < 2 := Int.floor_lt.2 (by push_cast; linarith)
    omega
  · rw [x2 hx]
    have a : ⌈x⌉ ≤ 0 := Int.ceil_le.2 (by exact_mod_cast hx.le)
    have b : -1 < ⌈x⌉ := Int.lt_ceil.2 (by push_cast; linarith)
    omega

/-- **C51**, exactly: for an arc whose start is given by an angle of `[0, 2π)`, as all constructed arcs are, counting the pieces is undefined if and only if
more than 2^31 pieces would be reported or the upper end lies 2^31 half turns or more beyond the top of the circle. -/
theorem splitInt_ub_iff_partial (a : Arc ℝ) (h0 : 0 ≤ a.startRad) (h1 : a.startRad < 2 * π) :
    a.splitInt = none ↔ 2 ^ 31 < a.splitNum ∨ 2 ^ 31 * π ≤ a.phases.2 := by
  have hp := pi_pos
  obtain ⟨s, e, hph⟩ : ∃ s e, a.phases = (s, e) := ⟨_, _, rfl⟩
  have hb := a.phases_eq
  rw [hph, Prod.mk.injEq] at hb
  obtain ⟨hs, he⟩ := hb
  have hse : s ≤ e := by rw [hs, he]; linarith [min_le_max (a := a.startRad) (b := a.startRad + a.sweep)]
  have hm := toInt_mono (div_le_div_of_nonneg_right hse hp.le)
  have hs1 : FAngle.toInt (s / π) ≤ 1 := by
    have : s / π ≤ (a.startRad - π / 2) / π := div_le_div_of_nonneg_right (by rw [hs]; linarith [min_le_left a.startRad (a.startRad + a.sweep)]) hp.le
    have := toInt_mono this
    rcases toInt_near (x := (a.startRad - π / 2) / π) (by rw [le_div_iff₀ hp]; linarith) (by rw [div_lt_iff₀ hp]; linarith) with h | h <;> omega
  have he0 : 0 ≤ FAngle.toInt (e / π) := by
    have : (a.startRad - π / 2) / π ≤ e / π := div_le_div_of_nonneg_right (by rw [he]; linarith [le_max_left a.startRad (a.startRad + a.sweep)]) hp.le
    have := toInt_mono this
    rcases toInt_near (x := (a.startRad - π / 2) / π) (by rw [le_div_iff₀ hp]; linarith) (by rw [div_lt_iff₀ hp]; linarith) with h | h <;> omega
  have hor : (FAngle.toInt (s / π) = 0 ∨ FAngle.toInt (s / π) = 1) ∨ (FAngle.toInt (e / π) = 0 ∨ FAngle.toInt (e / π) = 1) := by
    rcases le_total 0 a.sweep with hw | hw
    · left
      rw [min_eq_left (by linarith)] at hs
      exact toInt_near (by rw [le_div_iff₀ hp]; linarith) (by rw [div_lt_iff₀ hp]; linarith)
    · right
      rw [max_eq_left (by linarith)] at he
      exact toInt_near (by rw [le_div_iff₀ hp]; linarith) (by rw [div_lt_iff₀ hp]; linarith)
  have hbig : 2 ^ 31 * π ≤ e ↔ (2 : ℤ) ^ 31 ≤ FAngle.toInt (e / π) := by
    rw [← le_div_iff₀ hp]
    obtain ⟨x1, x2, -, -⟩ := toInt_bounds (e / π)
    rcases le_or_gt 0 (e / π) with hx | hx
    · rw [x1 hx, Int.le_floor]; norm_num
    · rw [x2 hx]
      have c : ⌈e / π⌉ ≤ 0 := Int.ceil_le.2 (by exact_mod_cast hx.le)
      constructor
      · intro h; linarith
      · intro h; omega
  unfold Arc.splitInt Arc.splitNum
  rw [hph]
  dsimp only
  rw [hbig]
  change ℝ at s e
  have es : (s /. FAngle.pi : ℝ) = s / π := rfl
  have ee : (e /. FAngle.pi : ℝ) = e / π := rfl
  rw [es, ee]
  generalize FAngle.toInt (s / π) = sq at *
  generalize FAngle.toInt (e / π) = eq at *
  generalize ((e -. s) ==. FAngle.pi : Bool) = half
  have hδ : (if FNum.lit 0 <. FAngle.remainder e FAngle.pi then (1 : Int) else 0) = 0 ∨
      (if FNum.lit 0 <. FAngle.remainder e FAngle.pi then (1 : Int) else 0) = 1 := by split <;> simp
  generalize (if FNum.lit 0 <. FAngle.remainder e FAngle.pi then (1 : Int) else 0) = δ at hδ ⊢
  clear hph hs he hse hbig es ee
  simp only [fitsInt, Bool.not_eq_true', Bool.and_eq_false_iff, decide_eq_false_iff_not, beq_iff_eq, Bool.and_eq_true]
  split_ifs <;> simp only [reduceCtorEq, false_iff, true_iff] <;> omega

/-- **C51** in terms of the angle swept: for arcs made by the constructor, counting the pieces is defined up to 2^31 - 4 half turns, and undefined from 2^31 + 2 on. -/
theorem splitInt_sweep_partial (p c : Vec2 ℝ) (w : ℝ) :
    (|w| ≤ (2 ^ 31 - 4) * π → (Arc.make p c w).splitInt = some (Arc.make p c w).splitNum) ∧
    ((2 ^ 31 + 2) * π ≤ |w| → (Arc.make p c w).splitInt = none) := by
  have hp := pi_pos
  obtain ⟨-, -, h0, h1⟩ := arc_start p c w
  have hw : (Arc.make p c w).sweep = w := rfl
  generalize Arc.make p c w = a at *
  have iff := splitInt_ub_iff_partial a h0 h1
  obtain ⟨lo, up, -⟩ := splitNum_error_partial a
  obtain ⟨s, e, hph⟩ : ∃ s e, a.phases = (s, e) := ⟨_, _, rfl⟩
  have card := a.turns_card hph
  have hb := a.phases_eq
  rw [hph] at iff hb
  rw [Prod.mk.injEq] at hb
  obtain ⟨hs, he⟩ := hb
  have hd : e - s = |w| := by
    rw [hs, he, hw]
    rcases le_total 0 w with h | h
    · rw [min_eq_left (by linarith), max_eq_right (by linarith), abs_of_nonneg h]; ring
    · rw [min_eq_right (by linarith), max_eq_left (by linarith), abs_of_nonpos h]; ring
  have hq : e / π - s / π = |w| / π := by rw [← hd]; ring
  dsimp only at iff
  constructor
  · intro h
    have hwq : |w| / π ≤ 2 ^ 31 - 4 := (div_le_iff₀ hp).2 h
    have c1 : ¬ (2 ^ 31 * π ≤ e) := by
      have : max a.startRad (a.startRad + a.sweep) ≤ a.startRad + |w| := by
        rw [hw]
        exact max_le (by linarith [abs_nonneg w]) (by linarith [le_abs_self w])
      rw [he]
      intro hc
      linarith
    have c2 : ¬ (2 ^ 31 < a.splitNum) := by
      have b1 : (⌈e / π⌉ : ℝ) < e / π + 1 := Int.ceil_lt_add_one _
      have b2 : s / π - 1 < (⌊s / π⌋ : ℝ) := Int.sub_one_lt_floor _
      have b3 : (⌈e / π⌉ - ⌊s / π⌋ : ℤ) < 2 ^ 31 - 2 := by
        have : ((⌈e / π⌉ - ⌊s / π⌋ : ℤ) : ℝ) < ((2 ^ 31 - 2 : ℤ) : ℝ) := by push_cast; linarith
        exact_mod_cast this
      omega
    cases hI : a.splitInt with
    | none => exact absurd (iff.1 hI) (by tauto)
    | some n => rw [splitInt_num a hI]
  · intro h
    have hwq : 2 ^ 31 + 2 ≤ |w| / π := (le_div_iff₀ hp).2 h
    refine iff.2 (Or.inl ?_)
    have b1 : e / π ≤ (⌈e / π⌉ : ℝ) := Int.le_ceil _
    have b2 : (⌊s / π⌋ : ℝ) ≤ s / π := Int.floor_le _
    have b3 : (2 ^ 31 + 2 : ℤ) ≤ ⌈e / π⌉ - ⌊s / π⌋ := by
      have : ((2 ^ 31 + 2 : ℤ) : ℝ) ≤ ((⌈e / π⌉ - ⌊s / π⌋ : ℤ) : ℝ) := by push_cast; linarith
      exact_mod_cast this
    omega

/-- Cases: a full circle is counted, four thousand million half turns are not, in either direction. -/
theorem splitInt_cases : (Arc.make ⟨1, 0⟩ ⟨0, 0⟩ (2 * π)).splitInt = some (Arc.make ⟨1, 0⟩ ⟨0, 0⟩ (2 * π)).splitNum ∧
    (Arc.make ⟨1, 0⟩ ⟨0, 0⟩ (4000000000 * π)).splitInt = none ∧ (Arc.make ⟨1, 0⟩ ⟨0, 0⟩ (-(4000000000 * π))).splitInt = none := by
  have hp := pi_pos
  refine ⟨(splitInt_sweep_partial _ _ _).1 ?_, (splitInt_sweep_partial _ _ _).2 ?_, (splitInt_sweep_partial _ _ _).2 ?_⟩
  · rw [abs_of_pos (by positivity)]; nlinarith
  · rw [abs_of_pos (by positivity)]; nlinarith
  · rw [abs_neg, abs_of_pos (by positivity)]; nlinarith

end River
