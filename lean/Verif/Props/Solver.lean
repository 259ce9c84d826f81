import Verif.Model.Solver
import Verif.Lemmas.Cubic1D
import Mathlib.Analysis.Real.Pi.Bounds
import Mathlib.Algebra.Order.Ring.Pow
import Mathlib.Analysis.SpecialFunctions.Trigonometric.Bounds
import Mathlib.Tactic.Positivity

/-! # Equation solvers (C20, C21) -/

namespace River

/-! ## Specification -/

/-- `x` is a real root of `a x² + b x + c`. -/
def Root2 (a b c x : ℝ) : Prop := a * x ^ 2 + b * x + c = 0
/-- `x` is a real root of `a3 x³ + a2 x² + a1 x + a0`. -/
def Root3 (a3 a2 a1 a0 x : ℝ) : Prop := a3 * x ^ 3 + a2 * x ^ 2 + a1 * x + a0 = 0
/-- `v` is zero or outside the zero tolerance `1e-8` of the solver. -/
def Clear (v : ℝ) : Prop := v = 0 ∨ 1 / 100000000 ≤ |v|

/-- The depressed cubic `y³ + p y + q` of `a3 x³ + a2 x² + a1 x + a0` (with `x = y - a2/(3 a3)`). -/
noncomputable def depP (a3 a2 a1 : ℝ) : ℝ := a1 / a3 - (a2 / a3) ^ 2 / 3
noncomputable def depQ (a3 a2 a1 a0 : ℝ) : ℝ := 2 * (a2 / a3) ^ 3 / 27 - a2 / a3 * (a1 / a3) / 3 + a0 / a3
/-- Its discriminant: positive for one real root, zero for a multiple root, negative for three. -/
noncomputable def depK (a3 a2 a1 a0 : ℝ) : ℝ := (depQ a3 a2 a1 a0 / 2) ^ 2 + (depP a3 a2 a1 / 3) ^ 3

/-! ## Helper facts -/

theorem ext_isZero (v : ℝ) : isZero (Ext.fin v) = decide (|v| < 1 / 100000000) := by
  unfold isZero
  rw [Bool.eq_iff_iff]; simp [abs_lt]

theorem rcbrt_pow (x : ℝ) : rcbrt x ^ 3 = x := by
  unfold rcbrt
  split
  · rename_i h
    rw [← Real.rpow_natCast, ← Real.rpow_mul h]; norm_num
  · rename_i h
    have h' : 0 ≤ -x := by linarith
    have : ((-x) ^ ((1 : ℝ) / 3)) ^ 3 = -x := by
      rw [← Real.rpow_natCast, ← Real.rpow_mul h']; norm_num
    linear_combination -this

theorem cube_inj {x y : ℝ} (h : x ^ 3 = y ^ 3) : x = y := (Odd.strictMono_pow (by decide : Odd 3)).injective h

theorem rcbrt_eq {x y : ℝ} (h : y ^ 3 = x) : rcbrt x = y := cube_inj (by rw [rcbrt_pow, h])

theorem root3_depressed {a3 a2 a1 a0 : ℝ} (h : a3 ≠ 0) (y : ℝ) :
    Root3 a3 a2 a1 a0 (y - a2 / a3 / 3) ↔ y ^ 3 + depP a3 a2 a1 * y + depQ a3 a2 a1 a0 = 0 := by
  unfold Root3 depP depQ
  have : a3 * (y - a2 / a3 / 3) ^ 3 + a2 * (y - a2 / a3 / 3) ^ 2 + a1 * (y - a2 / a3 / 3) + a0 =
      a3 * (y ^ 3 + (a1 / a3 - (a2 / a3) ^ 2 / 3) * y +
        (2 * (a2 / a3) ^ 3 / 27 - a2 / a3 * (a1 / a3) / 3 + a0 / a3)) := by
    field_simp; ring
  rw [this, mul_eq_zero]
  simp [h]

/-- The solver on finite inputs, with the intermediate quantities named. -/
theorem resolvCubic_fin (a3 a2 a1 a0 : ℝ) (h3 : 1 / 100000000 ≤ |a3|) :
    resolvCubic (Ext.fin a3) (Ext.fin a2) (Ext.fin a1) (Ext.fin a0) =
      let a := a2 / a3
      let p := depP a3 a2 a1
      let q := depQ a3 a2 a1 a0
      let k := depK a3 a2 a1 a0
      if |k| < 1 / 100000000 then
        if |rcbrt (-q / 2)| < 1 / 100000000 then [Ext.fin (0 - a / 3)]
        else [Ext.fin (rcbrt (-q / 2) * 2 - a / 3), Ext.fin (-rcbrt (-q / 2) - a / 3)]
      else if 0 < k then
        [Ext.fin (rcbrt (-q / 2 + Real.sqrt k)) +. (Ext.fin (-p) /. Ext.fin (3 * rcbrt (-q / 2 + Real.sqrt k))) -.
          Ext.fin (a / 3)]
      else
        let tanPhi := Ext.fin (-2 * Real.sqrt (-k)) /. Ext.fin q
        let phi := FTrans.atan tanPhi
        let minus := if tanPhi <. Ext.fin 0 then Ext.fin (-1) else Ext.fin 1
        let A := Ext.fin (2 * rcbrt (Real.sqrt (q * q / 4 - k)))
        let pi : ℝ := 31415926535 / 10000000000
        [minus *. A *. FTrans.cos (phi /. Ext.fin 3) -. Ext.fin (a / 3),
         minus *. A *. FTrans.cos ((phi +. Ext.fin (2 * pi)) /. Ext.fin 3) -. Ext.fin (a / 3),
         minus *. A *. FTrans.cos ((phi +. Ext.fin (4 * pi)) /. Ext.fin 3) -. Ext.fin (a / 3)] := by
  have h0 : a3 ≠ 0 := by intro e; rw [e] at h3; norm_num at h3
  have two : (2 : ℝ) ≠ 0 := two_ne_zero
  have three : (3 : ℝ) ≠ 0 := three_ne_zero
  have t27 : (27 : ℝ) ≠ 0 := by norm_num
  have four : (4 : ℝ) ≠ 0 := by norm_num
  unfold resolvCubic
  have hz : isZero (Ext.fin a3) = false := by rw [ext_isZero]; simp; linarith
  rw [hz]
  have hp : depP a3 a2 a1 = a1 / a3 - a2 / a3 * (a2 / a3) / 3 := by unfold depP; ring
  have hq : depQ a3 a2 a1 a0 = 2 * (a2 / a3 * (a2 / a3)) * (a2 / a3) / 27 - a2 / a3 * (a1 / a3) / 3 + a0 / a3 := by
    unfold depQ; ring
  simp only [Ext.fin_div _ _ h0, Ext.lit_eq, Ext.fin_mul, Ext.fin_sub, Ext.fin_add, Ext.fin_neg, Rat.cast_ofNat,
    Ext.fin_div _ _ three, Ext.fin_div _ _ two, Ext.fin_div _ _ t27, ← hp, ← hq, Bool.false_eq_true, if_false]
  have hk : ((depQ a3 a2 a1 a0 / 2) ^ 2 + (depP a3 a2 a1 / 3) ^ 3) = depK a3 a2 a1 a0 := rfl
  have pw : ∀ (x : ℝ) (n : Nat), (FTrans.powi (Ext.fin x) n : Ext ℝ) = Ext.fin (x ^ n) := fun _ _ => rfl
  have cb : ∀ x : ℝ, (FTrans.cbrt (Ext.fin x) : Ext ℝ) = Ext.fin (rcbrt x) := fun _ => rfl
  have sq : ∀ x : ℝ, 0 ≤ x → (FTrans.sqrt (Ext.fin x) : Ext ℝ) = Ext.fin (Real.sqrt x) := by
    intro x hx; show (if x < 0 then Ext.nan else _) = _; rw [if_neg (not_lt.mpr hx)]
  simp only [pw, cb, Ext.fin_add, hk, ext_isZero, decide_eq_true_eq]
  split
  · simp
  · simp only [Ext.fin_lt, Rat.cast_zero, decide_eq_true_eq]
    split
    · rename_i hpos
      rw [sq _ hpos.le]
      simp [cb]
    · rename_i hnp
      have hk0 : depK a3 a2 a1 a0 ≤ 0 := not_lt.mp hnp
      have e1 : (FTrans.sqrt (FNum.neg (Ext.fin (depK a3 a2 a1 a0))) : Ext ℝ) = Ext.fin (Real.sqrt (-depK a3 a2 a1 a0)) :=
        sq _ (by linarith)
      have e2 : (FTrans.sqrt (Ext.fin (depQ a3 a2 a1 a0 * depQ a3 a2 a1 a0) /. Ext.fin 4 -. Ext.fin (depK a3 a2 a1 a0)) :
          Ext ℝ) = Ext.fin (Real.sqrt (depQ a3 a2 a1 a0 * depQ a3 a2 a1 a0 / 4 - depK a3 a2 a1 a0)) := by
        rw [Ext.fin_div _ _ four, Ext.fin_sub, sq _ (by nlinarith [mul_self_nonneg (depQ a3 a2 a1 a0)])]
      have e3 : ((-2 : ℚ) : ℝ) = -2 := by norm_num
      have e4 : ((-1 : ℚ) : ℝ) = -1 := by norm_num
      have e5 : ((1 : ℚ) : ℝ) = 1 := by norm_num
      have e6 : ((31415926535 / 10000000000 : ℚ) : ℝ) = 31415926535 / 10000000000 := by norm_num
      simp only [e1, e2, cb, Ext.fin_mul, e3, e4, e5, e6]

/-- `std::size` of the result never exceeds the array (any arithmetic). -/
theorem resolvQuad_length {K} [FTrans K] (a b c : K) : (resolvQuad a b c).length ≤ 2 := by
  unfold resolvQuad; dsimp only
  split
  · split <;> simp
  · split
    · simp
    · split <;> simp

/-- C21: never more than three results (any arithmetic). -/
theorem resolvCubic_length {K} [FTrans K] (a3 a2 a1 a0 : K) : (resolvCubic a3 a2 a1 a0).length ≤ 3 := by
  unfold resolvCubic; dsimp only
  split
  · exact (resolvQuad_length _ _ _).trans (by omega)
  · split
    · split <;> simp
    · split <;> simp

/-! ## C20: the quadratic solver -/

/-- C20: quadratic case. The result lists every real root once and nothing else. -/
theorem resolvQuad_quadratic (a b c : ℝ) (ha : 1 / 100000000 ≤ |a|) (hk : Clear (b * b - 4 * a * c)) :
    ∃ l : List ℝ, resolvQuad (Ext.fin a) (Ext.fin b) (Ext.fin c) = l.map Ext.fin ∧ l.Nodup ∧ l.length ≤ 2 ∧
      ∀ x, x ∈ l ↔ Root2 a b c x := by
  have ha0 : a ≠ 0 := by intro e; rw [e] at ha; norm_num at ha
  have h2a : 2 * a ≠ 0 := mul_ne_zero two_ne_zero ha0
  have hz : isZero (Ext.fin a) = false := by rw [ext_isZero]; simp; linarith
  unfold resolvQuad
  rw [hz]
  simp only [Ext.lit_eq, Ext.fin_mul, Ext.fin_sub, Ext.fin_neg, Rat.cast_ofNat, Ext.fin_div _ _ h2a, ext_isZero,
    Bool.false_eq_true, if_false, decide_eq_true_eq]
  rcases hk with hk | hk
  · rw [hk]
    refine ⟨[-b / (2 * a)], by simp, by simp, by simp, ?_⟩
    intro x
    have e : a * x ^ 2 + b * x + c = a * (x - -b / (2 * a)) ^ 2 := by
      have : c = b * b / (4 * a) := by field_simp; linarith
      rw [this]; field_simp; ring
    unfold Root2; rw [e, mul_eq_zero]
    simp [ha0, sub_eq_zero]
  · rw [if_neg (not_lt.mpr hk)]
    by_cases hpos : 0 < b * b - 4 * a * c
    · simp only [Ext.fin_lt, Rat.cast_zero, hpos, decide_true, if_true]
      have sq : (FTrans.sqrt (Ext.fin (b * b - 4 * a * c)) : Ext ℝ) = Ext.fin (Real.sqrt (b * b - 4 * a * c)) := by
        show (if _ < 0 then Ext.nan else _) = _; rw [if_neg (not_lt.mpr hpos.le)]
      rw [sq]
      simp only [Ext.fin_add, Ext.fin_sub, Ext.fin_div _ _ h2a]
      have hs := Real.sqrt_pos.mpr hpos
      refine ⟨[_, _], rfl, ?_, by simp, ?_⟩
      · simp only [List.nodup_cons, List.mem_singleton, List.not_mem_nil, not_false_eq_true, List.nodup_nil, and_true]
        intro e; rw [div_left_inj' h2a] at e; linarith
      · intro x
        unfold Root2; rw [quad_factor ha0 hpos.le x]
        simp [ha0, sub_eq_zero]
    · simp only [Ext.fin_lt, Rat.cast_zero, hpos, decide_false, if_false, Bool.false_eq_true]
      refine ⟨[], rfl, by simp, by simp, ?_⟩
      intro x
      have hneg : b * b - 4 * a * c < 0 := by
        rcases lt_trichotomy (b * b - 4 * a * c) 0 with h | h | h
        · exact h
        · rw [h] at hk; norm_num at hk
        · exact absurd h hpos
      simp only [List.not_mem_nil, false_iff]
      intro hr
      unfold Root2 at hr
      have e : (2 * a * x + b) ^ 2 = (b * b - 4 * a * c) + 4 * a * (a * x ^ 2 + b * x + c) := by ring
      rw [hr] at e
      linarith [sq_nonneg (2 * a * x + b)]

/-- C20: linear case. -/
theorem resolvQuad_linear (b c : ℝ) (hb : 1 / 100000000 ≤ |b|) :
    ∃ l : List ℝ, resolvQuad (Ext.fin 0) (Ext.fin b) (Ext.fin c) = l.map Ext.fin ∧ l.Nodup ∧
      ∀ x, x ∈ l ↔ Root2 0 b c x := by
  have hb0 : b ≠ 0 := by intro e; rw [e] at hb; norm_num at hb
  have hz : isZero (Ext.fin b) = false := by rw [ext_isZero]; simp; linarith
  have hz0 : isZero (Ext.fin (0 : ℝ)) = true := by rw [ext_isZero]; simp
  unfold resolvQuad
  rw [hz, hz0]
  simp only [Ext.fin_neg, Ext.fin_div _ _ hb0]
  refine ⟨[-c / b], by simp, by simp, ?_⟩
  intro x
  unfold Root2
  constructor
  · intro h; simp at h; rw [h]; field_simp; ring
  · intro h; simp; field_simp; linarith

/-- C20: constant polynomials yield nothing (also the zero polynomial). -/
theorem resolvQuad_const (c : ℝ) : resolvQuad (Ext.fin 0) (Ext.fin 0) (Ext.fin c) = [] := by
  have hz0 : isZero (Ext.fin (0 : ℝ)) = true := by rw [ext_isZero]; simp
  unfold resolvQuad; simp [hz0]

/-- The hypotheses are met: `x² - 3x + 2` and `x² - 2x + 1`. -/
example : (1 / 100000000 ≤ |(1 : ℝ)|) ∧ Clear ((-3 : ℝ) * (-3) - 4 * 1 * 2) ∧ Clear ((-2 : ℝ) * (-2) - 4 * 1 * 1) := by
  refine ⟨by norm_num, Or.inr (by norm_num), Or.inl (by norm_num)⟩

/-! ## C21: the cubic solver -/

/-- C21, degenerate leading coefficient: the quadratic solver answers. -/
theorem resolvCubic_quadratic (a2 a1 a0 : ℝ) :
    resolvCubic (Ext.fin 0) (Ext.fin a2) (Ext.fin a1) (Ext.fin a0) =
      resolvQuad (Ext.fin a2) (Ext.fin a1) (Ext.fin a0) := by
  have hz0 : isZero (Ext.fin (0 : ℝ)) = true := by rw [ext_isZero]; simp
  unfold resolvCubic; simp [hz0]

/-- C21, multiple root (discriminant exactly zero): every real root once, nothing else. -/
theorem resolvCubic_multiple (a3 a2 a1 a0 : ℝ) (h3 : 1 / 100000000 ≤ |a3|) (hk : depK a3 a2 a1 a0 = 0)
    (hq : Clear (rcbrt (-depQ a3 a2 a1 a0 / 2))) :
    ∃ l : List ℝ, resolvCubic (Ext.fin a3) (Ext.fin a2) (Ext.fin a1) (Ext.fin a0) = l.map Ext.fin ∧ l.Nodup ∧
      ∀ x, x ∈ l ↔ Root3 a3 a2 a1 a0 x := by
  have h0 : a3 ≠ 0 := by intro e; rw [e] at h3; norm_num at h3
  rw [resolvCubic_fin a3 a2 a1 a0 h3]
  dsimp only
  rw [hk, abs_zero, if_pos (by norm_num)]
  set v := rcbrt (-depQ a3 a2 a1 a0 / 2) with hv
  have hv3 : v ^ 3 = -depQ a3 a2 a1 a0 / 2 := rcbrt_pow _
  have hp3 : (depP a3 a2 a1 / 3) ^ 3 = (-(v ^ 2)) ^ 3 := by
    unfold depK at hk
    have : (-(v ^ 2)) ^ 3 = -(v ^ 3) ^ 2 := by ring
    rw [this, hv3]; linear_combination hk
  have hp : depP a3 a2 a1 = -3 * v ^ 2 := by have := cube_inj hp3; linarith
  have hqv : depQ a3 a2 a1 a0 = -2 * v ^ 3 := by linarith
  have hroot : ∀ x, Root3 a3 a2 a1 a0 x ↔ (x + a2 / a3 / 3 - 2 * v) * (x + a2 / a3 / 3 + v) ^ 2 = 0 := by
    intro x
    have := root3_depressed (a2 := a2) (a1 := a1) (a0 := a0) h0 (x + a2 / a3 / 3)
    rw [add_sub_cancel_right] at this
    rw [this, hp, hqv]
    have e : (x + a2 / a3 / 3) ^ 3 + -3 * v ^ 2 * (x + a2 / a3 / 3) + -2 * v ^ 3 =
      (x + a2 / a3 / 3 - 2 * v) * (x + a2 / a3 / 3 + v) ^ 2 := by ring
    rw [e]
  rcases hq with hq | hq
  · rw [hq, abs_zero, if_pos (by norm_num)]
    refine ⟨[0 - a2 / a3 / 3], rfl, by simp, ?_⟩
    intro x; rw [hroot, hq]
    simp only [List.mem_singleton, mul_zero, sub_zero, add_zero, mul_eq_zero, pow_eq_zero_iff two_ne_zero, or_self]
    constructor <;> intro h <;> linarith
  · have hv0 : v ≠ 0 := by intro e; rw [e] at hq; norm_num at hq
    rw [if_neg (not_lt.mpr hq)]
    refine ⟨[v * 2 - a2 / a3 / 3, -v - a2 / a3 / 3], rfl, ?_, ?_⟩
    · simp; intro e; apply hv0; linarith
    · intro x; rw [hroot]
      simp only [List.mem_cons, List.not_mem_nil, or_false, mul_eq_zero, pow_eq_zero_iff two_ne_zero]
      constructor <;> rintro (h | h)
      · left; linarith
      · right; linarith
      · left; linarith
      · right; linarith

/-- C21, one real root (discriminant positive), except when the depressed cubic is `y³ + q` with `q > 0`: the result is
that root and nothing else. -/
theorem resolvCubic_single_partial (a3 a2 a1 a0 : ℝ) (h3 : 1 / 100000000 ≤ |a3|) (hk : 1 / 100000000 ≤ depK a3 a2 a1 a0)
    (hpq : ¬ (depP a3 a2 a1 = 0 ∧ 0 < depQ a3 a2 a1 a0)) :
    ∃ x, resolvCubic (Ext.fin a3) (Ext.fin a2) (Ext.fin a1) (Ext.fin a0) = [Ext.fin x] ∧
      ∀ y, Root3 a3 a2 a1 a0 y ↔ y = x := by
  have h0 : a3 ≠ 0 := by intro e; rw [e] at h3; norm_num at h3
  have hkp : 0 < depK a3 a2 a1 a0 := by linarith
  rw [resolvCubic_fin a3 a2 a1 a0 h3]
  dsimp only
  rw [if_neg (by rw [abs_of_pos hkp]; linarith), if_pos hkp]
  set p := depP a3 a2 a1 with hp
  set q := depQ a3 a2 a1 a0 with hq
  set k := depK a3 a2 a1 a0 with hkdef
  set s := Real.sqrt k with hs
  have hs2 : s ^ 2 = k := Real.sq_sqrt hkp.le
  have hs0 : 0 < s := Real.sqrt_pos.mpr hkp
  have hkk : k = (q / 2) ^ 2 + (p / 3) ^ 3 := rfl
  set v := rcbrt (-q / 2 + s) with hv
  have hv3 : v ^ 3 = -q / 2 + s := rcbrt_pow _
  have hv0 : v ≠ 0 := by
    intro e
    rw [e] at hv3
    have hsq : s = q / 2 := by linarith
    apply hpq
    have : (p / 3) ^ 3 = 0 := by rw [hsq] at hs2; linarith
    have := pow_eq_zero_iff (three_ne_zero) |>.mp this
    exact ⟨by linarith, by linarith⟩
  rw [Ext.fin_div _ _ (mul_ne_zero three_ne_zero hv0), Ext.fin_add, Ext.fin_sub]
  set w := -p / (3 * v) with hw
  have hvw : 3 * v * w = -p := by rw [hw]; field_simp
  have hw3 : w ^ 3 = -q / 2 - s := by
    have h1 : v ^ 3 * w ^ 3 = v ^ 3 * (-q / 2 - s) := by
      have : v ^ 3 * w ^ 3 = -(p / 3) ^ 3 := by
        have : v * w = -(p / 3) := by linarith
        rw [← mul_pow, this]; ring
      rw [this, hv3]
      linear_combination hkk + hs2
    exact mul_left_cancel₀ (pow_ne_zero 3 hv0) h1
  refine ⟨v + w - a2 / a3 / 3, rfl, ?_⟩
  have hr : (v + w) ^ 3 + p * (v + w) + q = 0 := by
    linear_combination hv3 + hw3 + (v + w) * hvw
  intro y
  have hd := root3_depressed (a2 := a2) (a1 := a1) (a0 := a0) h0 (y + a2 / a3 / 3)
  rw [add_sub_cancel_right] at hd
  rw [hd, ← hp, ← hq]
  set Y := y + a2 / a3 / 3 with hY
  set z := v + w with hz
  constructor
  · intro h
    have hprod : (Y - z) * (Y ^ 2 + z * Y + z ^ 2 + p) = 0 := by linear_combination h - hr
    rcases mul_eq_zero.mp hprod with h | h
    · linarith
    · exfalso
      -- the cofactor has negative discriminant
      have hdisc : 0 < 3 * z ^ 2 + 4 * p := by
        have hq' : q = -(z ^ 3 + p * z) := by linarith
        have e : 108 * k = (3 * z ^ 2 + 4 * p) * (3 * z ^ 2 + p) ^ 2 := by rw [hkk, hq']; ring
        by_contra hc
        have := mul_nonpos_of_nonpos_of_nonneg (not_lt.mp hc) (sq_nonneg (3 * z ^ 2 + p))
        linarith
      nlinarith [sq_nonneg (2 * Y + z)]
  · intro h
    have : Y = z := by rw [hY, h]; ring
    rw [this]; exact hr

/-- Negation of the general claim: for `x³ + 1` the solver returns NaN instead of the root `-1`. -/
theorem resolvCubic_nan : resolvCubic (Ext.fin 1) (Ext.fin 0) (Ext.fin 0) (Ext.fin (1 : ℝ)) = [Ext.nan] ∧
    Root3 1 0 0 1 (-1) := by
  constructor
  · rw [resolvCubic_fin _ _ _ _ (by norm_num)]
    have hp : depP 1 0 0 = 0 := by unfold depP; norm_num
    have hq : depQ 1 0 0 1 = 1 := by unfold depQ; norm_num
    have hk : depK 1 0 0 1 = 1 / 4 := by unfold depK; rw [hp, hq]; norm_num
    dsimp only
    rw [hp, hq, hk]
    have hs : Real.sqrt (1 / 4) = 1 / 2 := by
      rw [show (1 / 4 : ℝ) = (1 / 2) ^ 2 by norm_num]; exact Real.sqrt_sq (by norm_num)
    rw [hs]
    have hc : rcbrt (-1 / 2 + 1 / 2) = 0 := rcbrt_eq (by norm_num)
    rw [hc, if_neg (by norm_num [abs_of_pos]), if_pos (by norm_num)]
    simp only [neg_zero, mul_zero, Ext.fin_div_zero]
    have : Ext.infSign (0 : ℝ) = Ext.nan := by simp [Ext.infSign]
    rw [this]; rfl
  · unfold Root3; norm_num

/-- More generally the solver returns NaN for every `y³ + q`-shaped cubic with `q` positive (a single real root lost). -/
theorem resolvCubic_nan_general (a3 a2 a1 a0 : ℝ) (h3 : 1 / 100000000 ≤ |a3|) (hp : depP a3 a2 a1 = 0)
    (hq : 0 < depQ a3 a2 a1 a0) (hk : 1 / 100000000 ≤ depK a3 a2 a1 a0) :
    resolvCubic (Ext.fin a3) (Ext.fin a2) (Ext.fin a1) (Ext.fin a0) = [Ext.nan] := by
  have hkp : 0 < depK a3 a2 a1 a0 := by linarith
  rw [resolvCubic_fin a3 a2 a1 a0 h3]
  dsimp only
  rw [if_neg (by rw [abs_of_pos hkp]; linarith), if_pos hkp]
  have hk2 : depK a3 a2 a1 a0 = (depQ a3 a2 a1 a0 / 2) ^ 2 := by
    unfold depK; rw [hp]; ring
  have hs : Real.sqrt (depK a3 a2 a1 a0) = depQ a3 a2 a1 a0 / 2 := by
    rw [hk2]; exact Real.sqrt_sq (by linarith)
  have hc : rcbrt (-depQ a3 a2 a1 a0 / 2 + Real.sqrt (depK a3 a2 a1 a0)) = 0 := rcbrt_eq (by rw [hs]; ring)
  rw [hc, hp]
  simp only [neg_zero, mul_zero, Ext.fin_div_zero]
  have : Ext.infSign (0 : ℝ) = Ext.nan := by simp [Ext.infSign]
  rw [this]; rfl

/-- The trigonometric solution of `y³ + p y + q = 0` for negative discriminant. -/
theorem trig_root {p q k r A θ m : ℝ} (hk : k = (q / 2) ^ 2 + (p / 3) ^ 3)
    (hr : r ^ 2 = q * q / 4 - k) (hA : A ^ 3 = 8 * r) (hm : m * m = 1)
    (hθ : 2 * r * (m * Real.cos (3 * θ)) = -q) :
    (m * A * Real.cos θ) ^ 3 + p * (m * A * Real.cos θ) + q = 0 := by
  have hA2 : A ^ 2 = -4 * p / 3 := by
    apply cube_inj
    have : (A ^ 2) ^ 3 = (A ^ 3) ^ 2 := by ring
    rw [this, hA]
    have : (8 * r) ^ 2 = 64 * r ^ 2 := by ring
    rw [this, hr, hk]; ring
  rw [Real.cos_three_mul] at hθ
  set c := Real.cos θ
  have hp : p = -3 * A ^ 2 / 4 := by linarith
  have hr' : r = A ^ 3 / 8 := by linarith
  rw [hr'] at hθ
  rw [hp]
  linear_combination hθ + (m * A ^ 3 * c ^ 3) * hm

theorem cos_shift (α : ℝ) : Real.cos (α + 2 * Real.pi / 3) = -Real.cos α / 2 - Real.sqrt 3 / 2 * Real.sin α ∧
    Real.cos (α + 4 * Real.pi / 3) = -Real.cos α / 2 + Real.sqrt 3 / 2 * Real.sin α := by
  have c1 : Real.cos (2 * Real.pi / 3) = -(1 / 2) := by
    rw [show 2 * Real.pi / 3 = Real.pi - Real.pi / 3 by ring, Real.cos_pi_sub, Real.cos_pi_div_three]
  have s1 : Real.sin (2 * Real.pi / 3) = Real.sqrt 3 / 2 := by
    rw [show 2 * Real.pi / 3 = Real.pi - Real.pi / 3 by ring, Real.sin_pi_sub, Real.sin_pi_div_three]
  have c2 : Real.cos (4 * Real.pi / 3) = -(1 / 2) := by
    rw [show 4 * Real.pi / 3 = Real.pi / 3 + Real.pi by ring, Real.cos_add_pi, Real.cos_pi_div_three]
  have s2 : Real.sin (4 * Real.pi / 3) = -(Real.sqrt 3 / 2) := by
    rw [show 4 * Real.pi / 3 = Real.pi / 3 + Real.pi by ring, Real.sin_add_pi, Real.sin_pi_div_three]
  rw [Real.cos_add, Real.cos_add, c1, s1, c2, s2]
  constructor <;> ring

/-- The three values of the trigonometric solution factor the depressed cubic. -/
theorem trig_factor {p q k r A φ m : ℝ} (hk : k = (q / 2) ^ 2 + (p / 3) ^ 3)
    (hr : r ^ 2 = q * q / 4 - k) (hA : A ^ 3 = 8 * r) (hm : m * m = 1)
    (hθ : 2 * r * (m * Real.cos φ) = -q) (Y : ℝ) :
    Y ^ 3 + p * Y + q = (Y - m * A * Real.cos (φ / 3)) * (Y - m * A * Real.cos ((φ + 2 * Real.pi) / 3)) *
      (Y - m * A * Real.cos ((φ + 4 * Real.pi) / 3)) := by
  have hA2 : A ^ 2 = -4 * p / 3 := by
    apply cube_inj
    have : (A ^ 2) ^ 3 = (A ^ 3) ^ 2 := by ring
    rw [this, hA]
    have : (8 * r) ^ 2 = 64 * r ^ 2 := by ring
    rw [this, hr, hk]; ring
  obtain ⟨h1, h2⟩ := cos_shift (φ / 3)
  rw [show (φ + 2 * Real.pi) / 3 = φ / 3 + 2 * Real.pi / 3 by ring,
    show (φ + 4 * Real.pi) / 3 = φ / 3 + 4 * Real.pi / 3 by ring, h1, h2]
  have hc : φ = 3 * (φ / 3) := by ring
  rw [hc, Real.cos_three_mul] at hθ
  have h3 : Real.sqrt 3 ^ 2 = 3 := Real.sq_sqrt (by norm_num)
  have hcs := Real.sin_sq_add_cos_sq (φ / 3)
  set c := Real.cos (φ / 3)
  set s := Real.sin (φ / 3)
  set t := Real.sqrt 3
  have hp : p = -3 * A ^ 2 / 4 := by linarith
  have hr' : r = A ^ 3 / 8 := by linarith
  rw [hr'] at hθ
  have hq : q = -(2 * (A ^ 3 / 8) * (m * (4 * c ^ 3 - 3 * c))) := by linarith
  rw [hp, hq]
  have e : (Y - m * A * (-c / 2 - t / 2 * s)) * (Y - m * A * (-c / 2 + t / 2 * s)) =
      Y ^ 2 + m * A * c * Y + m * m * A ^ 2 * (c ^ 2 / 4 - t ^ 2 / 4 * s ^ 2) := by ring
  rw [mul_assoc (Y - m * A * c), e, h3, hm]
  have hs : s ^ 2 = 1 - c ^ 2 := by linarith
  rw [hs]
  linear_combination (A ^ 2 * c ^ 2 * Y) * hm

theorem pi_gap : 0 ≤ Real.pi - 31415926535 / 10000000000 ∧ Real.pi - 31415926535 / 10000000000 ≤ 1 / 10000000000 := by
  have h1 := Real.pi_gt_d20
  have h2 := Real.pi_lt_d20
  constructor <;> linarith

/-- C21, three real roots (discriminant negative): three values are returned. The first is an exact root; the other two
differ from exact roots by at most `3e-10·√(-p/3)` (the code uses 3.1415926535 for π); there are no further roots. -/
theorem resolvCubic_three_partial (a3 a2 a1 a0 : ℝ) (h3 : 1 / 100000000 ≤ |a3|)
    (hk : depK a3 a2 a1 a0 ≤ -(1 / 100000000)) :
    ∃ x1 x2 x3 y2 y3 : ℝ,
      resolvCubic (Ext.fin a3) (Ext.fin a2) (Ext.fin a1) (Ext.fin a0) = [Ext.fin x1, Ext.fin x2, Ext.fin x3] ∧
      (∀ y, Root3 a3 a2 a1 a0 y ↔ y = x1 ∨ y = y2 ∨ y = y3) ∧
      |x2 - y2| ≤ 3 / 10000000000 * Real.sqrt (-depP a3 a2 a1 / 3) ∧
      |x3 - y3| ≤ 3 / 10000000000 * Real.sqrt (-depP a3 a2 a1 / 3) := by
  have h0 : a3 ≠ 0 := by intro e; rw [e] at h3; norm_num at h3
  have hkn : depK a3 a2 a1 a0 < 0 := by linarith
  rw [resolvCubic_fin a3 a2 a1 a0 h3]
  dsimp only
  rw [if_neg (by rw [abs_of_neg hkn]; linarith), if_neg (not_lt.mpr hkn.le)]
  set p := depP a3 a2 a1 with hp
  set q := depQ a3 a2 a1 a0 with hq
  set k := depK a3 a2 a1 a0 with hkdef
  have hkk : k = (q / 2) ^ 2 + (p / 3) ^ 3 := rfl
  set s := Real.sqrt (-k) with hs
  have hs2 : s ^ 2 = -k := Real.sq_sqrt (by linarith)
  have hs0 : 0 < s := Real.sqrt_pos.mpr (by linarith)
  have hrk : 0 < q * q / 4 - k := by nlinarith [mul_self_nonneg q]
  set r := Real.sqrt (q * q / 4 - k) with hr
  have hr2 : r ^ 2 = q * q / 4 - k := Real.sq_sqrt hrk.le
  have hr0 : 0 < r := Real.sqrt_pos.mpr hrk
  -- angle and sign
  have hangle : ∃ φ m : ℝ, (FTrans.atan (Ext.fin (-2 * s) /. Ext.fin q) : Ext ℝ) = Ext.fin φ ∧
      (if (Ext.fin (-2 * s) /. Ext.fin q) <. Ext.fin 0 then Ext.fin (-1) else Ext.fin (1 : ℝ)) = Ext.fin m ∧
      m * m = 1 ∧ 2 * r * (m * Real.cos φ) = -q := by
    by_cases hq0 : q = 0
    · have : (Ext.fin (-2 * s) /. Ext.fin q) = Ext.ninf := by
        rw [hq0, Ext.fin_div_zero]; unfold Ext.infSign
        rw [if_neg (by linarith), if_pos (by linarith)]
      rw [this]
      refine ⟨-(Real.pi / 2), -1, rfl, rfl, by norm_num, ?_⟩
      rw [Real.cos_neg, Real.cos_pi_div_two, hq0]; ring
    · rw [Ext.fin_div _ _ hq0]
      have hcos : 2 * r * Real.cos (Real.arctan (-2 * s / q)) = |q| := by
        rw [Real.cos_arctan]
        have e : 1 + (-2 * s / q) ^ 2 = (2 * r / |q|) ^ 2 := by
          rw [div_pow, div_pow, sq_abs, mul_pow, mul_pow, hs2, hr2]; field_simp; ring
        rw [e, Real.sqrt_sq (by positivity)]
        have : |q| ≠ 0 := abs_ne_zero.mpr hq0
        field_simp
      rcases lt_or_gt_of_ne hq0 with hn | hpos
      · refine ⟨Real.arctan (-2 * s / q), 1, rfl, ?_, by norm_num, ?_⟩
        · rw [Ext.fin_lt]
          have : ¬ (-2 * s / q < 0) := by
            rw [not_lt]; exact div_nonneg_of_nonpos (by linarith) hn.le
          simp only [this, decide_false, Bool.false_eq_true, if_false]
        · rw [one_mul, hcos, abs_of_neg hn]
      · refine ⟨Real.arctan (-2 * s / q), -1, rfl, ?_, by norm_num, ?_⟩
        · rw [Ext.fin_lt]
          have : -2 * s / q < 0 := div_neg_of_neg_of_pos (by linarith) hpos
          simp only [this, decide_true, if_true]
        · rw [abs_of_pos hpos] at hcos; linarith
  obtain ⟨φ, m, hφ, hm, hmm, hcos⟩ := hangle
  have three : (3 : ℝ) ≠ 0 := three_ne_zero
  have cs : ∀ x : ℝ, (FTrans.cos (Ext.fin x) : Ext ℝ) = Ext.fin (Real.cos x) := fun _ => rfl
  rw [hφ, hm]
  simp only [Ext.fin_add, Ext.fin_div _ _ three, cs, Ext.fin_mul, Ext.fin_sub]
  set A := 2 * rcbrt r with hA
  have hA3 : A ^ 3 = 8 * r := by rw [hA, mul_pow, rcbrt_pow]; norm_num
  have hA0 : 0 < A := by
    by_contra hc
    have : A ^ 3 ≤ 0 := Odd.pow_nonpos (by decide) (not_lt.mp hc)
    linarith
  have hAp : A = 2 * Real.sqrt (-p / 3) := by
    have hA2 : A ^ 2 = 4 * (-p / 3) := by
      apply cube_inj
      have : (A ^ 2) ^ 3 = (A ^ 3) ^ 2 := by ring
      rw [this, hA3]
      have : (8 * r) ^ 2 = 64 * r ^ 2 := by ring
      rw [this, hr2, hkk]; ring
    have : A = Real.sqrt (4 * (-p / 3)) := by rw [← hA2, Real.sqrt_sq hA0.le]
    rw [this, Real.sqrt_mul (by norm_num), show (4 : ℝ) = 2 ^ 2 by norm_num, Real.sqrt_sq (by norm_num)]
  refine ⟨_, _, _, m * A * Real.cos ((φ + 2 * Real.pi) / 3) - a2 / a3 / 3,
    m * A * Real.cos ((φ + 4 * Real.pi) / 3) - a2 / a3 / 3, rfl, ?_, ?_, ?_⟩
  · intro y
    have hd := root3_depressed (a2 := a2) (a1 := a1) (a0 := a0) h0 (y + a2 / a3 / 3)
    rw [add_sub_cancel_right] at hd
    rw [hd, ← hp, ← hq, trig_factor hkk hr2 hA3 hmm hcos, mul_eq_zero, mul_eq_zero, or_assoc]
    constructor
    · rintro (h | h | h)
      · left; linarith
      · right; left; linarith
      · right; right; linarith
    · rintro (h | h | h)
      · left; linarith
      · right; left; linarith
      · right; right; linarith
  · have hb := Real.abs_cos_sub_cos_le ((φ + 2 * (31415926535 / 10000000000)) / 3) ((φ + 2 * Real.pi) / 3)
    have hma : |m| = 1 := by
      have : |m| * |m| = 1 := by rw [abs_mul_abs_self, hmm]
      nlinarith [abs_nonneg m]
    obtain ⟨g0, g1⟩ := pi_gap
    rw [show (φ + 2 * (31415926535 / 10000000000)) / 3 - (φ + 2 * Real.pi) / 3 =
      -(2 / 3 * (Real.pi - 31415926535 / 10000000000)) by ring, abs_neg,
      abs_of_nonneg (by linarith : 0 ≤ 2 / 3 * (Real.pi - 31415926535 / 10000000000))] at hb
    rw [show ∀ a b c : ℝ, a - c - (b - c) = a - b by intros; ring, ← mul_sub, abs_mul, abs_mul, hma, one_mul,
      abs_of_pos hA0, hAp]
    have := Real.sqrt_nonneg (-p / 3)
    nlinarith
  · have hb := Real.abs_cos_sub_cos_le ((φ + 4 * (31415926535 / 10000000000)) / 3) ((φ + 4 * Real.pi) / 3)
    have hma : |m| = 1 := by
      have : |m| * |m| = 1 := by rw [abs_mul_abs_self, hmm]
      nlinarith [abs_nonneg m]
    obtain ⟨g0, g1⟩ := pi_gap
    rw [show (φ + 4 * (31415926535 / 10000000000)) / 3 - (φ + 4 * Real.pi) / 3 =
      -(4 / 3 * (Real.pi - 31415926535 / 10000000000)) by ring, abs_neg,
      abs_of_nonneg (by linarith : 0 ≤ 4 / 3 * (Real.pi - 31415926535 / 10000000000))] at hb
    rw [show ∀ a b c : ℝ, a - c - (b - c) = a - b by intros; ring, ← mul_sub, abs_mul, abs_mul, hma, one_mul,
      abs_of_pos hA0, hAp]
    have := Real.sqrt_nonneg (-p / 3)
    nlinarith

/-- The regimes are inhabited: `x³ - 3x` (three roots), `x³ - 3x + 2` (multiple root), `x³ + 3x - 4` (single root). -/
example : depK 1 0 (-3) 0 ≤ -(1 / 100000000) ∧ depK 1 0 (-3) 2 = 0 ∧
    (1 / 100000000 ≤ depK 1 0 3 (-4) ∧ ¬ (depP 1 0 3 = 0 ∧ 0 < depQ 1 0 3 (-4))) := by
  unfold depK depP depQ; norm_num
example : Clear (rcbrt (-depQ 1 0 (-3) 2 / 2)) := by
  have : rcbrt (-depQ 1 0 (-3) 2 / 2) = -1 := rcbrt_eq (by unfold depQ; norm_num)
  rw [this]; right; norm_num

end River
