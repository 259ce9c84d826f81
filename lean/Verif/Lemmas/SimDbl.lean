import Verif.Lemmas.Sim
import Verif.Lemmas.DoubleScale

/-! # Doubles with overflow, NaN and signed zeros against doubles without

On small multiples of a power of two `2 ^ e` the clipper computes the same with IEEE 754 doubles as with rounded numbers that know no overflow, on
whole numbers. -/

namespace River
attribute [local instance 10000] FTrans.toFNum

/-- The double `d` is finite and has the value `2 ^ e * q`, where `q` is at most `2 ^ k` and a multiple of `2 ^ -i`. -/
def RV (e : ℤ) (i k : ℕ) (d : Dbl) (q : R64) : Prop :=
  (∃ s m, d = .num s m ∧ 0 ≤ m ∧ Dbl.val s m = 2 ^ e * q.q) ∧ |q.q| ≤ 2 ^ k ∧ MultOf i q.q

/-- The same for whole numbers. -/
abbrev RZ (e : ℤ) (k : ℕ) : Dbl → R64 → Prop := RV e 0 k

variable {e : ℤ}

theorem RV.mono {i i' k k' : ℕ} {d : Dbl} {q : R64} (h : RV e i k d q) (hi : i ≤ i') (hk : k ≤ k') : RV e i' k' d q :=
  ⟨h.1, h.2.1.trans (pow_le_pow_right₀ (by norm_num) hk), h.2.2.mono hi⟩

theorem RV.least {i k : ℕ} {d : Dbl} {q : R64} (h : RV e i k d q) (h0 : q.q ≠ 0) : 2 ^ (-(i : ℤ)) ≤ |q.q| := h.2.2.notTiny.resolve_left h0

theorem rep_pow (k : ℕ) : Rep (2 ^ k) := ⟨1, k, by norm_num, by omega, by simp⟩

theorem rndMag_nonneg {m : ℚ} (hm : 0 ≤ m) : 0 ≤ rndMag m := by
  obtain ⟨a, e, _, _, h⟩ := rndMag_rep hm
  rw [h]; positivity

theorem rndMag_le {m : ℚ} {k : ℕ} (hm : 0 ≤ m) (h : m ≤ 2 ^ k) : rndMag m ≤ 2 ^ k := by
  have := rndMag_nearest hm (rep_pow k)
  rw [abs_of_nonneg (a := 2 ^ k - m) (by linarith)] at this
  have := le_abs_self (rndMag m - m)
  linarith

theorem rndSigned_le {v : ℚ} {k : ℕ} (h : |v| ≤ 2 ^ k) : |rndSigned v| ≤ 2 ^ k := by
  unfold rndSigned
  split
  · next h0 =>
    rw [abs_neg, abs_of_nonneg (rndMag_nonneg (by linarith))]
    exact rndMag_le (by linarith) (by rwa [abs_of_neg h0] at h)
  · next h0 =>
    rw [abs_of_nonneg (rndMag_nonneg (by linarith))]
    exact rndMag_le (by linarith) (by rwa [abs_of_nonneg (by linarith)] at h)

theorem max_huge : (2 ^ 800 : ℚ) < dblMax := by decide +kernel

theorem max_mid : (2 ^ 200 : ℚ) < dblMax := by decide +kernel

theorem max_pos : 0 < dblMax := by decide +kernel

theorem val_abs (s : Bool) {m : ℚ} (hm : 0 ≤ m) : |Dbl.val s m| = m := by
  unfold Dbl.val
  cases s
  · simp [abs_of_nonneg hm]
  · simp [abs_of_nonneg hm]

theorem scale_le {w : ℚ} {k : ℕ} (hk : k ≤ 400) (he : e ≤ 400) (h : |w| ≤ 2 ^ k) : |2 ^ e * w| ≤ 2 ^ 800 := by
  rw [abs_mul, abs_of_pos (by positivity : (0 : ℚ) < 2 ^ e)]
  calc (2 : ℚ) ^ e * |w| ≤ 2 ^ (400 : ℤ) * 2 ^ 400 :=
        mul_le_mul (zpow_le_zpow_right₀ (by norm_num) he) (h.trans (pow_le_pow_right₀ (by norm_num) hk)) (abs_nonneg _) (by positivity)
    _ = 2 ^ 800 := by decide +kernel

/-- Rounding a magnitude. -/
theorem round_val {s : Bool} {m w : ℚ} {i k : ℕ} (hm : 0 ≤ m) (hv : Dbl.val s m = 2 ^ e * w) (hl : NotTiny i w) (hu : |w| ≤ 2 ^ k)
    (hi : i ≤ 400) (hk : k ≤ 400) (he : -400 ≤ e ∧ e ≤ 400) :
    ∃ m', Dbl.round s m = .num s m' ∧ 0 ≤ m' ∧ Dbl.val s m' = 2 ^ e * rndSigned w := by
  have h1 : Dbl.val s (rndMag m) = 2 ^ e * rndSigned w := by
    rw [← Dbl.rnd_val s hm, hv, rnd_scale hl (by omega) (by omega)]
  have h2 : rndMag m ≤ 2 ^ 800 := by
    rw [← val_abs s (rndMag_nonneg hm), h1]
    exact scale_le hk he.2 (rndSigned_le hu)
  refine ⟨rndMag m, ?_, rndMag_nonneg hm, h1⟩
  unfold Dbl.round
  simp only
  exact if_neg (not_lt.2 (h2.trans max_huge.le))

theorem val_zero {s : Bool} {m : ℚ} (h : Dbl.val s m = 0) : m = 0 := by
  unfold Dbl.val at h
  cases s
  · simpa using h
  · simpa using h

/-! ## Operations -/

theorem RV.add {i k : ℕ} {x y : Dbl} {a b : R64} (hx : RV e i k x a) (hy : RV e i k y b) (hi : i ≤ 400) (hk : k + 1 ≤ 400) (he : -400 ≤ e ∧ e ≤ 400) :
    RV e i (k + 1) (x +. y) (a +. b) := by
  have hmul := hx.2.2.add hy.2.2
  have hb : |a.q + b.q| ≤ 2 ^ (k + 1) := by
    have := abs_add_le a.q b.q
    have h1 := hx.2.1
    have h2 := hy.2.1
    rw [pow_succ]; linarith
  refine ⟨?_, rndSigned_le hb, rnd_keep (by omega) hmul⟩
  obtain ⟨s, m, rfl, hm, h1⟩ := hx.1
  obtain ⟨t, n, rfl, hn, h2⟩ := hy.1
  change ∃ s' m', Dbl.add (.num s m) (.num t n) = .num s' m' ∧ 0 ≤ m' ∧ Dbl.val s' m' = 2 ^ e * rndSigned (a.q + b.q)
  have hv : Dbl.val s m + Dbl.val t n = 2 ^ e * (a.q + b.q) := by rw [h1, h2]; ring
  unfold Dbl.add
  simp only
  rw [hv]
  have hp : (0 : ℚ) < 2 ^ e := by positivity
  split
  · next h0 =>
    refine ⟨_, _, rfl, le_refl _, ?_⟩
    rw [(mul_eq_zero.1 h0).resolve_left hp.ne', rndSigned_zero, mul_zero]
    cases s <;> cases t <;> simp [Dbl.val]
  · split
    · next h0 =>
      obtain ⟨m', e1, e2, e3⟩ := round_val (s := true) (m := -(2 ^ e * (a.q + b.q))) (by linarith) (by simp [Dbl.val]) hmul.notTiny hb hi hk he
      exact ⟨_, _, e1, e2, e3⟩
    · next h0 =>
      obtain ⟨m', e1, e2, e3⟩ := round_val (s := false) (m := 2 ^ e * (a.q + b.q)) (by linarith) (by simp [Dbl.val]) hmul.notTiny hb hi hk he
      exact ⟨_, _, e1, e2, e3⟩

theorem R64.neg_q (a : R64) : (FNum.neg a).q = -a.q := rfl

theorem RV.neg {i k : ℕ} {x : Dbl} {a : R64} (hx : RV e i k x a) : RV e i k (FNum.neg x) (FNum.neg a) := by
  refine ⟨?_, by rw [R64.neg_q, abs_neg]; exact hx.2.1, by rw [R64.neg_q]; exact hx.2.2.neg⟩
  obtain ⟨s, m, rfl, hm, h1⟩ := hx.1
  refine ⟨!s, m, rfl, hm, ?_⟩
  rw [R64.neg_q, mul_neg, ← h1]
  unfold Dbl.val
  cases s <;> simp

theorem R64.sub_add (a b : R64) : a -. b = a +. FNum.neg b := by
  rw [R64.sub_eq, R64.add_eq, R64.neg_q, sub_eq_add_neg]

theorem RV.sub {i k : ℕ} {x y : Dbl} {a b : R64} (hx : RV e i k x a) (hy : RV e i k y b) (hi : i ≤ 400) (hk : k + 1 ≤ 400) (he : -400 ≤ e ∧ e ≤ 400) :
    RV e i (k + 1) (x -. y) (a -. b) := by
  rw [R64.sub_add]
  exact hx.add hy.neg hi hk he

theorem val_mul (s t : Bool) (m n : ℚ) : Dbl.val (s != t) (m * n) = Dbl.val s m * Dbl.val t n := by
  unfold Dbl.val
  cases s <;> cases t <;> simp

theorem val_div (s t : Bool) (m n : ℚ) : Dbl.val (s != t) (m / n) = Dbl.val s m / Dbl.val t n := by
  unfold Dbl.val
  cases s <;> cases t <;> simp [div_neg, neg_div]

theorem RV.mul {f g : ℤ} {i j k l : ℕ} {x y : Dbl} {a b : R64} (hx : RV e i k x a) (hy : RV f j l y b) (hg : g = e + f) (hi : i + j ≤ 400)
    (hk : k + l ≤ 400) (he : -400 ≤ g ∧ g ≤ 400) : RV g (i + j) (k + l) (x *. y) (a *. b) := by
  subst hg
  have hmul := hx.2.2.mul hy.2.2
  have hb : |a.q * b.q| ≤ 2 ^ (k + l) := by
    rw [pow_add, abs_mul]
    exact mul_le_mul hx.2.1 hy.2.1 (abs_nonneg _) (by positivity)
  refine ⟨?_, rndSigned_le hb, rnd_keep (by omega) hmul⟩
  obtain ⟨s, m, rfl, hm, h1⟩ := hx.1
  obtain ⟨t, n, rfl, hn, h2⟩ := hy.1
  obtain ⟨m', e1, e2, e3⟩ := round_val (s := s != t) (m := m * n) (w := a.q * b.q) (e := e + f) (mul_nonneg hm hn)
    (by rw [val_mul, h1, h2, zpow_add₀ (by norm_num)]; ring) hmul.notTiny hb hi hk he
  exact ⟨_, _, e1, e2, e3⟩

theorem RV.div {f g : ℤ} {i j k l : ℕ} {x y : Dbl} {a b : R64} (hx : RV e i k x a) (hy : RV f j l y b) (h0 : b.q ≠ 0) (hg : g = e - f)
    (hi : i + l + 52 ≤ 400) (hk : k + j ≤ 400) (he : -400 ≤ g ∧ g ≤ 400) : RV g (i + l + 52) (k + j) (x /. y) (a /. b) := by
  subst hg
  have hb0 : 0 < |b.q| := abs_pos.2 h0
  have hlow : NotTiny (i + l) (a.q / b.q) := by
    rcases hx.2.2.notTiny with h | h
    · left; rw [h, zero_div]
    · right
      rw [abs_div, le_div_iff₀ hb0]
      calc (2 : ℚ) ^ (-((i + l : ℕ) : ℤ)) * |b.q| ≤ 2 ^ (-((i + l : ℕ) : ℤ)) * 2 ^ l := by
            have := hy.2.1
            gcongr
        _ = 2 ^ (-(i : ℤ)) := by
            rw [← zpow_natCast, ← zpow_add₀ (by norm_num)]; congr 1; push_cast; ring
        _ ≤ |a.q| := h
  have hb : |a.q / b.q| ≤ 2 ^ (k + j) := by
    rw [abs_div, div_le_iff₀ hb0]
    have h3 := hy.least h0
    calc |a.q| ≤ 2 ^ k := hx.2.1
      _ = 2 ^ (k + j) * 2 ^ (-(j : ℤ)) := by
          rw [← zpow_natCast, ← zpow_natCast, ← zpow_add₀ (by norm_num)]; congr 1; push_cast; ring
      _ ≤ 2 ^ (k + j) * |b.q| := by gcongr
  refine ⟨?_, rndSigned_le hb, rnd_mult (by omega) hlow⟩
  obtain ⟨s, m, rfl, hm, h1⟩ := hx.1
  obtain ⟨t, n, rfl, hn, h2⟩ := hy.1
  have hp : (0 : ℚ) < 2 ^ f := by positivity
  have hn0 : n ≠ 0 := by
    rintro rfl
    have : Dbl.val t 0 = 0 := by unfold Dbl.val; simp
    rw [this] at h2
    exact h0 ((mul_eq_zero.1 h2.symm).resolve_left hp.ne')
  obtain ⟨m', e1, e2, e3⟩ := round_val (s := s != t) (m := m / n) (w := a.q / b.q) (e := e - f) (div_nonneg hm hn)
    (by rw [val_div, h1, h2, zpow_sub₀ (by norm_num)]; field_simp) hlow hb (by omega) hk he
  refine ⟨_, _, ?_, e2, e3⟩
  change Dbl.div (.num s m) (.num t n) = _
  unfold Dbl.div
  simp only
  rw [if_neg hn0]
  exact e1

theorem RV.lit {v : ℚ} {i k : ℕ} (h : |v| ≤ 2 ^ k) (hl : NotTiny i v) (hi : i ≤ 400) (hk : k ≤ 400) : RV 0 (i + 52) k (FNum.lit v) (FNum.lit v) := by
  refine ⟨?_, rndSigned_le h, rnd_mult (by omega) hl⟩
  change ∃ s' m', Dbl.lit v = .num s' m' ∧ 0 ≤ m' ∧ Dbl.val s' m' = 2 ^ (0 : ℤ) * rndSigned v
  unfold Dbl.lit
  split
  · next h0 =>
    obtain ⟨m', e1, e2, e3⟩ := round_val (e := 0) (s := true) (m := -v) (by linarith) (by simp [Dbl.val]) hl h hi hk (by norm_num)
    exact ⟨_, _, e1, e2, e3⟩
  · next h0 =>
    obtain ⟨m', e1, e2, e3⟩ := round_val (e := 0) (s := false) (m := v) (by linarith) (by simp [Dbl.val]) hl h hi hk (by norm_num)
    exact ⟨_, _, e1, e2, e3⟩

theorem zero_lit (e : ℤ) : RZ e 0 (FNum.lit 0 : Dbl) (FNum.lit 0 : R64) := by
  have hz : (FNum.lit 0 : Dbl) = .num false 0 := by decide +kernel
  refine ⟨⟨false, 0, hz, le_refl _, ?_⟩, ?_, 0, ?_⟩ <;> rw [R64.zero] <;> simp [Dbl.val]

theorem one_lit : RZ 0 0 (FNum.lit 1 : Dbl) (FNum.lit 1 : R64) := by
  have hz : (FNum.lit 1 : Dbl) = .num false 1 := by decide +kernel
  refine ⟨⟨false, 1, hz, by norm_num, ?_⟩, ?_, 1, ?_⟩ <;> rw [R64.one] <;> simp [Dbl.val]

theorem two_lit : RZ 0 1 (FNum.lit 2 : Dbl) (FNum.lit 2 : R64) := by
  have hz : (FNum.lit 2 : Dbl) = .num false 2 := by decide +kernel
  refine ⟨⟨false, 2, hz, by norm_num, ?_⟩, ?_, 2, ?_⟩ <;> rw [R64.two] <;> simp [Dbl.val]

theorem num_lt {s t : Bool} {m n : ℚ} : ((Dbl.num s m : Dbl) <. .num t n) = decide (Dbl.val s m < Dbl.val t n) := rfl

theorem num_eq {s t : Bool} {m n : ℚ} : ((Dbl.num s m : Dbl) ==. .num t n) = decide (Dbl.val s m = Dbl.val t n) := rfl

theorem RV.lt {i k j l : ℕ} {x y : Dbl} {a b : R64} (hx : RV e i k x a) (hy : RV e j l y b) : (x <. y) = (a <. b) := by
  obtain ⟨s, m, rfl, hm, h1⟩ := hx.1
  obtain ⟨t, n, rfl, hn, h2⟩ := hy.1
  rw [num_lt, h1, h2, Bool.eq_iff_iff, decide_eq_true_eq, R64.lt_iff]
  exact mul_lt_mul_iff_right₀ (by positivity)

theorem RV.eq {i k j l : ℕ} {x y : Dbl} {a b : R64} (hx : RV e i k x a) (hy : RV e j l y b) : (x ==. y) = (a ==. b) := by
  obtain ⟨s, m, rfl, hm, h1⟩ := hx.1
  obtain ⟨t, n, rfl, hn, h2⟩ := hy.1
  rw [num_eq, h1, h2, Bool.eq_iff_iff, decide_eq_true_eq, R64.eq_iff]
  exact mul_right_inj' (by positivity)

theorem RV.le {i k j l : ℕ} {x y : Dbl} {a b : R64} (hx : RV e i k x a) (hy : RV e j l y b) : (x ≤. y) = (a ≤. b) := by
  have h1 : (x ≤. y) = ((x <. y) || (x ==. y)) := rfl
  rw [h1, hx.lt hy, hx.eq hy, Bool.eq_iff_iff, Bool.or_eq_true, R64.lt_iff, R64.eq_iff, R64.le_iff]
  exact le_iff_lt_or_eq.symm

theorem RV.fin {i k : ℕ} {x : Dbl} {a : R64} (hx : RV e i k x a) : FNum.isFinite x = FNum.isFinite a := by
  obtain ⟨s, m, rfl, _, _⟩ := hx.1
  rfl

theorem RV.zero {i k : ℕ} {x : Dbl} {a : R64} (hx : RV e i k x a) : (x ==. FNum.lit 0) = (a ==. FNum.lit 0) := hx.eq (zero_lit e)

/-! ## Coordinates -/

/-- Coordinates: as above, or the greatest or least number. -/
def RC (e : ℤ) (d : Dbl) (q : R64) : Prop :=
  ∃ s m, d = .num s m ∧ 0 ≤ m ∧ ((Dbl.val s m = 2 ^ e * q.q ∧ |q.q| ≤ 2 ^ 200) ∨ (Dbl.val s m = dblMax ∧ q.q = dblMax) ∨
    (Dbl.val s m = -dblMax ∧ q.q = -dblMax))

theorem RV.c {i k : ℕ} {x : Dbl} {a : R64} (hx : RV e i k x a) (hk : k ≤ 200) : RC e x a := by
  obtain ⟨s, m, h1, h2, h3⟩ := hx.1
  exact ⟨s, m, h1, h2, Or.inl ⟨h3, hx.2.1.trans (pow_le_pow_right₀ (by norm_num) hk)⟩⟩

theorem RC.order (he : e ≤ 400) {v v' w w' : ℚ}
    (h : (v = 2 ^ e * w ∧ |w| ≤ 2 ^ 200) ∨ (v = dblMax ∧ w = dblMax) ∨ (v = -dblMax ∧ w = -dblMax))
    (h' : (v' = 2 ^ e * w' ∧ |w'| ≤ 2 ^ 200) ∨ (v' = dblMax ∧ w' = dblMax) ∨ (v' = -dblMax ∧ w' = -dblMax)) : v < v' ↔ w < w' := by
  have small : ∀ {w : ℚ}, |w| ≤ 2 ^ 200 → (-dblMax < w ∧ w < dblMax) ∧ -dblMax < 2 ^ e * w ∧ 2 ^ e * w < dblMax := by
    intro w hw
    have h1 := scale_le (e := e) (k := 200) (by norm_num) he hw
    rw [abs_le] at h1 hw
    exact ⟨⟨(neg_lt_neg max_mid).trans_le hw.1, hw.2.trans_lt max_mid⟩, (neg_lt_neg max_huge).trans_le h1.1, h1.2.trans_lt max_huge⟩
  rcases h with ⟨rfl, h⟩ | ⟨rfl, rfl⟩ | ⟨rfl, rfl⟩
  · have k := small h
    rcases h' with ⟨rfl, h'⟩ | ⟨rfl, rfl⟩ | ⟨rfl, rfl⟩
    · exact mul_lt_mul_iff_right₀ (by positivity)
    · exact ⟨fun _ => k.1.2, fun _ => k.2.2⟩
    · exact ⟨fun h => absurd h (not_lt.2 k.2.1.le), fun h => absurd h (not_lt.2 k.1.1.le)⟩
  · rcases h' with ⟨rfl, h'⟩ | ⟨rfl, rfl⟩ | ⟨rfl, rfl⟩
    · have k := small h'
      exact ⟨fun h => absurd h (not_lt.2 k.2.2.le), fun h => absurd h (not_lt.2 k.1.2.le)⟩
    · exact Iff.rfl
    · exact Iff.rfl
  · rcases h' with ⟨rfl, h'⟩ | ⟨rfl, rfl⟩ | ⟨rfl, rfl⟩
    · have k := small h'
      exact ⟨fun _ => k.1.1, fun _ => k.2.1⟩
    · exact Iff.rfl
    · exact Iff.rfl

theorem RC.lt (he : e ≤ 400) {x y : Dbl} {a b : R64} (hx : RC e x a) (hy : RC e y b) : (x <. y) = (a <. b) := by
  obtain ⟨s, m, rfl, hm, h1⟩ := hx
  obtain ⟨t, n, rfl, hn, h2⟩ := hy
  rw [num_lt, Bool.eq_iff_iff, decide_eq_true_eq, R64.lt_iff]
  exact RC.order he h1 h2

theorem RC.eq (he : e ≤ 400) {x y : Dbl} {a b : R64} (hx : RC e x a) (hy : RC e y b) : (x ==. y) = (a ==. b) := by
  obtain ⟨s, m, rfl, hm, h1⟩ := hx
  obtain ⟨t, n, rfl, hn, h2⟩ := hy
  rw [num_eq, Bool.eq_iff_iff, decide_eq_true_eq, R64.eq_iff]
  have k1 := RC.order he h1 h2
  have k2 := RC.order he h2 h1
  constructor
  · intro h
    exact le_antisymm (not_lt.1 (fun h' => (k2.2 h').ne' h)) (not_lt.1 (fun h' => (k1.2 h').ne h))
  · intro h
    exact le_antisymm (not_lt.1 (fun h' => (k2.1 h').ne' h)) (not_lt.1 (fun h' => (k1.1 h').ne h))

theorem RC.le (he : e ≤ 400) {x y : Dbl} {a b : R64} (hx : RC e x a) (hy : RC e y b) : (x ≤. y) = (a ≤. b) := by
  have h1 : (x ≤. y) = ((x <. y) || (x ==. y)) := rfl
  rw [h1, hx.lt he hy, hx.eq he hy, Bool.eq_iff_iff, Bool.or_eq_true, R64.lt_iff, R64.eq_iff, R64.le_iff]
  exact le_iff_lt_or_eq.symm

theorem RC.big (e : ℤ) : RC e (FNum.maxNum : Dbl) (FNum.maxNum : R64) :=
  ⟨false, dblMax, rfl, max_pos.le, Or.inr (Or.inl ⟨rfl, rfl⟩)⟩

theorem RC.low (e : ℤ) : RC e (FNum.neg FNum.maxNum : Dbl) (FNum.neg FNum.maxNum : R64) :=
  ⟨true, dblMax, rfl, max_pos.le, Or.inr (Or.inr ⟨rfl, rfl⟩)⟩

/-- Corresponding grid numbers. -/
abbrev GD (e : ℤ) : Dbl → R64 → Prop := RZ e 15

/-- Corresponding coordinates. -/
abbrev CD (e : ℤ) : Dbl → R64 → Prop := RV e 125 60

theorem GD.diff (he : -100 ≤ e ∧ e ≤ 100) {x y : Dbl} {a b : R64} (hx : GD e x a) (hy : GD e y b) :
    RZ e 16 (x -. y) (a -. b) ∧ ((a -. b).q = 0 ↔ a = b) := by
  refine ⟨RV.sub hx hy (by norm_num) (by norm_num) (by omega), ?_⟩
  have h1 : (a -. b).q = rndSigned (a.q - b.q) := rfl
  have h2 : a = b ↔ a.q = b.q := Iff.rfl
  rw [h1, h2, sub_eq_add_neg, rnd_zero_iff (hx.2.2.add hy.2.2.neg).notTiny (by norm_num), ← sub_eq_add_neg, sub_eq_zero]

theorem half_d (he : -100 ≤ e ∧ e ≤ 100) {a b : Dbl} {a' b' : R64} (ha : GD e a a') (hb : GD e b b') :
    RV e 53 16 ((a +. b) /. FNum.lit 2) ((a' +. b') /. FNum.lit 2) :=
  RV.div (ha.add hb (by norm_num) (by norm_num) (by omega)) two_lit (by rw [R64.two]; norm_num) (by omega) (by norm_num) (by norm_num) (by omega)

theorem linX_d (he : -100 ≤ e ∧ e ≤ 100) {t f : Vec2 Dbl} {t' f' : Vec2 R64} {y : Dbl} {y' : R64} (ht : V2 (GD e) t t') (hf : V2 (GD e) f f')
    (hy : RV e 53 16 y y') (hne : t'.y ≠ f'.y) : CD e (Seg.linX t f y) (Seg.linX t' f' y') := by
  have h1 := (GD.diff he ht.1 hf.1).1
  have h2 := hy.sub (hf.2.mono (i' := 53) (k' := 16) (by norm_num) (by norm_num)) (by norm_num) (by norm_num) (by omega)
  have h3 := GD.diff he ht.2 hf.2
  have h4 : (t'.y -. f'.y).q ≠ 0 := fun h => hne (h3.2.1 h)
  have h5 := (h1.mul h2 rfl (by norm_num) (by norm_num) (by omega)).div h3.1 h4 (g := e) (by omega) (by norm_num) (by norm_num) (by omega)
  exact (h5.add (hf.1.mono (by norm_num) (by norm_num)) (by norm_num) (by norm_num) (by omega)).mono (by norm_num) (by norm_num)

/-! ## Intersection of two straight segments -/

theorem V2.subZ (he : -100 ≤ e ∧ e ≤ 100) {p q : Vec2 Dbl} {p' q' : Vec2 R64} (hp : V2 (GD e) p p') (hq : V2 (GD e) q q') :
    V2 (RZ e 16) (p.sub q) (p'.sub q') := ⟨(GD.diff he hp.1 hq.1).1, (GD.diff he hp.2 hq.2).1⟩

theorem V2.subV {i k : ℕ} {p q : Vec2 Dbl} {p' q' : Vec2 R64} (hp : V2 (RV e i k) p p') (hq : V2 (RV e i k) q q') (hi : i ≤ 400) (hk : k + 1 ≤ 400)
    (he : -400 ≤ e ∧ e ≤ 400) : V2 (RV e i (k + 1)) (p.sub q) (p'.sub q') := ⟨hp.1.sub hq.1 hi hk he, hp.2.sub hq.2 hi hk he⟩

theorem V2.addV {i k : ℕ} {p q : Vec2 Dbl} {p' q' : Vec2 R64} (hp : V2 (RV e i k) p p') (hq : V2 (RV e i k) q q') (hi : i ≤ 400) (hk : k + 1 ≤ 400)
    (he : -400 ≤ e ∧ e ≤ 400) : V2 (RV e i (k + 1)) (p.add q) (p'.add q') := ⟨hp.1.add hq.1 hi hk he, hp.2.add hq.2 hi hk he⟩

theorem V2.smulV {i j k l : ℕ} {p : Vec2 Dbl} {p' : Vec2 R64} (hp : V2 (RV e i k) p p') {x : Dbl} {a : R64} (hx : RV 0 j l x a) (hi : i + j ≤ 400)
    (hk : k + l ≤ 400) (he : -400 ≤ e ∧ e ≤ 400) : V2 (RV e (i + j) (k + l)) (p.smul x) (p'.smul a) :=
  ⟨hp.1.mul hx (by omega) hi hk he, hp.2.mul hx (by omega) hi hk he⟩

theorem V2.dotV {f : ℤ} {i k : ℕ} {p q : Vec2 Dbl} {p' q' : Vec2 R64} (hp : V2 (RV e i k) p p') (hq : V2 (RV e i k) q q') (hf : f = e + e) (hi : i + i ≤ 400)
    (hk : k + k + 1 ≤ 400) (he : -400 ≤ f ∧ f ≤ 400) : RV f (i + i) (k + k + 1) (p.dot q) (p'.dot q') :=
  (hp.1.mul hq.1 hf hi (by omega) he).add (hp.2.mul hq.2 hf hi (by omega) he) hi hk he

theorem V2.dist2V {f : ℤ} {i k : ℕ} {p : Vec2 Dbl} {p' : Vec2 R64} (hp : V2 (RV e i k) p p') (hf : f = e + e) (hi : i + i ≤ 400)
    (hk : k + k + 1 ≤ 400) (he : -400 ≤ f ∧ f ≤ 400) : RV f (i + i) (k + k + 1) p.dist2 p'.dist2 :=
  (hp.1.mul hp.1 hf hi (by omega) he).add (hp.2.mul hp.2 hf hi (by omega) he) hi hk he

theorem V2.monoV {i i' k k' : ℕ} {p : Vec2 Dbl} {p' : Vec2 R64} (hp : V2 (RV e i k) p p') (hi : i ≤ i') (hk : k ≤ k') : V2 (RV e i' k') p p' :=
  ⟨hp.1.mono hi hk, hp.2.mono hi hk⟩

theorem dist2_ne (he : -100 ≤ e ∧ e ≤ 100) {p q : Vec2 Dbl} {p' q' : Vec2 R64} (hp : V2 (GD e) p p') (hq : V2 (GD e) q q') (hne : q' ≠ p') :
    (p'.sub q').dist2.q ≠ 0 := by
  intro h
  have hx := GD.diff he hp.1 hq.1
  have hy := GD.diff he hp.2 hq.2
  have holds : ∀ {x : Dbl} {a : R64}, RZ e 16 x a → ∃ n : ℤ, a.q = n ∧ |n| ≤ 2 ^ 16 := by
    rintro x a ⟨_, h1, n, h2⟩
    have h3 : a.q = n := by rw [h2]; simp
    refine ⟨n, h3, ?_⟩
    rw [h3] at h1
    exact_mod_cast h1
  obtain ⟨n, hn2, hn⟩ := holds hx.1
  obtain ⟨m, hm2, hm⟩ := holds hy.1
  have := Holds.dist2_zero (x := p'.x -. q'.x) (y := p'.y -. q'.y) ⟨hn2, hn⟩ ⟨hm2, hm⟩ h
  apply hne
  have e1 : p'.x = q'.x := hx.2.1 (by rw [hn2, this.1]; simp)
  have e2 : p'.y = q'.y := hy.2.1 (by rw [hm2, this.2]; simp)
  cases p'; cases q'
  simp only at e1 e2
  rw [e1, e2]

theorem dist2PointLine_d (he : -100 ≤ e ∧ e ≤ 100) {p l m : Vec2 Dbl} {p' l' m' : Vec2 R64} (hp : V2 (GD e) p p') (hl : V2 (GD e) l l') (hm : V2 (GD e) m m')
    (hne : l' ≠ m') : (dist2PointLine p l m ==. FNum.lit 0) = (dist2PointLine p' l' m' ==. FNum.lit 0) := by
  have hAC := hp.subZ he hl
  have hAB := hm.subZ he hl
  have hd := hAB.dist2V (f := e + e) rfl (by norm_num) (by norm_num) (by omega)
  have hf := hAB.dotV hAC (f := e + e) rfl (by norm_num) (by norm_num) (by omega)
  unfold dist2PointLine
  simp only
  rw [hf.lt (zero_lit _), hd.lt hf]
  split
  · exact (hAC.dist2V (f := e + e) rfl (by norm_num) (by norm_num) (by omega)).zero
  · split
    · exact ((hp.subZ he hm).dist2V (f := e + e) rfl (by norm_num) (by norm_num) (by omega)).zero
    · have hq := hf.div hd (dist2_ne he hm hl hne) (g := 0) (by omega) (by norm_num) (by norm_num) (by norm_num)
      have hD := (hl.monoV (by norm_num) (by norm_num)).addV (hAB.smulV hq (by norm_num) (by norm_num) (by omega)) (by norm_num) (by norm_num) (by omega)
      exact (((hp.monoV (by norm_num) (by norm_num)).subV hD (by norm_num) (by norm_num) (by omega)).dist2V (f := e + e) rfl (by norm_num) (by norm_num)
        (by omega)).zero

theorem fminR (he : e ≤ 400) {a b : Dbl} {a' b' : R64} (h : RC e a a') (h2 : RC e b b') : RC e (fmin a b) (fmin a' b') := by
  unfold fmin; rw [h2.lt he h]; split
  · exact h2
  · exact h

theorem fmaxR (he : e ≤ 400) {a b : Dbl} {a' b' : R64} (h : RC e a a') (h2 : RC e b b') : RC e (fmax a b) (fmax a' b') := by
  unfold fmax; rw [h.lt he h2]; split
  · exact h2
  · exact h

theorem V2.c {i k : ℕ} {p : Vec2 Dbl} {p' : Vec2 R64} (h : V2 (RV e i k) p p') (hk : k ≤ 200) : V2 (RC e) p p' := ⟨h.1.c hk, h.2.c hk⟩

theorem bneD (he : e ≤ 400) {p q : Vec2 Dbl} {p' q' : Vec2 R64} (h : V2 (RC e) p p') (h2 : V2 (RC e) q q') : p.bne q = p'.bne q' := by
  unfold Vec2.bne Vec2.beq; rw [RC.eq he h.1 h2.1, RC.eq he h.2 h2.2]

theorem rect_d (he : e ≤ 400) {p q : Vec2 Dbl} {p' q' : Vec2 R64} (hp : V2 (RC e) p p') (hq : V2 (RC e) q q') :
    V2 (RC e) (Rect.of [p, q]).min (Rect.of [p', q']).min ∧ V2 (RC e) (Rect.of [p, q]).max (Rect.of [p', q']).max :=
  ⟨⟨fminR he (fminR he (RC.big e) hp.1) hq.1, fminR he (fminR he (RC.big e) hp.2) hq.2⟩,
    ⟨fmaxR he (fmaxR he (RC.low e) hp.1) hq.1, fmaxR he (fmaxR he (RC.low e) hp.2) hq.2⟩⟩

theorem pointBetween_d (he : e ≤ 400) {p q r : Vec2 Dbl} {p' q' r' : Vec2 R64} (hp : V2 (RC e) p p') (hq : V2 (RC e) q q') (hr : V2 (RC e) r r') :
    pointBetween p q r = pointBetween p' q' r' := by
  have h := rect_d he hq hr
  unfold pointBetween
  simp only
  rw [RC.eq he hq.1 hr.1, RC.le he h.1.2 hp.2, RC.le he hp.2 h.2.2, RC.le he h.1.1 hp.1, RC.le he hp.1 h.2.1]

theorem sub_ne (he : -100 ≤ e ∧ e ≤ 100) {p q : Vec2 Dbl} {p' q' : Vec2 R64} (hp : V2 (GD e) p p') (hq : V2 (GD e) q q') (hne : p' ≠ q')
    (h : (p'.sub q').y.q = 0) : (p'.sub q').x.q ≠ 0 := by
  intro h2
  have e1 : p'.x = q'.x := (GD.diff he hp.1 hq.1).2.1 h2
  have e2 : p'.y = q'.y := (GD.diff he hp.2 hq.2).2.1 h
  apply hne
  cases p'; cases q'
  simp only at e1 e2
  rw [e1, e2]

theorem paramOn_d (he : -100 ≤ e ∧ e ≤ 100) {q s d : Vec2 Dbl} {q' s' d' : Vec2 R64} (hq : V2 (GD e) q q') (hs : V2 (GD e) s s') (hd : V2 (RZ e 16) d d')
    (hne : d'.y.q = 0 → d'.x.q ≠ 0) : RV 0 86 33 (paramOn q s d) (paramOn q' s' d') := by
  have h := hq.subZ he hs
  unfold paramOn
  rw [hd.2.zero]
  split
  · next h0 =>
    rw [R64.eq_iff, R64.zero] at h0
    exact (h.1.div hd.1 (hne h0) (g := 0) (by omega) (by norm_num) (by norm_num) (by norm_num)).mono (by norm_num) (by norm_num)
  · next h0 =>
    rw [R64.eq_iff, R64.zero] at h0
    exact (h.2.div hd.2 h0 (g := 0) (by omega) (by norm_num) (by norm_num) (by norm_num)).mono (by norm_num) (by norm_num)

theorem paramOnNeg_d (he : -100 ≤ e ∧ e ≤ 100) {q s d : Vec2 Dbl} {q' s' d' : Vec2 R64} (hq : V2 (GD e) q q') (hs : V2 (GD e) s s') (hd : V2 (RZ e 16) d d')
    (hne : d'.y.q = 0 → d'.x.q ≠ 0) : RV 0 86 33 (paramOnNeg q s d) (paramOnNeg q' s' d') := by
  have h := hq.subZ he hs
  unfold paramOnNeg
  rw [hd.2.zero]
  split
  · next h0 =>
    rw [R64.eq_iff, R64.zero] at h0
    exact (h.1.div hd.1.neg (by rw [R64.neg_q, neg_ne_zero]; exact hne h0) (g := 0) (by omega) (by norm_num) (by norm_num) (by norm_num)).mono
      (by norm_num) (by norm_num)
  · next h0 =>
    rw [R64.eq_iff, R64.zero] at h0
    exact (h.2.div hd.2.neg (by rw [R64.neg_q, neg_ne_zero]; exact h0) (g := 0) (by omega) (by norm_num) (by norm_num) (by norm_num)).mono
      (by norm_num) (by norm_num)

theorem pushInfo_d {P T : Dbl → R64 → Prop} {n : ℕ} {o : Option (List (Info Dbl))} {o' : Option (List (Info R64))}
    (h : Option.Rel (List.Forall₂ (InfoR P T)) o o') {c : Bool} {i : Info Dbl} {i' : Info R64} (hi : InfoR P T i i') :
    Option.Rel (List.Forall₂ (InfoR P T)) (if c then pushInfo n o i else o) (if c then pushInfo n o' i' else o') := by
  cases c
  · exact h
  · simp only [if_true]
    unfold pushInfo
    cases h with
    | none => exact .none
    | some h =>
      simp only
      rw [h.length_eq]
      split
      · exact .some (f2_append h (.cons hi .nil))
      · exact .none

theorem meet_d (he : -100 ≤ e ∧ e ≤ 100) {p0 p1 p2 p3 : Vec2 Dbl} {q0 q1 q2 q3 : Vec2 R64} (h0 : V2 (GD e) p0 q0) (h1 : V2 (GD e) p1 q1)
    (h2 : V2 (GD e) p2 q2) (h3 : V2 (GD e) p3 q3) (n01 : q0 ≠ q1) (n23 : q2 ≠ q3) :
    Option.Rel (List.Forall₂ (InfoR (CD e) (RV 0 100 100))) (lineIntersect p0 p1 p2 p3) (lineIntersect q0 q1 q2 q3) := by
  have he' : e ≤ 400 := by omega
  have ha := h1.subZ he h0
  have hb := h2.subZ he h3
  have hc := h0.subZ he h2
  have na : (q1.sub q0).y.q = 0 → (q1.sub q0).x.q ≠ 0 := sub_ne he h1 h0 n01.symm
  have nb : (q2.sub q3).y.q = 0 → (q2.sub q3).x.q ≠ 0 := sub_ne he h2 h3 n23
  have cross : ∀ {x y z w : Dbl} {a b c d : R64}, RZ e 16 x a → RZ e 16 y b → RZ e 16 z c → RZ e 16 w d →
      RZ (e + e) 33 (x *. y -. z *. w) (a *. b -. c *. d) := fun h1 h2 h3 h4 =>
    (h1.mul h2 rfl (by norm_num) (by norm_num) (by omega)).sub (h3.mul h4 rfl (by norm_num) (by norm_num) (by omega)) (by norm_num) (by norm_num) (by omega)
  have hden := cross ha.2 hb.1 ha.1 hb.2
  have d0 := h0.c (by norm_num)
  have d1 := h1.c (by norm_num)
  have d2 := h2.c (by norm_num)
  have d3 := h3.c (by norm_num)
  unfold lineIntersect
  simp only
  rw [hden.zero, hden.fin]
  split
  · rw [dist2PointLine_d he h0 h2 h3 n23]
    split
    · rw [bneD he' d0 d2, bneD he' d0 d3, pointBetween_d he' d0 d2 d3, bneD he' d1 d2, bneD he' d1 d3, pointBetween_d he' d1 d2 d3,
        bneD he' d2 d0, bneD he' d2 d1, pointBetween_d he' d2 d0 d1, bneD he' d3 d0, bneD he' d3 d1, pointBetween_d he' d3 d0 d1]
      refine pushInfo_d (pushInfo_d (pushInfo_d (pushInfo_d (.some .nil) ?_) ?_) ?_) ?_
      · exact ⟨h0.monoV (by norm_num) (by norm_num), (zero_lit 0).mono (by norm_num) (by norm_num), (paramOnNeg_d he h0 h2 hb nb).mono (by norm_num) (by norm_num)⟩
      · exact ⟨h1.monoV (by norm_num) (by norm_num), one_lit.mono (by norm_num) (by norm_num), (paramOnNeg_d he h1 h2 hb nb).mono (by norm_num) (by norm_num)⟩
      · exact ⟨h2.monoV (by norm_num) (by norm_num), (paramOn_d he h2 h0 ha na).mono (by norm_num) (by norm_num), (zero_lit 0).mono (by norm_num) (by norm_num)⟩
      · exact ⟨h3.monoV (by norm_num) (by norm_num), (paramOn_d he h3 h0 ha na).mono (by norm_num) (by norm_num), one_lit.mono (by norm_num) (by norm_num)⟩
    · exact .some .nil
  · next hz =>
    have hz' : ((q1.sub q0).y *. (q2.sub q3).x -. (q1.sub q0).x *. (q2.sub q3).y).q ≠ 0 := by
      intro h
      apply hz
      rw [Bool.or_eq_true]
      left
      rw [R64.eq_iff, R64.zero]
      exact h
    have hr := one_lit.div hden hz' (g := -(e + e)) (by omega) (by norm_num) (by norm_num) (by omega)
    have hna := (cross hb.2 hc.1 hb.1 hc.2).mul hr (g := 0) (by omega) (by norm_num) (by norm_num) (by norm_num)
    have hnb := (cross ha.1 hc.2 ha.2 hc.1).mul hr (g := 0) (by omega) (by norm_num) (by norm_num) (by norm_num)
    rw [RV.le (zero_lit 0) hna, RV.le hna one_lit, RV.le (zero_lit 0) hnb, RV.le hnb one_lit]
    split
    · have := (h0.monoV (by norm_num) (by norm_num)).addV (ha.smulV hna (by norm_num) (by norm_num) (by omega)) (by norm_num) (by norm_num) (by omega)
      exact .some (.cons ⟨this.monoV (by norm_num) (by norm_num), hna.mono (by norm_num) (by norm_num), hnb.mono (by norm_num) (by norm_num)⟩ .nil)
    · exact .some .nil

theorem unit_d {t : Dbl} {t' : R64} (h : RV 0 100 100 t t') : inUnit t = inUnit t' := by
  have hm : RV 0 72 0 (FNum.lit (1 / 1000000) : Dbl) (FNum.lit (1 / 1000000)) :=
    RV.lit (i := 20) (by norm_num [abs_of_pos]) (Or.inr (by norm_num [abs_of_pos])) (by norm_num) (by norm_num)
  unfold inUnit
  rw [RV.lt (((zero_lit 0).mono (by norm_num) (by norm_num)).add hm (by norm_num) (by norm_num) (by norm_num)) h,
    RV.lt h ((one_lit.mono (by norm_num) (by norm_num)).sub hm (by norm_num) (by norm_num) (by norm_num))]

theorem CD.range (he : -100 ≤ e ∧ e ≤ 100) {a : Dbl} {a' : R64} (h : CD e a a') :
    ∃ s m, a = .num s m ∧ -dblMax < Dbl.val s m ∧ Dbl.val s m < dblMax := by
  obtain ⟨s, m, h1, h2, h3⟩ := h.1
  have := scale_le (e := e) (k := 60) (by norm_num) (by omega) h.2.1
  rw [← h3, abs_le] at this
  exact ⟨s, m, h1, (neg_lt_neg max_huge).trans_le this.1, this.2.trans_lt max_huge⟩

theorem CD.lt_max (he : -100 ≤ e ∧ e ≤ 100) {a : Dbl} {a' : R64} (h : CD e a a') : (a <. (FNum.maxNum : Dbl)) = true := by
  obtain ⟨s, m, rfl, _, h2⟩ := h.range he
  exact decide_eq_true h2

theorem CD.low_lt (he : -100 ≤ e ∧ e ≤ 100) {a : Dbl} {a' : R64} (h : CD e a a') : ((FNum.neg FNum.maxNum : Dbl) <. a) = true := by
  obtain ⟨s, m, rfl, h2, _⟩ := h.range he
  exact decide_eq_true h2

theorem CD.ne_low (he : -100 ≤ e ∧ e ≤ 100) {a : Dbl} {a' : R64} (h : CD e a a') : (a ==. (FNum.neg FNum.maxNum : Dbl)) = false := by
  obtain ⟨s, m, rfl, h2, _⟩ := h.range he
  exact decide_eq_false h2.ne'

/-- IEEE 754 doubles, multiples of `2 ^ e`, against rounded numbers without overflow. -/
@[reducible] def simDbl (he : -100 ≤ e ∧ e ≤ 100) : Sim Dbl R64 where
  R := CD e
  G := GD e
  H := RV e 53 16
  T := RV 0 100 100
  wk h := RV.mono h (by norm_num) (by norm_num)
  half_wk h := RV.mono h (by norm_num) (by norm_num)
  lt := RV.lt
  le := RV.le
  eq := RV.eq
  zero := (zero_lit e).mono (by norm_num) (by norm_num)
  rmin {a a'} h := by
    have h1 : (a <. (FNum.maxNum : Dbl)) = true := CD.lt_max he h
    have h2 : (a' <. (FNum.maxNum : R64)) = true := by rw [← RC.lt (by omega) (RV.c h (by norm_num)) (RC.big e)]; exact h1
    unfold fmin
    rw [h1, h2]
    exact h
  rmax {a a'} h := by
    have h1 : ((FNum.neg FNum.maxNum : Dbl) <. a) = true := CD.low_lt he h
    have h2 : ((FNum.neg FNum.maxNum : R64) <. a') = true := by rw [← RC.lt (by omega) (RC.low e) (RV.c h (by norm_num))]; exact h1
    unfold fmax
    rw [h1, h2]
    exact h
  low {a a'} h := by
    have h1 : (a ==. (FNum.neg FNum.maxNum : Dbl)) = false := CD.ne_low he h
    have h2 : (a' ==. (FNum.neg FNum.maxNum : R64)) = false := by rw [← RC.eq (by omega) (RV.c h (by norm_num)) (RC.low e)]; exact h1
    exact ⟨h1, h2⟩
  half := half_d he
  linX h1 h2 h3 h4 := linX_d he h1 h2 h3 h4
  tlt := RV.lt
  teq := RV.eq
  unit := unit_d
  meet := meet_d he

end River
