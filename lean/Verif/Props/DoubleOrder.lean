import Mathlib.Order.WithBot
import Verif.Props.Double

/-! # The comparisons and the special values of the model of doubles

What the tests `<`, `<=`, `==` of the code mean for infinities and NaN, the rules of IEEE 754 for infinities in sums, products and quotients,
and what `std::remainder` and the conversion to `int` return. -/

namespace River

/-- The value of a double on the line of numbers extended by `-∞` (`⊥`) and `∞` (`⊤`); NaN has none. -/
def Dbl.place : Dbl → Option (WithBot (WithTop ℚ))
  | .num s m => some ((((if s then -m else m : ℚ)) : WithTop ℚ) : WithBot (WithTop ℚ))
  | .inf s => some (if s then ⊥ else ((⊤ : WithTop ℚ) : WithBot (WithTop ℚ)))
  | .nan => none

/-- `x < y` holds exactly if both have a place and that of `x` is to the left. -/
theorem Dbl.lt_iff (x y : Dbl) : (FNum.lt x y = true) ↔ ∃ a b, x.place = some a ∧ y.place = some b ∧ a < b := by
  show Dbl.lt x y = true ↔ _
  cases x with
  | nan => simp [Dbl.lt, Dbl.place]
  | inf s =>
    cases y with
    | nan => simp [Dbl.lt, Dbl.place]
    | inf t => cases s <;> cases t <;> simp [Dbl.lt, Dbl.place]
    | num t n => cases s <;> simp [Dbl.lt, Dbl.place]
  | num s m =>
    cases y with
    | nan => simp [Dbl.lt, Dbl.place]
    | inf t =>
      cases t
      · exact ⟨fun _ => ⟨_, _, rfl, rfl, WithBot.coe_lt_coe.2 (WithTop.coe_lt_top _)⟩, fun _ => rfl⟩
      · simp [Dbl.lt, Dbl.place]
    | num t n =>
      show decide _ = true ↔ _
      rw [decide_eq_true_iff]
      constructor
      · exact fun h => ⟨_, _, rfl, rfl, WithBot.coe_lt_coe.2 (WithTop.coe_lt_coe.2 h)⟩
      · rintro ⟨a, b, h1, h2, h⟩
        cases h1; cases h2
        exact WithTop.coe_lt_coe.1 (WithBot.coe_lt_coe.1 h)

/-- `x == y` holds exactly if both have the same place. -/
theorem Dbl.eq_iff (x y : Dbl) : (FNum.eq x y = true) ↔ ∃ a, x.place = some a ∧ y.place = some a := by
  show Dbl.eq x y = true ↔ _
  cases x with
  | nan => simp [Dbl.eq, Dbl.place]
  | inf s =>
    cases y with
    | nan => simp [Dbl.eq, Dbl.place]
    | inf t => cases s <;> cases t <;> simp [Dbl.eq, Dbl.place]
    | num t n => cases s <;> simp [Dbl.eq, Dbl.place, eq_comm]
  | num s m =>
    cases y with
    | nan => simp [Dbl.eq, Dbl.place]
    | inf t => cases t <;> simp [Dbl.eq, Dbl.place]
    | num t n =>
      show decide _ = true ↔ _
      rw [decide_eq_true_iff]
      constructor
      · intro h
        refine ⟨_, rfl, ?_⟩
        simp only [Dbl.val] at h
        rw [Dbl.place, h]
      · rintro ⟨a, h1, h2⟩
        cases h1
        exact (WithTop.coe_inj.1 (WithBot.coe_inj.1 (Option.some.inj h2))).symm

/-- `x <= y` likewise. -/
theorem Dbl.le_iff (x y : Dbl) : (FNum.le x y = true) ↔ ∃ a b, x.place = some a ∧ y.place = some b ∧ a ≤ b := by
  have e : FNum.le x y = (FNum.lt x y || FNum.eq x y) := rfl
  rw [e, Bool.or_eq_true, Dbl.lt_iff, Dbl.eq_iff]
  constructor
  · rintro (⟨a, b, h1, h2, h⟩ | ⟨a, h1, h2⟩)
    · exact ⟨a, b, h1, h2, h.le⟩
    · exact ⟨a, a, h1, h2, le_rfl⟩
  · rintro ⟨a, b, h1, h2, h⟩
    rcases h.lt_or_eq with h | rfl
    · exact Or.inl ⟨a, b, h1, h2, h⟩
    · exact Or.inr ⟨a, h1, h2⟩

/-- A test with NaN fails. -/
theorem Dbl.nan_tests (x : Dbl) : FNum.lt x Dbl.nan = false ∧ FNum.lt Dbl.nan x = false ∧ FNum.le x Dbl.nan = false ∧ FNum.le Dbl.nan x = false ∧
    FNum.eq x Dbl.nan = false ∧ FNum.eq Dbl.nan x = false := by
  refine ⟨?_, ?_, ?_, ?_, ?_, ?_⟩ <;> rw [Bool.eq_false_iff] <;> intro h
  · obtain ⟨_, _, _, h, _⟩ := (Dbl.lt_iff _ _).1 h; cases h
  · obtain ⟨_, _, h, _⟩ := (Dbl.lt_iff _ _).1 h; cases h
  · obtain ⟨_, _, _, h, _⟩ := (Dbl.le_iff _ _).1 h; cases h
  · obtain ⟨_, _, h, _⟩ := (Dbl.le_iff _ _).1 h; cases h
  · obtain ⟨_, _, h⟩ := (Dbl.eq_iff _ _).1 h; cases h
  · obtain ⟨_, h, _⟩ := (Dbl.eq_iff _ _).1 h; cases h

/-- `std::isfinite`. -/
theorem Dbl.finite_iff (x : Dbl) : FNum.isFinite x = true ↔ ∃ q : ℚ, x.place = some ((q : WithTop ℚ) : WithBot (WithTop ℚ)) := by
  cases x with
  | num s m => exact ⟨fun _ => ⟨_, rfl⟩, fun _ => rfl⟩
  | inf s => cases s <;> simp [FNum.isFinite, Dbl.isFinite, Dbl.place, eq_comm]
  | nan => simp [FNum.isFinite, Dbl.isFinite, Dbl.place]

/-- The double with a given value; zero is the positive one. -/
theorem Dbl.of_spec (q : ℚ) : (Dbl.of q).place = some ((q : WithTop ℚ) : WithBot (WithTop ℚ)) ∧ (Dbl.of q).toRat = q ∧
    (FAngle.signbit (Dbl.of q) = true ↔ q < 0) := by
  unfold Dbl.of
  by_cases h : q < 0
  · rw [if_pos h]
    simp [Dbl.place, Dbl.toRat, Dbl.val, FAngle.signbit, h]
  · rw [if_neg h]
    simp [Dbl.place, Dbl.toRat, Dbl.val, FAngle.signbit, h]

/-- Infinities in sums. -/
theorem Dbl.add_inf (s : Bool) (x : Dbl) : (FNum.isFinite x = true → FNum.add (Dbl.inf s) x = Dbl.inf s ∧ FNum.add x (Dbl.inf s) = Dbl.inf s) ∧
    FNum.add (Dbl.inf s) (Dbl.inf s) = Dbl.inf s ∧ FNum.add (Dbl.inf s) (Dbl.inf (!s)) = Dbl.nan ∧ FNum.add x Dbl.nan = Dbl.nan ∧ FNum.add Dbl.nan x = Dbl.nan := by
  cases x <;> cases s <;> simp [FNum.add, Dbl.add, FNum.isFinite, Dbl.isFinite]

/-- Infinities in products: the sign is the product of the signs; infinity times zero is NaN. -/
theorem Dbl.mul_inf (s t : Bool) (m : ℚ) (x : Dbl) : FNum.mul (Dbl.inf s) (Dbl.inf t) = Dbl.inf (s != t) ∧
    FNum.mul (Dbl.inf s) (Dbl.num t 0) = Dbl.nan ∧ FNum.mul (Dbl.num t 0) (Dbl.inf s) = Dbl.nan ∧
    (m ≠ 0 → FNum.mul (Dbl.inf s) (Dbl.num t m) = Dbl.inf (s != t) ∧ FNum.mul (Dbl.num t m) (Dbl.inf s) = Dbl.inf (s != t)) ∧
    FNum.mul x Dbl.nan = Dbl.nan ∧ FNum.mul Dbl.nan x = Dbl.nan := by
  refine ⟨rfl, rfl, rfl, fun h => ⟨?_, ?_⟩, by cases x <;> rfl, by cases x <;> rfl⟩
  · show (if m = 0 then Dbl.nan else Dbl.inf (s != t)) = _
    rw [if_neg h]
  · show (if m = 0 then Dbl.nan else Dbl.inf (t != s)) = _
    rw [if_neg h]
    cases s <;> cases t <;> rfl

/-- Infinities and zeros in quotients: a number over infinity is zero, over zero infinity, zero over zero and infinity over infinity NaN; the sign is
the product of the signs. -/
theorem Dbl.div_special (s t : Bool) (m : ℚ) (x : Dbl) : FNum.div (Dbl.num s m) (Dbl.inf t) = Dbl.num (s != t) 0 ∧
    FNum.div (Dbl.inf s) (Dbl.num t m) = Dbl.inf (s != t) ∧ FNum.div (Dbl.inf s) (Dbl.inf t) = Dbl.nan ∧
    (m ≠ 0 → FNum.div (Dbl.num s m) (Dbl.num t 0) = Dbl.inf (s != t)) ∧ FNum.div (Dbl.num s 0) (Dbl.num t 0) = Dbl.nan ∧
    FNum.div x Dbl.nan = Dbl.nan ∧ FNum.div Dbl.nan x = Dbl.nan := by
  refine ⟨rfl, rfl, rfl, fun h => ?_, rfl, by cases x <;> rfl, by cases x <;> rfl⟩
  show Dbl.div (Dbl.num s m) (Dbl.num t 0) = _
  rw [Dbl.div, if_pos rfl, if_neg h]

/-- Zero as a sum is positive, except as the sum of two negative zeros. -/
theorem Dbl.add_zero_sign (s t : Bool) (m n : ℚ) (h : (if s then -m else m) + (if t then -n else n) = 0) :
    FNum.add (Dbl.num s m) (Dbl.num t n) = Dbl.num (s && t) 0 := by
  have h' : Dbl.val s m + Dbl.val t n = 0 := h
  show (if Dbl.val s m + Dbl.val t n = 0 then _ else _) = _
  rw [if_pos h']

/-- `std::remainder(x, y)`: what is left of `x` after taking away the multiple of `y` nearest to it; a zero keeps the sign of `x`. -/
theorem Dbl.remainder_spec (s t : Bool) (m n : ℚ) (hm : 0 ≤ m) (hn : 0 < n) : ∃ k : ℤ,
    (FAngle.remainder (Dbl.num s m) (Dbl.num t n)).toRat = (Dbl.num s m).toRat - k * (Dbl.num t n).toRat ∧
    |(Dbl.num s m).toRat - k * (Dbl.num t n).toRat| ≤ n / 2 ∧
    (∀ j : ℤ, |(Dbl.num s m).toRat - k * (Dbl.num t n).toRat| ≤ |(Dbl.num s m).toRat - j * (Dbl.num t n).toRat|) ∧
    ((Dbl.num s m).toRat = k * (Dbl.num t n).toRat → FAngle.signbit (FAngle.remainder (Dbl.num s m) (Dbl.num t n)) = s) := by
  obtain ⟨k, hk⟩ : ∃ k, k = nearestEven (m / n) := ⟨_, rfl⟩
  have hnear : |m - n * k| ≤ n / 2 := by
    have := nearestEven_near (div_nonneg hm hn.le)
    rw [← hk] at this
    have e : m - n * k = -(n * ((k : ℚ) - m / n)) := by
      rw [mul_sub, mul_div_cancel₀ _ hn.ne']; ring
    rw [e, abs_neg, abs_mul, abs_of_pos hn]
    have := mul_le_mul_of_nonneg_left this hn.le
    linarith
  have hrem : FAngle.remainder (Dbl.num s m) (Dbl.num t n) =
      if m - n * k = 0 then Dbl.num s 0 else if m - n * k < 0 then Dbl.num (!s) (-(m - n * k)) else Dbl.num s (m - n * k) := by
    show (if n = 0 then Dbl.nan else _) = _
    rw [if_neg hn.ne', hk]
  have hval : (FAngle.remainder (Dbl.num s m) (Dbl.num t n)).toRat = if s then -(m - n * k) else m - n * k := by
    rw [hrem]
    split_ifs with h1 h2 h3 h3 <;> simp_all [Dbl.toRat, Dbl.val]
  have hdiff : ∃ j : ℤ, (Dbl.num s m).toRat - j * (Dbl.num t n).toRat = if s then -(m - n * k) else m - n * k := by
    refine ⟨if s = t then (k : ℤ) else -k, ?_⟩
    cases s <;> cases t <;> simp [Dbl.toRat, Dbl.val] <;> ring
  obtain ⟨j, hj⟩ := hdiff
  have habs : |(Dbl.num s m).toRat - j * (Dbl.num t n).toRat| ≤ n / 2 := by
    rw [hj]; cases s
    · simpa using hnear
    · simpa [abs_sub_comm] using hnear
  refine ⟨j, by rw [hval, hj], habs, fun i => ?_, fun h => ?_⟩
  · by_cases hij : i = j
    · rw [hij]
    · have h1 : (1 : ℚ) ≤ |(i : ℚ) - j| := by
        have : (1 : ℤ) ≤ |i - j| := Int.one_le_abs (sub_ne_zero.2 hij)
        exact_mod_cast this
      have hy : |(Dbl.num t n).toRat| = n := by cases t <;> simp [Dbl.toRat, Dbl.val, abs_of_pos hn]
      have h2 : n ≤ |((i : ℚ) - j) * (Dbl.num t n).toRat| := by
        rw [abs_mul, hy]; nlinarith
      have h3 : ((i : ℚ) - j) * (Dbl.num t n).toRat =
          ((Dbl.num s m).toRat - j * (Dbl.num t n).toRat) - ((Dbl.num s m).toRat - i * (Dbl.num t n).toRat) := by ring
      rw [h3] at h2
      have := abs_sub ((Dbl.num s m).toRat - j * (Dbl.num t n).toRat) ((Dbl.num s m).toRat - i * (Dbl.num t n).toRat)
      linarith
  · have hz : m - n * k = 0 := by
      rw [h, sub_self] at hj
      cases s
      · simpa using hj.symm
      · have : -(m - n * k) = 0 := by simpa using hj.symm
        linarith
    rw [hrem, if_pos hz]
    rfl

/-- The remainder modulo infinity is the number itself, the remainder modulo zero, of an infinity and with a NaN is NaN. -/
theorem Dbl.remainder_special (s t : Bool) (m : ℚ) (x : Dbl) : FAngle.remainder (Dbl.num s m) (Dbl.inf t) = Dbl.num s m ∧
    FAngle.remainder (Dbl.num s m) (Dbl.num t 0) = Dbl.nan ∧ FAngle.remainder (Dbl.inf s) x = Dbl.nan ∧
    FAngle.remainder Dbl.nan x = Dbl.nan ∧ FAngle.remainder x Dbl.nan = Dbl.nan := by
  refine ⟨rfl, ?_, by cases x <;> rfl, by cases x <;> rfl, by cases x <;> rfl⟩
  show (if (0 : ℚ) = 0 then Dbl.nan else _) = _
  rw [if_pos rfl]

/-- The conversion to `int` cuts off what is after the point. -/
theorem Dbl.toInt_spec (s : Bool) (m : ℚ) (hm : 0 ≤ m) : FAngle.toInt (Dbl.num s m) = if s then -⌊m⌋ else ⌊m⌋ := by
  have : ((m.num.natAbs / m.den : ℕ) : ℤ) = ⌊m⌋ := by
    rw [Rat.floor_def']
    push_cast
    rw [abs_of_nonneg (Rat.num_nonneg.2 hm)]
  show (if s then -((m.num.natAbs / m.den : ℕ) : ℤ) else ((m.num.natAbs / m.den : ℕ) : ℤ)) = _
  rw [this]

/-- A zero remainder, one from above, one from below, a tie that goes to the even multiple. -/
theorem Dbl.remainder_cases : FAngle.remainder (Dbl.of 6) (Dbl.of 2) = Dbl.of 0 ∧ FAngle.remainder (Dbl.of 5) (Dbl.of 3) = Dbl.of (-1) ∧
    FAngle.remainder (Dbl.of (-4)) (Dbl.of 3) = Dbl.of (-1) ∧ FAngle.remainder (Dbl.of 3) (Dbl.of 2) = Dbl.of (-1) ∧
    FAngle.remainder (Dbl.of 5) (Dbl.of 2) = Dbl.of 1 := by decide +kernel

/-- `-x` mirrors the place of `x`: the sign of a number, of a zero and of an infinity changes, NaN stays NaN. -/
theorem Dbl.neg_spec (x : Dbl) : (∀ s m, x = .num s m → FNum.neg x = .num (!s) m) ∧ (∀ s, x = .inf s → FNum.neg x = .inf (!s)) ∧
    (x = .nan → FNum.neg x = .nan) ∧ FNum.neg (FNum.neg x) = x ∧
    (∀ y : Dbl, FNum.lt x y = FNum.lt (FNum.neg y) (FNum.neg x)) := by
  refine ⟨?_, ?_, ?_, ?_, ?_⟩
  · rintro s m rfl; rfl
  · rintro s rfl; rfl
  · rintro rfl; rfl
  · show Dbl.neg (Dbl.neg x) = x
    cases x <;> simp [Dbl.neg]
  · intro y
    show Dbl.lt x y = Dbl.lt (Dbl.neg y) (Dbl.neg x)
    cases x with
    | nan => cases y <;> simp [Dbl.lt, Dbl.neg]
    | inf s =>
      cases y with
      | nan => simp [Dbl.lt, Dbl.neg]
      | inf t => cases s <;> cases t <;> simp [Dbl.lt, Dbl.neg]
      | num t n => cases s <;> simp [Dbl.lt, Dbl.neg]
    | num s m =>
      cases y with
      | nan => simp [Dbl.lt, Dbl.neg]
      | inf t => cases t <;> simp [Dbl.lt, Dbl.neg]
      | num t n =>
        show decide _ = decide _
        congr 1
        cases s <;> cases t <;> simp only [Dbl.val, Bool.not_false, Bool.not_true, if_true, if_false, Bool.false_eq_true, eq_iff_iff] <;>
          constructor <;> intro h <;> linarith

/-- A number of at most 53 bits up to the largest one is itself as a literal, with its sign; the largest one is finite, and every larger
number of at most 53 bits overflows. -/
theorem Dbl.lit_spec {q : ℚ} (hq : 0 < q) (hr : Rep q) :
    (q ≤ dblMax → (FNum.lit q : Dbl) = .num false q ∧ (FNum.lit (-q) : Dbl) = .num true q) ∧
    (dblMax < q → (FNum.lit q : Dbl) = .inf false ∧ (FNum.lit (-q) : Dbl) = .inf true) := by
  have h := rndMag_exact hq.le hr
  refine ⟨fun hm => ?_, fun hm => ?_⟩
  · constructor
    · show Dbl.lit q = _
      simp [Dbl.lit, Dbl.round, h, not_lt.2 hq.le, not_lt.2 hm]
    · show Dbl.lit (-q) = _
      simp [Dbl.lit, Dbl.round, h, hq, not_lt.2 hm]
  · constructor
    · show Dbl.lit q = _
      simp [Dbl.lit, Dbl.round, h, not_lt.2 hq.le, hm]
    · show Dbl.lit (-q) = _
      simp [Dbl.lit, Dbl.round, h, hq, hm]

/-- The largest number, and one step above it. -/
theorem Dbl.lit_max : Rep dblMax ∧ (FNum.maxNum : Dbl) = .num false dblMax ∧ (FNum.lit (2 ^ 1024) : Dbl) = .inf false := by
  refine ⟨⟨2 ^ 53 - 1, 971, by norm_num, by norm_num, by decide +kernel⟩, by decide +kernel, by decide +kernel⟩

/-- The doubles meet the hypotheses on `π` of `sortAngle_left`. -/
example : (FNum.neg (FAngle.pi : Dbl) ==. FNum.neg FAngle.pi) = true ∧ ((FAngle.pi : Dbl) ==. FNum.neg FAngle.pi) = false ∧
    FNum.neg (FNum.neg (FAngle.pi : Dbl)) = FAngle.pi := by decide +kernel

end River
