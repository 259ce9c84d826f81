import Mathlib.Analysis.SpecialFunctions.Trigonometric.Arctan
import Mathlib.Analysis.SpecialFunctions.Complex.Arg
import Mathlib.Analysis.SpecialFunctions.Pow.Real
import Mathlib.Analysis.SpecialFunctions.Sqrt
import Mathlib.Algebra.Order.Field.Basic
import Mathlib.Algebra.Order.Field.Rat
import Mathlib.Tactic.Linarith
import Mathlib.Tactic.Ring
import Mathlib.Tactic.FieldSimp
import Mathlib.Tactic.NormNum

/-!
# Number model

The C++ code computes with `double` (`/repo/src/include/rmath.h:18` `typedef double num`).  The model is
generic in the number type.  `FNum` lists the operations the code uses and assumes **no law** about them, so a
theorem proved for every `[FNum K]` holds for IEEE doubles with rounding, overflow and NaN.
-/

namespace River

/-- The operations on `double` used by the code, without laws.  `lt`/`le`/`eq` are the C++ operators `<`, `<=`,
`==` (Bool valued, so NaN comparisons are expressible), `lit` embeds decimal literals, `maxNum` is
`std::numeric_limits<double>::max()`. -/
class FNum (K : Type) where
  add : K → K → K
  sub : K → K → K
  mul : K → K → K
  div : K → K → K
  neg : K → K
  lt : K → K → Bool
  le : K → K → Bool
  eq : K → K → Bool
  lit : Rat → K
  isFinite : K → Bool
  maxNum : K

/-- The transcendental functions of `<cmath>` used by the code, without laws. -/
class FTrans (K : Type) extends FNum K where
  sqrt : K → K
  cbrt : K → K
  powi : K → Nat → K
  cos : K → K
  sin : K → K
  atan : K → K

scoped infixl:65 " +. " => FNum.add
scoped infixl:65 " -. " => FNum.sub
scoped infixl:70 " *. " => FNum.mul
scoped infixl:70 " /. " => FNum.div
scoped infix:50 " <. " => FNum.lt
scoped infix:50 " ≤. " => FNum.le
scoped infix:50 " ==. " => FNum.eq

section
variable {K : Type} [FNum K]

/-- `std::min(a, b)`: returns `b` if `b < a`, else `a` (C++ standard, [alg.min.max]). -/
def fmin (a b : K) : K := if b <. a then b else a
/-- `std::max(a, b)`: returns `b` if `a < b`, else `a`. -/
def fmax (a b : K) : K := if a <. b then b else a
/-- `std::abs` on doubles (sign of zero ignored). -/
def fabs (a : K) : K := if a <. FNum.lit 0 then FNum.neg a else a

end

/-- Comparisons agree with a linear order (doubles without NaN, `-0` and `+0` identified). Arithmetic stays
arbitrary. -/
class LawfulOrd (K : Type) [FNum K] [LinearOrder K] : Prop where
  lt_iff : ∀ a b : K, (a <. b) = true ↔ a < b
  le_iff : ∀ a b : K, (a ≤. b) = true ↔ a ≤ b
  eq_iff : ∀ a b : K, (a ==. b) = true ↔ a = b

attribute [simp] LawfulOrd.lt_iff LawfulOrd.le_iff LawfulOrd.eq_iff

section
variable {K : Type} [FNum K] [LinearOrder K] [LawfulOrd K]

theorem lt_eq_decide (a b : K) : (a <. b) = decide (a < b) := by
  rw [Bool.eq_iff_iff]; simp
theorem le_eq_decide (a b : K) : (a ≤. b) = decide (a ≤ b) := by
  rw [Bool.eq_iff_iff]; simp
theorem eq_eq_decide (a b : K) : (a ==. b) = decide (a = b) := by
  rw [Bool.eq_iff_iff]; simp

theorem fmin_eq_min (a b : K) : fmin a b = min a b := by
  unfold fmin; simp only [lt_eq_decide, decide_eq_true_eq]
  split
  · rw [min_eq_right (le_of_lt ‹_›)]
  · rw [min_eq_left (not_lt.mp ‹_›)]
theorem fmax_eq_max (a b : K) : fmax a b = max a b := by
  unfold fmax; simp only [lt_eq_decide, decide_eq_true_eq]
  split
  · rw [max_eq_right (le_of_lt ‹_›)]
  · rw [max_eq_left (not_lt.mp ‹_›)]
end

/-! ## Exact arithmetic on an ordered field (no special values) -/

/-- The value of `DBL_MAX`. -/
def dblMax : Rat := 2 ^ 1024 - 2 ^ 971

section
variable {R : Type} [Field R] [LinearOrder R]

/-- Exact arithmetic on an ordered field.  Division by zero gives `0` here, so this instance is only used where no
division by zero happens; `Ext R` below has IEEE special values. -/
instance instFNumField : FNum R where
  add := (· + ·)
  sub := (· - ·)
  mul := (· * ·)
  div := (· / ·)
  neg := (- ·)
  lt a b := decide (a < b)
  le a b := decide (a ≤ b)
  eq a b := decide (a = b)
  lit q := (q : R)
  isFinite _ := true
  maxNum := (dblMax : R)

@[simp] theorem field_add (a b : R) : a +. b = a + b := rfl
@[simp] theorem field_sub (a b : R) : a -. b = a - b := rfl
@[simp] theorem field_mul (a b : R) : a *. b = a * b := rfl
@[simp] theorem field_div (a b : R) : a /. b = a / b := rfl
@[simp] theorem field_neg (a : R) : FNum.neg a = -a := rfl
@[simp] theorem field_lt (a b : R) : (a <. b) = decide (a < b) := rfl
@[simp] theorem field_le (a b : R) : (a ≤. b) = decide (a ≤ b) := rfl
@[simp] theorem field_eq (a b : R) : (a ==. b) = decide (a = b) := rfl
@[simp] theorem field_lit (q : Rat) : (FNum.lit q : R) = (q : R) := rfl
@[simp] theorem field_isFinite (a : R) : FNum.isFinite a = true := rfl

instance : LawfulOrd R where
  lt_iff a b := by simp
  le_iff a b := by simp
  eq_iff a b := by simp
end

/-! ## Exact arithmetic with IEEE special values -/

/-- Real (or rational) numbers with the IEEE special values, without rounding and with an unsigned zero. -/
inductive Ext (R : Type) where
  | fin (r : R)
  | pinf
  | ninf
  | nan
deriving DecidableEq, Repr

namespace Ext
variable {R : Type} [Field R] [LinearOrder R]

/-- IEEE 754 addition without rounding. -/
def add : Ext R → Ext R → Ext R
  | fin a, fin b => fin (a + b)
  | nan, _ => nan
  | _, nan => nan
  | pinf, ninf => nan
  | ninf, pinf => nan
  | pinf, _ => pinf
  | _, pinf => pinf
  | ninf, _ => ninf
  | _, ninf => ninf

/-- IEEE 754 sign change. -/
def neg : Ext R → Ext R
  | fin a => fin (-a)
  | pinf => ninf
  | ninf => pinf
  | nan => nan

/-- Infinity of the sign of `s` (`nan` for zero). -/
def infSign (s : R) : Ext R := if 0 < s then pinf else if s < 0 then ninf else nan

/-- IEEE 754 multiplication without rounding. -/
def mul : Ext R → Ext R → Ext R
  | fin a, fin b => fin (a * b)
  | nan, _ => nan
  | _, nan => nan
  | pinf, pinf => pinf
  | pinf, ninf => ninf
  | ninf, pinf => ninf
  | ninf, ninf => pinf
  | pinf, fin b => infSign b
  | ninf, fin b => infSign (-b)
  | fin a, pinf => infSign a
  | fin a, ninf => infSign (-a)

/-- IEEE 754 division without rounding; a zero divisor counts as `+0`. -/
def div : Ext R → Ext R → Ext R
  | fin a, fin b => if b = 0 then infSign a else fin (a / b)
  | nan, _ => nan
  | _, nan => nan
  | fin _, pinf => fin 0
  | fin _, ninf => fin 0
  | pinf, fin b => if b < 0 then ninf else pinf
  | ninf, fin b => if b < 0 then pinf else ninf
  | pinf, _ => nan
  | ninf, _ => nan

/-- IEEE 754 `<`. -/
def lt : Ext R → Ext R → Bool
  | fin a, fin b => decide (a < b)
  | nan, _ => false
  | _, nan => false
  | ninf, ninf => false
  | ninf, _ => true
  | _, pinf => true
  | _, _ => false

/-- IEEE 754 `==`. -/
def eq : Ext R → Ext R → Bool
  | fin a, fin b => decide (a = b)
  | pinf, pinf => true
  | ninf, ninf => true
  | _, _ => false

instance : FNum (Ext R) where
  add := add
  sub a b := add a (neg b)
  mul := mul
  div := div
  neg := neg
  lt := lt
  le a b := lt a b || eq a b
  eq := eq
  lit q := fin (q : R)
  isFinite a := match a with | fin _ => true | _ => false
  maxNum := fin (dblMax : R)

@[simp] theorem fin_add (a b : R) : (fin a +. fin b) = fin (a + b) := rfl
@[simp] theorem fin_sub (a b : R) : (fin a -. fin b) = fin (a - b) := by
  show add (fin a) (neg (fin b)) = _; simp [add, neg, sub_eq_add_neg]
@[simp] theorem fin_mul (a b : R) : (fin a *. fin b) = fin (a * b) := rfl
theorem fin_div (a b : R) (h : b ≠ 0) : (fin a /. fin b) = fin (a / b) := by
  show div (fin a) (fin b) = _; simp [div, h]
theorem fin_div_zero (a : R) : (fin a /. fin 0) = infSign a := by
  show div (fin a) (fin 0) = _; simp [div]
@[simp] theorem fin_neg (a : R) : FNum.neg (fin a) = fin (-a) := rfl
@[simp] theorem fin_lt (a b : R) : (fin a <. fin b) = decide (a < b) := rfl
@[simp] theorem fin_le (a b : R) : (fin a ≤. fin b) = decide (a ≤ b) := by
  show (decide (a < b) || decide (a = b)) = _
  rw [Bool.eq_iff_iff]; simp [le_iff_lt_or_eq]
@[simp] theorem fin_eq (a b : R) : (fin a ==. fin b) = decide (a = b) := rfl
@[simp] theorem lit_eq (q : Rat) : (FNum.lit q : Ext R) = fin (q : R) := rfl
@[simp] theorem isFinite_fin (a : R) : FNum.isFinite (fin a) = true := rfl
@[simp] theorem nan_lt (a : Ext R) : (nan <. a) = false := by cases a <;> rfl
@[simp] theorem lt_nan (a : Ext R) : (a <. nan) = false := by cases a <;> rfl
@[simp] theorem nan_eq (a : Ext R) : (nan ==. a) = false := by cases a <;> rfl
@[simp] theorem eq_nan (a : Ext R) : (a ==. nan) = false := by cases a <;> rfl
@[simp] theorem nan_le (a : Ext R) : (nan ≤. a) = false := by cases a <;> rfl
@[simp] theorem le_nan (a : Ext R) : (a ≤. nan) = false := by cases a <;> rfl
theorem maxNum_eq : (FNum.maxNum : Ext R) = fin (dblMax : R) := rfl

end Ext

/-- Real cube root, `std::cbrt`. -/
noncomputable def rcbrt (x : ℝ) : ℝ := if 0 ≤ x then x ^ ((1 : ℝ) / 3) else -((-x) ^ ((1 : ℝ) / 3))

/-- `<cmath>` on exact reals. -/
noncomputable instance : FTrans ℝ where
  sqrt := Real.sqrt
  cbrt := rcbrt
  powi x n := x ^ n
  cos := Real.cos
  sin := Real.sin
  atan := Real.arctan

/-- `<cmath>` on exact reals with special values. -/
noncomputable instance : FTrans (Ext ℝ) where
  sqrt
    | .fin a => if a < 0 then .nan else .fin (Real.sqrt a)
    | .pinf => .pinf
    | _ => .nan
  cbrt
    | .fin a => .fin (rcbrt a)
    | e => e
  powi
    | .fin a, n => .fin (a ^ n)
    | _, _ => .nan
  cos
    | .fin a => .fin (Real.cos a)
    | _ => .nan
  sin
    | .fin a => .fin (Real.sin a)
    | _ => .nan
  atan
    | .fin a => .fin (Real.arctan a)
    | .pinf => .fin (Real.pi / 2)
    | .ninf => .fin (-(Real.pi / 2))
    | .nan => .nan

end River
