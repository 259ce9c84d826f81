import Verif.Model.Arc

/-! # IEEE 754 binary64

`typedef double num` (`/repo/src/include/rmath.h:18`) with the arithmetic of IEEE 754: 53 significant bits, rounding to nearest with
ties to even, gradual underflow, overflow to infinity, signed zeros, NaN. -/

namespace River

/-- A value of type `double` (`rmath.h:18`): sign and magnitude of a number, an infinity, or NaN. -/
inductive Dbl where
  | num (neg : Bool) (mag : ℚ)
  | inf (neg : Bool)
  | nan
deriving DecidableEq, Repr

/-- `2 ^ k` (`rmath.h:18`). -/
def pow2 : ℤ → ℚ
  | .ofNat n => ((2 ^ n : ℕ) : ℚ)
  | .negSucc n => mkRat 1 (2 ^ (n + 1))

/-- The natural number nearest to `q ≥ 0`, the even one of two equally near ones (`rmath.h:18`). -/
def nearestEven (q : ℚ) : ℕ :=
  let n := q.num.natAbs / q.den
  let r := q.num.natAbs % q.den
  if 2 * r < q.den then n else if q.den < 2 * r then n + 1 else if n % 2 = 0 then n else n + 1

/-- The exponent of the leading bit of `q > 0`, not below that of the smallest normal number (`rmath.h:18`). -/
def leadExp (q : ℚ) : ℤ :=
  let e : ℤ := (Nat.log2 q.num.natAbs : ℤ) - (Nat.log2 q.den : ℤ)
  max (if q < pow2 e then e - 1 else e) (-1022)

/-- A number `q ≥ 0` rounded to 53 significant bits (fewer below the normal numbers) (`rmath.h:18`). -/
def rndMag (q : ℚ) : ℚ := if q = 0 then 0 else
  let u := pow2 (leadExp q - 52)
  (nearestEven (q / u) : ℚ) * u

namespace Dbl

/-- A magnitude rounded, with overflow (`rmath.h:18`). -/
def round (neg : Bool) (mag : ℚ) : Dbl := let m := rndMag mag; if dblMax < m then .inf neg else .num neg m

/-- The number with the given sign and magnitude (`rmath.h:18`). -/
def val (neg : Bool) (mag : ℚ) : ℚ := if neg then -mag else mag

/-- A literal, or a decimal number read from a text (`rmath.h:18`). -/
def lit (q : ℚ) : Dbl := if q < 0 then round true (-q) else round false q

/-- `-x` (`rmath.h:18`). -/
def neg : Dbl → Dbl
  | num s m => num (!s) m
  | inf s => inf (!s)
  | nan => nan

/-- `x + y` (`rmath.h:18`). -/
def add : Dbl → Dbl → Dbl
  | num s m, num t n =>
    let v := val s m + val t n
    if v = 0 then num (s && t) 0 else if v < 0 then round true (-v) else round false v
  | nan, _ => nan
  | _, nan => nan
  | inf s, inf t => if s = t then inf s else nan
  | inf s, _ => inf s
  | _, inf t => inf t

/-- `x * y` (`rmath.h:18`). -/
def mul : Dbl → Dbl → Dbl
  | num s m, num t n => round (s != t) (m * n)
  | nan, _ => nan
  | _, nan => nan
  | inf s, inf t => inf (s != t)
  | inf s, num t n => if n = 0 then nan else inf (s != t)
  | num s m, inf t => if m = 0 then nan else inf (s != t)

/-- `x / y` (`rmath.h:18`). -/
def div : Dbl → Dbl → Dbl
  | num s m, num t n => if n = 0 then (if m = 0 then nan else inf (s != t)) else round (s != t) (m / n)
  | nan, _ => nan
  | _, nan => nan
  | inf _, inf _ => nan
  | inf s, num t _ => inf (s != t)
  | num s _, inf t => num (s != t) 0

/-- `x < y` (`rmath.h:18`). -/
def lt : Dbl → Dbl → Bool
  | num s m, num t n => decide (val s m < val t n)
  | nan, _ => false
  | _, nan => false
  | inf s, inf t => s && !t
  | inf s, num _ _ => s
  | num _ _, inf t => !t

/-- `x == y` (`rmath.h:18`). -/
def eq : Dbl → Dbl → Bool
  | num s m, num t n => decide (val s m = val t n)
  | inf s, inf t => s == t
  | _, _ => false

/-- `std::isfinite` (used in `rmath.cpp:108`). -/
def isFinite : Dbl → Bool
  | num _ _ => true
  | _ => false

/-- The double with the value of a given number (which must be representable) (`rmath.h:18`). -/
def of (q : ℚ) : Dbl := if q < 0 then num true (-q) else num false q

/-- The value of a finite double (`rmath.h:18`). -/
def toRat : Dbl → ℚ
  | num s m => val s m
  | _ => 0

end Dbl

/-- `double` in the code. Roots and trigonometric functions are given dummy values: do not use this instance for anything that calls
them (curves, construction of arcs, sorting by angle). -/
instance : FTrans Dbl where
  add := Dbl.add
  sub a b := Dbl.add a (Dbl.neg b)
  mul := Dbl.mul
  div := Dbl.div
  neg := Dbl.neg
  lt := Dbl.lt
  le a b := Dbl.lt a b || Dbl.eq a b
  eq := Dbl.eq
  lit := Dbl.lit
  isFinite := Dbl.isFinite
  maxNum := Dbl.num false dblMax
  sqrt := fun x => x
  cbrt := fun x => x
  powi := fun x _ => x
  cos := fun x => x
  sin := fun x => x
  atan := fun x => x

/-- `std::remainder` (exact: no rounding takes place; a zero result has the sign of the first argument), `std::signbit`, conversion to
`int` towards zero, `rmath::pi` (`rmath.h:11`). `atan2` is a dummy (`rmath.h:18`). -/
instance : FAngle Dbl where
  atan2 := fun x _ => x
  remainder
    | .num s m, .num _ n =>
      if n = 0 then .nan else
      let k := nearestEven (m / n)
      let r := m - n * k
      if r = 0 then .num s 0 else if r < 0 then .num (!s) (-r) else .num s r
    | .num s m, .inf _ => .num s m
    | _, _ => .nan
  signbit
    | .num s _ => s
    | .inf s => s
    | .nan => false
  toInt
    | .num s m => let n : ℤ := (m.num.natAbs / m.den : ℕ); if s then -n else n
    | _ => 0
  pi := Dbl.lit (3141592653589793 / 1000000000000000)

end River
