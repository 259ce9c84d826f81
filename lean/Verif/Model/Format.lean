import Verif.Model.DecLex
import Verif.Model.Double
import Verif.Model.Bezier

/-! # Numbers as text (`/repo/src/test/main.cpp`, directive `%f` of `boost::format`)

`%f` writes six decimals of the exact value of a double, rounded to nearest (ties to even), with a minus sign if the sign bit is set. -/

namespace River

/-- The last `k` decimal digits of `n`, with leading zeros (part of `%f`, `main.cpp:226`). -/
def padDigits : Nat → Nat → List Char
  | 0, _ => []
  | k + 1, n => padDigits k (n / 10) ++ [DecLex.dig (n % 10)]

/-- Six decimals of the magnitude `m` (`%f`, used in `main.cpp:226-227`). -/
def fmtMag (m : ℚ) : List Char :=
  let n := nearestEven (m * 1000000)
  DecLex.natDigits (n / 1000000) ++ '.' :: padDigits 6 n

/-- `%f` of a double (`main.cpp:226-227`). Simplification: the sign of a NaN is not shown. -/
def fmtF : Dbl → List Char
  | .num s m => (if s then ['-'] else []) ++ fmtMag m
  | .inf s => (if s then ['-'] else []) ++ "inf".toList
  | .nan => "nan".toList

/-- `%f %f` with the coordinates of a point (`main.cpp:228`). -/
def fmtPoint (p : Vec2 Dbl) : List Char := fmtF p.x ++ ' ' :: fmtF p.y

/-- ` c %f %f %f %f %f %f` with the points of a curve but its first (`main.cpp:226-232`). -/
def fmtCurve (b : Cubic Dbl) : List Char := " c ".toList ++ (fmtPoint b.p1 ++ ' ' :: (fmtPoint b.p2 ++ ' ' :: fmtPoint b.p3))

/-- The text the test program makes of a sequence of curves (`main.cpp:225-234`, where there are four of them); `none`: `b[0]` of an empty array. -/
def curvesText : List (Cubic Dbl) → Option (List Char)
  | [] => none
  | b :: bs => some ("m ".toList ++ (fmtPoint b.p0 ++ (b :: bs).flatMap fmtCurve))

end River
