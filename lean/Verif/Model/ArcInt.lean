import Verif.Model.Arc

/-!
# The number of pieces of an arc, in the `int`s of the program (`rmath.cpp:301-337`, `rmath.h:158-159`)

`Arc.splitNum` counts with unbounded integers. Here the conversions of the quotients to `int` and the sums of `int`s are undefined (`none`) when the
result does not fit, as in C++.
-/

namespace River
variable {K : Type} [FAngle K]

/-- The values of a 32-bit `int` (`rmath.h:158`: `int s_quot, e_quot`). -/
def fitsInt (n : Int) : Bool := decide (-2147483648 ≤ n) && decide (n ≤ 2147483647)

/-- `arc_split_y::arc_split_y` up to `split_num++` (`rmath.cpp:307-337`): the number of pieces, or `none` for undefined behaviour. The last addition is one of
`size_t` (`rmath.h:159`). -/
def Arc.splitInt (a : Arc K) : Option Int :=
  let (s, e) := a.phases
  let sq := FAngle.toInt (s /. FAngle.pi)
  let eq := FAngle.toInt (e /. FAngle.pi)
  let er := FAngle.remainder e FAngle.pi
  if !(fitsInt sq && fitsInt eq) then none
  else if sq == eq then some 1
  else if !fitsInt (sq + 1) then none
  else if (sq + 1 == eq) && ((e -. s) ==. FAngle.pi) then some 1
  else if !fitsInt (eq - sq) then none
  else
    let n := eq - sq + (if FNum.lit 0 <. er then 1 else 0)
    if !fitsInt n then none else some (n + 1)

end River
