import Verif.Model.Vec2

/-! # Angles, rotations and arcs (`rmath.h`, `rmath.cpp`) -/

namespace River

/-- Further functions of `<cmath>` used for angles, without laws: `atan2(y, x)`, IEEE `remainder(x, y)`, `signbit`, the
conversion of a `double` to `int`, and the constant `rmath::pi` (`rmath.h:11`). -/
class FAngle (K : Type) extends FTrans K where
  atan2 : K → K → K
  remainder : K → K → K
  signbit : K → Bool
  toInt : K → Int
  pi : K

section
variable {K : Type} [FAngle K]

/-- `num dist()` (`rmath.h:43`). -/
def Vec2.dist (a : Vec2 K) : K := FTrans.sqrt a.dist2

/-- `vec2 rotated(num rad)` (`rmath.h:46-48`). -/
def Vec2.rotated (a : Vec2 K) (rad : K) : Vec2 K :=
  let c := FTrans.cos rad
  let s := FTrans.sin rad
  ⟨c *. a.x -. s *. a.y, s *. a.x +. c *. a.y⟩

/-- `vec2 normalization()` (`rmath.h:52`). -/
def Vec2.normalization (a : Vec2 K) : Vec2 K := a.sdiv a.dist

/-- `double clamp_0_2pi(double rad)` (`rmath.cpp:10-13`). -/
def clamp2pi (rad : K) : K :=
  let r := FAngle.remainder rad (FAngle.pi *. FNum.lit 2)
  if FAngle.signbit r then r +. FAngle.pi *. FNum.lit 2 else r

/-- `struct arc` (`rmath.h:121-142`). -/
@[ext] structure Arc (K : Type) where
  p0 : Vec2 K
  p1 : Vec2 K
  center : Vec2 K
  sweep : K
  startRad : K
  endRad : K
  radius : K

/-- `arc::arc` (`rmath.cpp:249-263`). -/
def Arc.make (start center : Vec2 K) (sweep : K) : Arc K :=
  let tmp := start.sub center
  let radius := tmp.dist
  let startRad := clamp2pi (FAngle.atan2 tmp.y tmp.x)
  let e := startRad +. sweep
  let p1 : Vec2 K := ⟨FTrans.cos e, FTrans.sin e⟩
  let p1 := center.add (p1.smul radius)
  { p0 := start, p1 := p1, center := center, sweep := sweep, startRad := startRad,
    endRad := clamp2pi (FAngle.atan2 p1.y p1.x), radius := radius }

/-- `arc::reverse` (`rmath.cpp:293-299`). -/
def Arc.reverse (a : Arc K) : Arc K :=
  { a with p0 := a.p1, p1 := a.p0, startRad := a.endRad, endRad := a.startRad }

/-- The two angles `arc_split_y` works with (`rmath.cpp:307-315`): lower and upper end angle, a quarter turn less. -/
def Arc.phases (a : Arc K) : K × K :=
  let s := a.startRad
  let e := s +. a.sweep
  let (s, e) := if e <. s then (e, s) else (s, e)
  (s -. FAngle.pi /. FNum.lit 2, e -. FAngle.pi /. FNum.lit 2)

/-- `split_y_num()`: the count `arc_split_y::arc_split_y` computes (`rmath.cpp:301-337`, `377-380`). The vector of arcs the
constructor goes on to build is a local variable that is discarded (`rmath.cpp:342-374`), so it is not modelled. -/
def Arc.splitNum (a : Arc K) : Int :=
  let (s, e) := a.phases
  let sq := FAngle.toInt (s /. FAngle.pi)
  let eq := FAngle.toInt (e /. FAngle.pi)
  let er := FAngle.remainder e FAngle.pi
  let n : Int :=
    if sq == eq then 0
    else if (sq + 1 == eq) && ((e -. s) ==. FAngle.pi) then 0
    else eq - sq + (if FNum.lit 0 <. er then 1 else 0)
  n + 1

/-- `arc_split_y::split_y(arc* out)` (`rmath.cpp:382-391`): the body is empty, the caller's memory stays as it was. -/
def Arc.splitY (_a : Arc K) (out : List (Arc K)) : List (Arc K) := out

end

/-- Rounding to the nearest integer, ties to even, as IEEE `remainder` does (used by `remainder`, `rmath.cpp:11, 317, 320`). -/
noncomputable def roundEven (q : ℝ) : ℤ :=
  let n := ⌊q⌋
  if q - n < 1 / 2 then n else if 1 / 2 < q - n then n + 1 else if Even n then n else n + 1

/-- Angles in exact real arithmetic: the constant is the true `π`, zero has no sign, conversion to `int` truncates and
does not overflow (`rmath.h:18`). -/
noncomputable instance : FAngle ℝ where
  atan2 y x := Complex.arg ⟨x, y⟩
  remainder x y := x - y * roundEven (x / y)
  signbit x := decide (x < 0)
  toInt x := if 0 ≤ x then ⌊x⌋ else ⌈x⌉
  pi := Real.pi

end River
