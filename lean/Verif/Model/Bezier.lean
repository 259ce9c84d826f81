import Verif.Model.Solver
import Verif.Model.Line

/-! # `rmath::bezier_cubic` (`/repo/src/include/rmath.h:163-178`, `/repo/src/src/rmath.cpp`) -/

namespace River
variable {K : Type}

/-- `struct bezier_cubic { vec2 p0, p1, p2, p3; }` (`rmath.h:163-165`). -/
@[ext] structure Cubic (K : Type) where
  p0 : Vec2 K
  p1 : Vec2 K
  p2 : Vec2 K
  p3 : Vec2 K
deriving DecidableEq, Repr

namespace Cubic

/-- `vec2 bezier_cubic::point_at(double t) const` (`rmath.cpp:451-460`). -/
def pointAt [FNum K] (c : Cubic K) (t : K) : Vec2 K :=
  let t2 := t *. t
  let t3 := t2 *. t
  let k := FNum.lit 1 -. t
  let k2 := k *. k
  let k3 := k2 *. k
  (((c.p0.smul k3).add (((c.p1.smul (FNum.lit 3)).smul k2).smul t)).add
    (((c.p2.smul (FNum.lit 3)).smul k).smul t2)).add (c.p3.smul t3)

/-- `void split(double t, bezier_cubic* out1, bezier_cubic* out2) const` (`rmath.cpp:607-620`). -/
def split [FNum K] (c : Cubic K) (t : K) : Cubic K × Cubic K :=
  let t1 := FNum.lit 1 -. t
  let p01 := (c.p1.smul t).add (c.p0.smul t1)
  let p12 := (c.p2.smul t).add (c.p1.smul t1)
  let p23 := (c.p3.smul t).add (c.p2.smul t1)
  let p0112 := (p12.smul t).add (p01.smul t1)
  let p1223 := (p23.smul t).add (p12.smul t1)
  let m := (p1223.smul t).add (p0112.smul t1)
  (⟨c.p0, p01, p0112, m⟩, ⟨m, p1223, p23, c.p3⟩)

/-- The loop of `void split(const double* t, bezier_cubic* out, size_t size) const` (`rmath.cpp:599-604`): `cur` and
`last_t` are the loop variables, the result is the part of `out` written from the current position on. -/
def splitLoop [FNum K] (cur : Cubic K) (lastT : K) : List K → List (Cubic K)
  | [] => [cur]
  | t :: ts =>
    let curT := (t -. (FNum.lit 1 -. lastT)) /. lastT
    let o := cur.split curT
    o.1 :: splitLoop o.2 (FNum.lit 1 -. t) ts

/-- `void split(const double* t, bezier_cubic* out, size_t size) const` (`rmath.cpp:595-605`): the contents of
`out[0..size]`; for `size = 0` nothing is written (the callers do not read `out` then). -/
def splitMany [FNum K] (c : Cubic K) (ts : List K) : List (Cubic K) :=
  match ts with
  | [] => []
  | ts => splitLoop c (FNum.lit 1) ts

/-- Coefficient vector `A = p3*3 - p2*9 + p1*9 - p0*3` of the derivative (`rmath.cpp:404`, `477`). -/
def derA [FNum K] (c : Cubic K) : Vec2 K :=
  (((c.p3.smul (FNum.lit 3)).sub (c.p2.smul (FNum.lit 9))).add (c.p1.smul (FNum.lit 9))).sub (c.p0.smul (FNum.lit 3))
/-- Coefficient vector `B = p0*6 - p1*12 + p2*6` (`rmath.cpp:405`, `478`). -/
def derB [FNum K] (c : Cubic K) : Vec2 K :=
  ((c.p0.smul (FNum.lit 6)).sub (c.p1.smul (FNum.lit 12))).add (c.p2.smul (FNum.lit 6))
/-- Coefficient vector `C = (p1 - p0)*3` (`rmath.cpp:406`, `479`). -/
def derC [FNum K] (c : Cubic K) : Vec2 K := (c.p1.sub c.p0).smul (FNum.lit 3)

/-- `int split_y(double* t1, double* t2) const` (`rmath.cpp:395-449`): the values written to `t1`, `t2`. -/
def splitY [FTrans K] (c : Cubic K) : List K :=
  let a := c.derA.y
  let b := c.derB.y
  let cc := c.derC.y
  let k := b *. b -. FNum.lit 4 *. a *. cc
  if isZero a then
    if isZero b then []
    else
      let t := FNum.neg cc /. b
      if (FNum.lit 0 <. t) && (t <. FNum.lit 1) then [t] else []
  else if FNum.lit 0 <. k then
    let k := FTrans.sqrt k
    let r1 := (FNum.neg b +. k) /. (FNum.lit 2 *. a)
    let r2 := (FNum.neg b -. k) /. (FNum.lit 2 *. a)
    (if (FNum.lit 0 <. r1) && (r1 <. FNum.lit 1) then [r1] else []) ++
      (if (FNum.lit 0 <. r2) && (r2 <. FNum.lit 1) then [r2] else [])
  else []

/-- The two candidate values of one coordinate in `get_boundary` (`rmath.cpp:481-533` for `x`, `535-587` for `y`; the
two passages are the same code for the other coordinate). -/
def candidates [FTrans K] (c : Cubic K) (sel : Vec2 K → K) : K × K :=
  let a := sel c.derA
  let b := sel c.derB
  let cc := sel c.derC
  let k := b *. b -. FNum.lit 4 *. a *. cc
  if isZero a then
    if isZero b then (sel c.p0, sel c.p3)
    else
      let t1 := FNum.neg cc /. b
      if (FNum.lit 0 <. t1) && (t1 <. FNum.lit 1) then (sel (c.pointAt t1), sel (c.pointAt t1))
      else (sel c.p0, sel c.p3)
  else if k <. FNum.lit 0 then (sel c.p0, sel c.p3)
  else
    let k := FTrans.sqrt k
    let t1 := (FNum.neg b +. k) /. (FNum.lit 2 *. a)
    let t2 := (FNum.neg b -. k) /. (FNum.lit 2 *. a)
    (if (FNum.lit 0 <. t1) && (t1 <. FNum.lit 1) then sel (c.pointAt t1) else sel c.p0,
     if (FNum.lit 0 <. t2) && (t2 <. FNum.lit 1) then sel (c.pointAt t2) else sel c.p3)

/-- `rect bezier_cubic::get_boundary() const` (`rmath.cpp:462-593`). -/
def getBoundary [FTrans K] (c : Cubic K) : Rect K :=
  let x := c.candidates Vec2.x
  let y := c.candidates Vec2.y
  Rect.of [c.p0, c.p3, ⟨fmin x.1 x.2, fmin y.1 y.2⟩, ⟨fmax x.1 x.2, fmax y.1 y.2⟩]

/-- Coefficient vector `t3 = p3 - 3*p2 + 3*p1 - p0` (`rmath.cpp:31`, `187`). -/
def polT3 [FNum K] (c : Cubic K) : Vec2 K :=
  ((c.p3.sub (c.p2.smul (FNum.lit 3))).add (c.p1.smul (FNum.lit 3))).sub c.p0
/-- Coefficient vector `t2 = 3*p2 - 6*p1 + 3*p0` (`rmath.cpp:32`, `188`). -/
def polT2 [FNum K] (c : Cubic K) : Vec2 K :=
  ((c.p2.smul (FNum.lit 3)).sub (c.p1.smul (FNum.lit 6))).add (c.p0.smul (FNum.lit 3))
/-- Coefficient vector `t1 = 3*p1 - 3*p0` (`rmath.cpp:33`, `189`). -/
def polT1 [FNum K] (c : Cubic K) : Vec2 K := (c.p1.smul (FNum.lit 3)).sub (c.p0.smul (FNum.lit 3))

/-- `point_at_y_result bezier_cubic::point_at_y(double y) const` (`rmath.cpp:21-53`). At most three entries are written
because the solver returns at most three. -/
def pointAtY [FTrans K] (c : Cubic K) (y : K) : List K :=
  (resolvCubic c.polT3.y c.polT2.y c.polT1.y (c.p0.y +. FNum.neg y)).filter
    (fun t => (FNum.lit 0 ≤. t) && (t ≤. FNum.lit 1))

/-- The cubics `read_cubicto` stores for one `cubic_to` that is not horizontal (`/repo/src/src/vatti.cpp:254-301`): the
parameters of `split_y`, rechecked against `zero = 1e-6`, `one = 1 - 1e-6` (`vatti.cpp:50-52`), cut the curve; without
any, the curve is stored as it is. -/
def readPieces [FTrans K] (c : Cubic K) : List (Cubic K) :=
  let err : K := FNum.lit (1 / 1000000)
  let zero := FNum.lit 0 +. err
  let one := FNum.lit 1 -. err
  let recheck := c.splitY.filter (fun t => (zero <. t) && (t <. one))
  match recheck with
  | [] => [c]
  | ts => c.splitMany ts

/-- `static void circle(const vec2& center, double r, bezier_cubic* out)` (`rmath.cpp:622-645`). -/
def circle [FNum K] (center : Vec2 K) (r : K) : List (Cubic K) :=
  let d := r *. FNum.lit (55228475 / 100000000)
  let z : K := FNum.lit 0
  let e := center.add ⟨r, z⟩
  let n := center.add ⟨z, r⟩
  let w := center.sub ⟨r, z⟩
  let s := center.sub ⟨z, r⟩
  [⟨e, e.add ⟨z, d⟩, n.add ⟨d, z⟩, n⟩,
   ⟨n, n.sub ⟨d, z⟩, w.add ⟨z, d⟩, w⟩,
   ⟨w, w.sub ⟨z, d⟩, s.sub ⟨d, z⟩, s⟩,
   ⟨s, s.add ⟨d, z⟩, e.sub ⟨z, d⟩, e⟩]

end Cubic

/-- `line_cubic_intersect_result intersect(const line& segment, const bezier_cubic& curve)` (`rmath.cpp:173-219`); `none`
= a write past the three-element array. -/
def lineCubicIntersect [FTrans K] (s0 s1 : Vec2 K) (curve : Cubic K) : Option (List (Info K)) :=
  let (A, B, C) := generalFrom s0 s1
  let a3 := A *. curve.polT3.x +. B *. curve.polT3.y
  let a2 := A *. curve.polT2.x +. B *. curve.polT2.y
  let a1 := A *. curve.polT1.x +. B *. curve.polT1.y
  let a0 := A *. curve.p0.x +. B *. curve.p0.y +. C
  let l := s1.sub s0
  (resolvCubic a3 a2 a1 a0).foldl (fun res t =>
    if (FNum.lit 0 ≤. t) && (t ≤. FNum.lit 1) then
      let p := curve.pointAt t
      if pointBetween p s0 s1 then pushInfo 3 res ⟨p, paramOn p s0 l, t⟩ else res
    else res) (some [])

end River
