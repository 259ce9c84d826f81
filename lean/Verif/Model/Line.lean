import Verif.Model.Rect

/-! # Lines: `rmath.cpp:56-171`, `rmath.cpp:221-247` -/

namespace River
variable {K : Type} [FNum K]

/-- `double dist2_point_line(p, l0, l1)` (`rmath.cpp:56-74`). -/
def dist2PointLine (p l0 l1 : Vec2 K) : K :=
  let AC := p.sub l0
  let AB := l1.sub l0
  let d := AB.dist2
  let f := AB.dot AC
  if f <. FNum.lit 0 then AC.dist2
  else if d <. f then (p.sub l1).dist2
  else
    let f := f /. d
    let D := l0.add (AB.smul f)
    (p.sub D).dist2

/-- `bool point_project_in_segment(p, p0, p1)` (`rmath.cpp:77-88`). -/
def pointProjectInSegment (p p0 p1 : Vec2 K) : Bool :=
  if p1.beq p0 then p.beq p0
  else
    let v := p1.sub p0
    let u := p.sub p0
    let sc := v.dot u /. v.dot v
    sc ≤. FNum.lit 1

/-- `bool point_between_two_point(p, p0, p1)` (`rmath.cpp:90-96`). -/
def pointBetween (p p0 p1 : Vec2 K) : Bool :=
  let r := Rect.of [p0, p1]
  if p0.x ==. p1.x then (r.min.y ≤. p.y) && (p.y ≤. r.max.y)
  else (r.min.x ≤. p.x) && (p.x ≤. r.max.x)

/-- `void line::general_from(A, B, C)` (`rmath.cpp:221-247`). -/
def generalFrom (p0 p1 : Vec2 K) : K × K × K :=
  if p0.beq p1 then (FNum.lit 0, FNum.lit 1, FNum.neg p0.y)
  else if p0.x ==. p1.x then (FNum.lit 1, FNum.lit 0, FNum.neg p0.x)
  else if p0.y ==. p1.y then (FNum.lit 0, FNum.lit 1, FNum.neg p0.y)
  else (p1.y -. p0.y, p0.x -. p1.x, p1.x *. p0.y -. p0.x *. p1.y)

/-- `struct intersect_info` (`rmath.h:195-200`). -/
structure Info (K : Type) where
  p : Vec2 K
  t0 : K
  t1 : K
deriving DecidableEq, Repr

/-- Write `res.data[res.count]` and increment `count`; `none` (undefined behaviour) if the array of size `n`
(`rmath.h:203`, `rmath.h:211`) is already full. -/
def pushInfo (n : Nat) (res : Option (List (Info K))) (i : Info K) : Option (List (Info K)) :=
  match res with
  | none => none
  | some l => if l.length < n then some (l ++ [i]) else none

/-- The parameter of `q` on the segment starting at `s` with direction `d`: `d.y == 0 ? (q - s).x / d.x :
(q - s).y / d.y` (`rmath.cpp:138-139`, `147-148`, `210-211`). -/
def paramOn (q s d : Vec2 K) : K :=
  if d.y ==. FNum.lit 0 then (q.sub s).x /. d.x else (q.sub s).y /. d.y

/-- The same against `b = p2 - p3`: `b.y == 0 ? (q - p2).x / -b.x : (q - p2).y / -b.y` (`rmath.cpp:119-120`,
`128-129`). -/
def paramOnNeg (q s b : Vec2 K) : K :=
  if b.y ==. FNum.lit 0 then (q.sub s).x /. FNum.neg b.x else (q.sub s).y /. FNum.neg b.y

/-- `line_intersect_result intersect(p0, p1, p2, p3)` (`rmath.cpp:98-171`): the entries written to `res.data` in
order; `none` = a write past the two-element array. -/
def lineIntersect (p0 p1 p2 p3 : Vec2 K) : Option (List (Info K)) :=
  let a := p1.sub p0
  let b := p2.sub p3
  let c := p0.sub p2
  let denominator := a.y *. b.x -. a.x *. b.y
  if (denominator ==. FNum.lit 0) || !(FNum.isFinite denominator) then
    if dist2PointLine p0 p2 p3 ==. FNum.lit 0 then
      let res := some []
      let res := if p0.bne p2 && p0.bne p3 && pointBetween p0 p2 p3
        then pushInfo 2 res ⟨p0, FNum.lit 0, paramOnNeg p0 p2 b⟩ else res
      let res := if p1.bne p2 && p1.bne p3 && pointBetween p1 p2 p3
        then pushInfo 2 res ⟨p1, FNum.lit 1, paramOnNeg p1 p2 b⟩ else res
      let res := if p2.bne p0 && p2.bne p1 && pointBetween p2 p0 p1
        then pushInfo 2 res ⟨p2, paramOn p2 p0 a, FNum.lit 0⟩ else res
      let res := if p3.bne p0 && p3.bne p1 && pointBetween p3 p0 p1
        then pushInfo 2 res ⟨p3, paramOn p3 p0 a, FNum.lit 1⟩ else res
      res
    else some []
  else
    let reciprocal := FNum.lit 1 /. denominator
    let na := (b.y *. c.x -. b.x *. c.y) *. reciprocal
    let nb := (a.x *. c.y -. a.y *. c.x) *. reciprocal
    let inL := (FNum.lit 0 ≤. na) && (na ≤. FNum.lit 1)
    let inR := (FNum.lit 0 ≤. nb) && (nb ≤. FNum.lit 1)
    if inL && inR then some [⟨p0.add (a.smul na), na, nb⟩] else some []

end River
