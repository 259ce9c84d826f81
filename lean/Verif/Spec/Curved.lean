import Verif.Spec.Polygons
import Verif.Spec.Bezier
import Verif.Model.Break

/-! # Specification: contours with straight and curved sides that do not cross -/

namespace River
variable {K : Type}

attribute [local instance 10000] FTrans.toFNum

/-- A contour: the point where it begins, and its sides one after the other. -/
structure Loop (K : Type) where
  start : Vec2 K
  segs : List (Seg K)

/-- The command that draws a side. -/
def drawCmd : Seg K → Cmd K
  | .line q => .lineto q
  | .cubic c1 c2 q => .cubicto c1 c2 q

/-- The commands that draw the contour. -/
def Loop.cmds (l : Loop K) : List (Cmd K) := .moveto l.start :: l.segs.map drawCmd

/-- Sides drawn one after the other, each with the point where it begins. -/
def chain (p : Vec2 K) : List (Seg K) → List (Vec2 K × Seg K)
  | [] => []
  | s :: l => (p, s) :: chain s.target l

/-- The sides of the contour. -/
def Loop.sides (l : Loop K) : List (Vec2 K × Seg K) := chain l.start l.segs

/-- The contour ends where it begins. -/
def Loop.Closed (l : Loop K) : Prop := ∃ s, l.segs.getLast? = some s ∧ s.target = l.start

/-- The points that define a side. -/
def sidePoints (s : Vec2 K × Seg K) : List (Vec2 K) :=
  match s.2 with
  | .line q => [s.1, q]
  | .cubic c1 c2 q => [s.1, c1, c2, q]

/-- The points that define the one side are all to the left of those that define the other one, or all to the right, above or below
them. -/
def Far [LT K] (s t : Vec2 K × Seg K) : Prop :=
  (∀ p ∈ sidePoints s, ∀ q ∈ sidePoints t, p.x < q.x) ∨ (∀ p ∈ sidePoints s, ∀ q ∈ sidePoints t, q.x < p.x) ∨
    (∀ p ∈ sidePoints s, ∀ q ∈ sidePoints t, p.y < q.y) ∨ ∀ p ∈ sidePoints s, ∀ q ∈ sidePoints t, q.y < p.y

section
variable [Field K]

/-- The point of a side at the parameter `r`. -/
def sidePoint (s : Vec2 K × Seg K) (r : K) : Vec2 K :=
  match s.2 with
  | .line q => lerp s.1 q r
  | .cubic c1 c2 q => Cubic.eval ⟨s.1, c1, c2, q⟩ r

/-- The heights of the four points that define a curved side are equally spaced. -/
def Even (s : Vec2 K × Seg K) : Prop :=
  match s.2 with
  | .line _ => True
  | .cubic c1 c2 q => c1.y = s.1.y + (q.y - s.1.y) / 3 ∧ c2.y = s.1.y + 2 * (q.y - s.1.y) / 3

/-- The abscissa of such a side at the height `y`. -/
def abscissa (s : Vec2 K × Seg K) (y : K) : K := (sidePoint s ((y - s.1.y) / (s.2.target.y - s.1.y))).x

variable [LinearOrder K]

/-- The heights of the two ends. -/
def lowest (s : Vec2 K × Seg K) : K := min s.1.y s.2.target.y
def highest (s : Vec2 K × Seg K) : K := max s.1.y s.2.target.y

/-- The lower end. -/
def foot (s : Vec2 K × Seg K) : Vec2 K := if s.1.y < s.2.target.y then s.1 else s.2.target

/-- What a side contributes to the winding number at `(X, y)`: it counts if it crosses the ray from `(X, y)` to the left, `+1` if
it leads down, `-1` if it leads up. -/
def curveWinding (X y : K) (s : Vec2 K × Seg K) : Int :=
  if abscissa s y < X then
    if s.2.target.y ≤ y ∧ y < s.1.y then 1 else if s.1.y ≤ y ∧ y < s.2.target.y then -1 else 0
  else 0

/-- The winding number of sides, and of contours, at `(X, y)`. -/
def sidesWinding (l : List (Vec2 K × Seg K)) (X y : K) : Int := (l.map (curveWinding X y)).sum
def loopWinding (Ls : List (Loop K)) (X y : K) : Int := sidesWinding (Ls.flatMap Loop.sides) X y

/-- `s` is to the left of `t` at all heights they have in common; they meet at most in a common lower end or in a common upper
end. -/
def Beside (s t : Vec2 K × Seg K) : Prop :=
  ∀ y, lowest s ≤ y → lowest t ≤ y → y ≤ highest s → y ≤ highest t →
    abscissa s y ≤ abscissa t y ∧ (abscissa s y = abscissa t y → (y = lowest s ∧ y = lowest t) ∨ (y = highest s ∧ y = highest t))

/-- The position is not more than `1e-6` away from one of the ends. -/
def NearEnd (r : K) : Prop := ¬ (1 / 1000000 < r ∧ r < 1 - 1 / 1000000)

variable [FTrans K]

/-- For two sides, at least one of them curved, the library's own functions for the intersection of two curves, and of a line and a
curve, report no intersection except close to ends. -/
def NoReport (s t : Vec2 K × Seg K) : Prop :=
  match s.2, t.2 with
  | .line _, .line _ => True
  | .line q, .cubic c1 c2 r => ∀ l, lineCubicIntersect s.1 q ⟨t.1, c1, c2, r⟩ = some l → ∀ i ∈ l, NearEnd i.t0 ∧ NearEnd i.t1
  | .cubic c1 c2 r, .line q => ∀ l, lineCubicIntersect t.1 q ⟨s.1, c1, c2, r⟩ = some l → ∀ i ∈ l, NearEnd i.t0 ∧ NearEnd i.t1
  | .cubic c1 c2 q, .cubic d1 d2 r => ∀ csort, IsSort csort →
      (∀ i ∈ cubicIntersect csort ⟨s.1, c1, c2, q⟩ ⟨t.1, d1, d2, r⟩ 40, NearEnd i.t0 ∧ NearEnd i.t1) ∧
      ∀ i ∈ cubicIntersect csort ⟨t.1, d1, d2, r⟩ ⟨s.1, c1, c2, q⟩ 40, NearEnd i.t0 ∧ NearEnd i.t1

/-- Closed contours of straight and curved sides, none of them horizontal, that may touch in common ends of sides, but do not cross
or overlap (`apart`), nor does the library believe that they do (`quiet`).
* All coordinates are in the range of finite doubles.
* The curved sides are given by four points of equally spaced heights; they are at least `1e-8` high.
* From no point more than two sides lead up (`feet`). -/
structure NonCrossing (Ls : List (Loop K)) : Prop where
  closed : ∀ l ∈ Ls, l.Closed
  range : ∀ s ∈ Ls.flatMap Loop.sides, ∀ p ∈ sidePoints s, -(dblMax : K) ≤ p.x ∧ p.x ≤ dblMax ∧ -(dblMax : K) < p.y ∧ p.y ≤ dblMax
  steep : ∀ s ∈ Ls.flatMap Loop.sides, s.1.y ≠ s.2.target.y
  tall : ∀ s ∈ Ls.flatMap Loop.sides, s.2.isCubic = true → 1 / 100000000 ≤ |s.2.target.y - s.1.y|
  even : ∀ s ∈ Ls.flatMap Loop.sides, Even s
  apart : (Ls.flatMap Loop.sides).Pairwise (fun s t => lowest s < highest t → lowest t < highest s → Beside s t ∨ Beside t s)
  quiet : (Ls.flatMap Loop.sides).Pairwise (fun s t => Far s t ∨ NoReport s t)
  feet : ∀ s ∈ Ls.flatMap Loop.sides, ∀ t ∈ Ls.flatMap Loop.sides, ∀ u ∈ Ls.flatMap Loop.sides,
    foot s = foot t → foot t = foot u → s = t ∨ s = u ∨ t = u

/-- The point `(X, y)` belongs to the result of the operation on the two sets of contours. -/
def InLoops (subject clip : List (Loop K)) (ct : ClipType) (fr : FillRule) (X y : K) : Prop :=
  ct.op (fr.inside (loopWinding subject X y)) (fr.inside (loopWinding clip X y))

/-- The result lies to the same side of its whole boundary (`Oriented` for contours with curved sides). -/
def LoopsOriented (subject clip : List (Loop K)) (ct : ClipType) (fr : FillRule) (σ : Int) : Prop :=
  ∀ X y X' y' : K,
    (loopWinding subject X' y' = loopWinding subject X y + 1 ∧ loopWinding clip X' y' = loopWinding clip X y) ∨
      (loopWinding subject X' y' = loopWinding subject X y ∧ loopWinding clip X' y' = loopWinding clip X y + 1) →
    (σ = 1 → InLoops subject clip ct fr X y → InLoops subject clip ct fr X' y') ∧
      (σ = -1 → InLoops subject clip ct fr X' y' → InLoops subject clip ct fr X y)

end

end River
