import Verif.Spec.Curved

/-! # Specification: contours whose curved sides rise or fall all the way

As `Spec/Curved.lean`, but for curves of any shape that rise or fall from one end to the other. -/

namespace River.Upright
variable {K : Type}

attribute [local instance 10000] FTrans.toFNum

section
variable [Field K] [LinearOrder K]

/-- The side rises all the way; it falls all the way. -/
def Climbs (s : Vec2 K × Seg K) : Prop := ∀ a b, 0 ≤ a → a < b → b ≤ 1 → (sidePoint s a).y < (sidePoint s b).y
def Drops (s : Vec2 K × Seg K) : Prop := ∀ a b, 0 ≤ a → a < b → b ≤ 1 → (sidePoint s b).y < (sidePoint s a).y

/-- The side has a point at every height between those of its ends. -/
def Reaches (s : Vec2 K × Seg K) : Prop := ∀ y, lowest s ≤ y → y ≤ highest s → ∃ r, 0 ≤ r ∧ r ≤ 1 ∧ (sidePoint s r).y = y

/-- The side has a point to the left of `(X, y)`, at the same height. -/
def LeftAt (X y : K) (s : Vec2 K × Seg K) : Prop := ∃ r, 0 ≤ r ∧ r ≤ 1 ∧ (sidePoint s r).y = y ∧ (sidePoint s r).x < X

open Classical in
/-- What a side contributes to the winding number at `(X, y)`: it counts if it crosses the ray from `(X, y)` to the left, `+1` if
it leads down, `-1` if it leads up. -/
noncomputable def curveWinding (X y : K) (s : Vec2 K × Seg K) : Int :=
  if LeftAt X y s then
    if s.2.target.y ≤ y ∧ y < s.1.y then 1 else if s.1.y ≤ y ∧ y < s.2.target.y then -1 else 0
  else 0

/-- The winding number of sides, and of contours, at `(X, y)`. -/
noncomputable def sidesWinding (l : List (Vec2 K × Seg K)) (X y : K) : Int := (l.map (curveWinding X y)).sum
noncomputable def loopWinding (Ls : List (Loop K)) (X y : K) : Int := sidesWinding (Ls.flatMap Loop.sides) X y

/-- Points of `s` are to the left of the points of `t` at the same height; the two meet at most in a common lower end or in a common
upper end. -/
def Beside (s t : Vec2 K × Seg K) : Prop :=
  ∀ a b, 0 ≤ a → a ≤ 1 → 0 ≤ b → b ≤ 1 → (sidePoint s a).y = (sidePoint t b).y →
    (sidePoint s a).x ≤ (sidePoint t b).x ∧ ((sidePoint s a).x = (sidePoint t b).x →
      ((sidePoint s a).y = lowest s ∧ (sidePoint t b).y = lowest t) ∨ ((sidePoint s a).y = highest s ∧ (sidePoint t b).y = highest t))

variable [FTrans K]

/-- The library's own functions deal with the side correctly: the one that divides curves where they turn back leaves it in one piece,
and the one for the abscissa at a height finds the point of the curve at that height. -/
def Traced (s : Vec2 K × Seg K) : Prop :=
  match s.2 with
  | .line _ => True
  | .cubic c1 c2 q => Cubic.readPieces ⟨s.1, c1, c2, q⟩ = [⟨s.1, c1, c2, q⟩] ∧
      ∀ r, 0 ≤ r → r ≤ 1 → Seg.currX s.2 s.1 (sidePoint s r).y = (sidePoint s r).x

/-- Closed contours of straight and curved sides, each of which rises or falls all the way. They may touch in common ends of sides,
but do not cross or overlap (`apart`), nor does the library believe that they do (`quiet`).
* All coordinates are in the range of finite doubles.
* From no point more than two sides lead up (`feet`). -/
structure NonCrossing (Ls : List (Loop K)) : Prop where
  closed : ∀ l ∈ Ls, l.Closed
  range : ∀ s ∈ Ls.flatMap Loop.sides, ∀ p ∈ sidePoints s, -(dblMax : K) ≤ p.x ∧ p.x ≤ dblMax ∧ -(dblMax : K) < p.y ∧ p.y ≤ dblMax
  runs : ∀ s ∈ Ls.flatMap Loop.sides, Climbs s ∨ Drops s
  reach : ∀ s ∈ Ls.flatMap Loop.sides, Reaches s
  traced : ∀ s ∈ Ls.flatMap Loop.sides, Traced s
  apart : (Ls.flatMap Loop.sides).Pairwise (fun s t => lowest s < highest t → lowest t < highest s → Beside s t ∨ Beside t s)
  quiet : (Ls.flatMap Loop.sides).Pairwise (fun s t => Far s t ∨ NoReport s t)
  feet : ∀ s ∈ Ls.flatMap Loop.sides, ∀ t ∈ Ls.flatMap Loop.sides, ∀ u ∈ Ls.flatMap Loop.sides,
    foot s = foot t → foot t = foot u → s = t ∨ s = u ∨ t = u

/-- The point `(X, y)` belongs to the result of the operation on the two sets of contours. -/
def InLoops (subject clip : List (Loop K)) (ct : ClipType) (fr : FillRule) (X y : K) : Prop :=
  ct.op (fr.inside (loopWinding subject X y)) (fr.inside (loopWinding clip X y))

/-- The result lies to the same side of its whole boundary. -/
def LoopsOriented (subject clip : List (Loop K)) (ct : ClipType) (fr : FillRule) (σ : Int) : Prop :=
  ∀ X y X' y' : K,
    (loopWinding subject X' y' = loopWinding subject X y + 1 ∧ loopWinding clip X' y' = loopWinding clip X y) ∨
      (loopWinding subject X' y' = loopWinding subject X y ∧ loopWinding clip X' y' = loopWinding clip X y + 1) →
    (σ = 1 → InLoops subject clip ct fr X y → InLoops subject clip ct fr X' y') ∧
      (σ = -1 → InLoops subject clip ct fr X' y' → InLoops subject clip ct fr X y)

end

end River.Upright
