import Verif.Spec.Curved
import Verif.Spec.General
import Verif.Model.Segment

/-! # Specification: contours with straight and curved sides that cross -/

namespace River
variable {K : Type}

attribute [local instance 10000] FTrans.toFNum

section
variable [Field K] [LinearOrder K]

/-- `s` at `a` and `t` at `b` is the same point. -/
def Meet2 (s t : Vec2 K × Seg K) (a b : K) : Prop := 0 ≤ a ∧ a ≤ 1 ∧ 0 ≤ b ∧ b ≤ 1 ∧ sidePoint s a = sidePoint t b

/-- The list `l` of intersections tells the truth about the sides `s` and `t`: except for those close to ends of both, what is
reported are common points at the right positions, and all common points are reported. -/
def Truth (s t : Vec2 K × Seg K) (l : List (Info K)) : Prop :=
  (∀ i ∈ l, ¬ (NearEnd i.t0 ∧ NearEnd i.t1) → Meet2 s t i.t0 i.t1 ∧ i.p = sidePoint s i.t0) ∧
  ∀ a b, Meet2 s t a b → ¬ (NearEnd a ∧ NearEnd b) → ∃ i ∈ l, i.t0 = a ∧ i.t1 = b

/-- The position of an end of the side `s`, or of a point it has in common with another side. -/
def Stop (l : List (Vec2 K × Seg K)) (s : Vec2 K × Seg K) (a : K) : Prop := a = 0 ∨ a = 1 ∨ ∃ t ∈ l, t ≠ s ∧ ∃ b, Meet2 s t a b

/-- `w` is the part of `s` between the positions `a` and `b`. -/
structure IsPart (s w : Vec2 K × Seg K) (a b : K) : Prop where
  low : 0 ≤ a
  lt : a < b
  high : b ≤ 1
  kind : w.2.isCubic = s.2.isCubic
  trace : ∀ r, sidePoint w r = sidePoint s (a + r * (b - a))

/-- What is delivered consists of parts of the given sides, each from one end or common point to the next one, none drawn twice. -/
structure CutSides (given out : List (Vec2 K × Seg K)) : Prop where
  part : ∀ w ∈ out, ∃ s ∈ given, ∃ a b, IsPart s w a b ∧ Stop given s a ∧ Stop given s b ∧ ∀ t, Stop given s t → ¬ (a < t ∧ t < b)
  once : out.Nodup

variable [FTrans K]

/-- For two sides, at least one of them curved, the library's own functions for the intersection of two curves, and of a line and a
curve, tell the truth. -/
def Truthful (s t : Vec2 K × Seg K) : Prop :=
  match s.2, t.2 with
  | .line _, .line _ => True
  | .line q, .cubic c1 c2 r => ∀ l, lineCubicIntersect s.1 q ⟨t.1, c1, c2, r⟩ = some l → Truth s t l
  | .cubic c1 c2 r, .line q => ∀ l, lineCubicIntersect t.1 q ⟨s.1, c1, c2, r⟩ = some l → Truth t s l
  | .cubic c1 c2 q, .cubic d1 d2 r => ∀ csort, IsSort csort →
      Truth s t (cubicIntersect csort ⟨s.1, c1, c2, q⟩ ⟨t.1, d1, d2, r⟩ 40) ∧ Truth t s (cubicIntersect csort ⟨t.1, d1, d2, r⟩ ⟨s.1, c1, c2, q⟩ 40)

/-- Closed contours of straight and curved sides, none of them horizontal, that may cross each other and themselves.
* All coordinates are in the range of finite doubles.
* The curved sides are given by four points of equally spaced heights, the parts between their ends and their common points with other
  sides are at least `1e-8` high (`tall`), and the library's bounding box contains them (`boxed`).
* No common point of two sides lies closer than `1e-6` to an end of one of them without being that end (`meet`); so sides do not overlap.
* About the intersections of sides the library does not err (`truthful`).
* Through no point more than two sides lead up (`feet`). -/
structure CrossingLoops (Ls : List (Loop K)) : Prop where
  closed : ∀ l ∈ Ls, l.Closed
  range : ∀ s ∈ Ls.flatMap Loop.sides, ∀ p ∈ sidePoints s, -(dblMax : K) ≤ p.x ∧ p.x ≤ dblMax ∧ -(dblMax : K) < p.y ∧ p.y ≤ dblMax
  steep : ∀ s ∈ Ls.flatMap Loop.sides, s.1.y ≠ s.2.target.y
  tall : ∀ s ∈ Ls.flatMap Loop.sides, s.2.isCubic = true → ∀ a b, Stop (Ls.flatMap Loop.sides) s a → Stop (Ls.flatMap Loop.sides) s b → a < b →
    1 / 100000000 ≤ |(sidePoint s b).y - (sidePoint s a).y|
  even : ∀ s ∈ Ls.flatMap Loop.sides, Even s
  boxed : ∀ s ∈ Ls.flatMap Loop.sides, s.2.isCubic = true → ∀ r, 0 ≤ r → r ≤ 1 → (s.2.boundary s.1).Mem (sidePoint s r)
  meet : (Ls.flatMap Loop.sides).Pairwise (fun s t => ∀ a b, Meet2 s t a b → ClearPos a ∧ ClearPos b)
  truthful : (Ls.flatMap Loop.sides).Pairwise (fun s t => Far s t ∨ Truthful s t)
  feet : ∀ s ∈ Ls.flatMap Loop.sides, ∀ t ∈ Ls.flatMap Loop.sides, ∀ u ∈ Ls.flatMap Loop.sides, ∀ a b c, Meet2 s t a b → Meet2 t u b c →
    (sidePoint s a).y < highest s → (sidePoint s a).y < highest t → (sidePoint s a).y < highest u → s = t ∨ s = u ∨ t = u

end

end River
