import Verif.Spec.Polygons

/-! # Specification: where the sides of the delivered polygons lie -/

namespace River
variable {K : Type} [Field K] [LinearOrder K]

/-- A corner of the polygons, or a point where two of their sides meet that are not parallel. -/
def Knot (Ps : List (List (Vec2 K))) (p : Vec2 K) : Prop :=
  (∃ P ∈ Ps, p ∈ P) ∨ ∃ s ∈ Ps.flatMap polySides, ∃ t ∈ Ps.flatMap polySides, ¬ Parallel s.1 s.2 t.1 t.2 ∧ OnSeg p s.1 s.2 ∧ OnSeg p t.1 t.2

/-- The polygons `out` are traced out on the polygons `Ps`.
* `sloping`: every side that is not horizontal is a part of a side of `Ps`, in the same direction, between two corners or meeting points.
* `level`: every horizontal side lies on horizontal sides of `Ps`.
* `apart`: different sides meet at most in ends — in ends of both sides, but a side may end on the inside of a horizontal one. -/
structure Traced (Ps out : List (List (Vec2 K))) : Prop where
  sloping : ∀ t ∈ out.flatMap polySides, t.1.y ≠ t.2.y → Knot Ps t.1 ∧ Knot Ps t.2 ∧
    ∃ s ∈ Ps.flatMap polySides, ∃ a b, 0 ≤ a ∧ a < b ∧ b ≤ 1 ∧ t = (lerp s.1 s.2 a, lerp s.1 s.2 b)
  level : ∀ t ∈ out.flatMap polySides, t.1.y = t.2.y → t.1 ≠ t.2 ∧
    ∀ p, OnSeg p t.1 t.2 → ∃ s ∈ Ps.flatMap polySides, s.1.y = s.2.y ∧ OnSeg p s.1 s.2
  apart : (out.flatMap polySides).Pairwise (fun s t => ∀ p, OnSeg p s.1 s.2 → OnSeg p t.1 t.2 →
    ((p = s.1 ∨ p = s.2) ∧ (p = t.1 ∨ p = t.2)) ∨
      (s.1.y = s.2.y ∧ t.1.y ≠ t.2.y ∧ (p = t.1 ∨ p = t.2)) ∨ (t.1.y = t.2.y ∧ s.1.y ≠ s.2.y ∧ (p = s.1 ∨ p = s.2)))

end River
