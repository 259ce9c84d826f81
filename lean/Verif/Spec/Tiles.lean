import Verif.Spec.Polygons

/-! # Specification: rectangles parallel to the axes -/

namespace River

/-- The rectangle of the points with abscissas from `x1` to `x2` and ordinates from `y1` to `y2`. -/
structure Tile (K : Type) where
  x1 : K
  y1 : K
  x2 : K
  y2 : K
deriving DecidableEq

namespace Tile
variable {K : Type}

/-- Its corners, counterclockwise. -/
def corners (r : Tile K) : List (Vec2 K) := [⟨r.x1, r.y1⟩, ⟨r.x2, r.y1⟩, ⟨r.x2, r.y2⟩, ⟨r.x1, r.y2⟩]

/-- The rectangle with whole coordinates, in the number type `K`. -/
def cast [IntCast K] (r : Tile ℤ) : Tile K := ⟨r.x1, r.y1, r.x2, r.y2⟩

variable [LinearOrder K]

/-- `(X, y)` belongs to the rectangle. Of the boundary the right and the lower side belong to it. -/
def Has (r : Tile K) (X y : K) : Prop := (r.x1 < X ∧ X ≤ r.x2) ∧ r.y1 ≤ y ∧ y < r.y2

/-- The rectangle is not empty. -/
def Proper (r : Tile K) : Prop := r.x1 < r.x2 ∧ r.y1 < r.y2

end Tile

variable {K : Type} [Field K] [LinearOrder K]

/-- `z` is not inside the interval from `u` to `v`, or more than `1e-6` of its length away from its ends. -/
def ClearOf (z u v : K) : Prop := z ≤ u ∨ v ≤ z ∨ (u + (v - u) / 1000000 < z ∧ z < v - (v - u) / 1000000)

/-- Rectangles with coordinates in the range of doubles, such that no side of one runs very close to a parallel side of another inside it. They may
overlap, touch and coincide. -/
structure ClearTiles (R : List (Tile K)) : Prop where
  proper : ∀ r ∈ R, r.Proper
  range : ∀ r ∈ R, -(dblMax : K) ≤ r.x1 ∧ r.x2 ≤ dblMax ∧ -(dblMax : K) < r.y1 ∧ r.y2 ≤ dblMax
  clear : ∀ r ∈ R, ∀ s ∈ R, (ClearOf s.x1 r.x1 r.x2 ∧ ClearOf s.x2 r.x1 r.x2) ∧ ClearOf s.y1 r.y1 r.y2 ∧ ClearOf s.y2 r.y1 r.y2

end River
