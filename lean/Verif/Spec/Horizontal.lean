import Verif.Spec.Arranged
import Mathlib.Algebra.Order.Group.Multiset

/-! # Specification: the horizontal part of the boundary of the result

A result drawn with straight horizontal pieces needs such a piece exactly where one of the two points just above and just
below a height belongs to the result and the other does not. -/

namespace River
variable {K : Type}

/-- A straight horizontal piece at height `y`. -/
def Level (y : K) (p : Vec2 K × Seg K) : Prop := ∃ a b, a ≠ b ∧ p = (⟨a, y⟩, .line ⟨b, y⟩)

/-- The abscissa `X` lies between the ends of the piece (the left one excluded). -/
def Straddles [LinearOrder K] (X : K) (p : Vec2 K × Seg K) : Prop := ¬ (p.1.x < X ↔ p.2.target.x < X)

instance [LinearOrder K] (X : K) (p : Vec2 K × Seg K) : Decidable (Straddles X p) := by
  unfold Straddles; infer_instance

/-- Whether the points just below height `y` and just to the left of abscissa `X` belong to the result. -/
def InBelow [FTrans K] [LinearOrder K] [Absc K] (rings : List (Ring K)) (ct : ClipType) (fr : FillRule) (y X : K) : Prop :=
  inResultS ct fr ((sides rings).filter (fun s => decide (s.Below y ∧ s.x y < X)))

/-- Whether the points just above height `y` and just to the left of abscissa `X` belong to the result. -/
def InAbove [FTrans K] [LinearOrder K] [Absc K] (rings : List (Ring K)) (ct : ClipType) (fr : FillRule) (y X : K) : Prop :=
  inResultS ct fr ((sides rings).filter (fun s => decide (s.Above y ∧ s.x y < X)))

open Classical in
/-- The pieces `H` are horizontal and lie, once each, exactly where the result is on one side of a horizontal line and not
on the other. -/
structure HBoundary [FTrans K] [LinearOrder K] [Absc K] (rings : List (Ring K)) (ct : ClipType) (fr : FillRule) (H : Multiset (Vec2 K × Seg K)) :
    Prop where
  level : ∀ p ∈ H, ∃ y, Level y p
  once : ∀ y X, H.countP (fun p => p.1.y = y ∧ Straddles X p) = if (InBelow rings ct fr y X ↔ InAbove rings ct fr y X) then 0 else 1

end River
