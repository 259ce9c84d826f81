import Verif.Model.Double
import Verif.Model.Sweep
import Verif.Spec.Rect
import Mathlib.Data.EReal.Basic

/-! # Specification: the values of doubles -/

namespace River

/-- The value of a double, an extended real number (of no interest for NaN). -/
noncomputable def Dbl.value : Dbl → EReal
  | .num s m => ((Dbl.val s m : ℝ) : EReal)
  | .inf true => ⊥
  | .inf false => ⊤
  | .nan => 0

/-- A finite double: its magnitude does not exceed `DBL_MAX`. -/
def Dbl.WithinMax (d : Dbl) : Prop := ∃ s m, d = .num s m ∧ 0 ≤ m ∧ m ≤ dblMax

/-- The point with the values of the coordinates. -/
noncomputable def Vec2.value (p : Vec2 Dbl) : Vec2 EReal := ⟨p.x.value, p.y.value⟩

/-- No coordinate is NaN. -/
def Vec2.NotNan (p : Vec2 Dbl) : Prop := p.x ≠ .nan ∧ p.y ≠ .nan

/-- Both coordinates are finite. -/
def Vec2.WithinMax (p : Vec2 Dbl) : Prop := p.x.WithinMax ∧ p.y.WithinMax

/-- The box with the values of the coordinates. -/
noncomputable def Rect.value (r : Rect Dbl) : Rect EReal := ⟨r.min.value, r.max.value⟩

/-- No coordinate of the box is NaN. -/
def Rect.NotNan (r : Rect Dbl) : Prop := r.min.NotNan ∧ r.max.NotNan

/-- The active edges are ordered by their current abscissa, none of which is NaN. -/
def AelValues (ael : List (Edge Dbl)) : Prop :=
  (∀ e ∈ ael, e.currX ≠ .nan) ∧ ael.Pairwise (fun a b => a.currX.value ≤ b.currX.value)

end River
