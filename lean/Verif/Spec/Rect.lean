import Verif.Model.Rect

/-! # What a box means -/

namespace River
namespace Rect
variable {K : Type} [LinearOrder K]

/-- The closed box as a set of points. -/
def Mem (r : Rect K) (p : Vec2 K) : Prop := r.min.x ≤ p.x ∧ p.x ≤ r.max.x ∧ r.min.y ≤ p.y ∧ p.y ≤ r.max.y

/-- The corners are in order (the box is not empty). -/
def Valid (r : Rect K) : Prop := r.min.x ≤ r.max.x ∧ r.min.y ≤ r.max.y

/-- `r` is the bounding box of `ps`: it contains them all and each side passes through one of them. -/
structure IsBBox (r : Rect K) (ps : List (Vec2 K)) : Prop where
  mem : ∀ p ∈ ps, r.Mem p
  left : ∃ p ∈ ps, p.x = r.min.x
  right : ∃ p ∈ ps, p.x = r.max.x
  bottom : ∃ p ∈ ps, p.y = r.min.y
  top : ∃ p ∈ ps, p.y = r.max.y

end Rect
end River
