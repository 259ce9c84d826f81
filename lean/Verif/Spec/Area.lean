import Verif.Spec.Polygons

/-! # The area of polygons -/

namespace River
variable {K : Type} [Field K]

/-- Twice the signed area of polygons, by the shoelace formula: positive for a polygon drawn counter-clockwise. -/
def area2 (Ps : List (List (Vec2 K))) : K := ((Ps.flatMap polySides).map (fun s => s.1.x * s.2.y - s.2.x * s.1.y)).sum

end River
