import Verif.Model.Bezier
import Verif.Spec.Line
import Verif.Spec.Rect

/-! # Specification of cubic Bézier curves -/

namespace River
variable {R : Type} [Field R]

/-- Bernstein form of one coordinate. -/
def bern (a b c d t : R) : R := (1 - t) ^ 3 * a + 3 * (1 - t) ^ 2 * t * b + 3 * (1 - t) * t ^ 2 * c + t ^ 3 * d

namespace Cubic

/-- The point of the curve at parameter `t`. -/
def eval (c : Cubic R) (t : R) : Vec2 R :=
  ⟨bern c.p0.x c.p1.x c.p2.x c.p3.x t, bern c.p0.y c.p1.y c.p2.y c.p3.y t⟩

/-- De Casteljau's construction of the same point by repeated linear interpolation. -/
def casteljau (c : Cubic R) (t : R) : Vec2 R :=
  let a := lerp c.p0 c.p1 t
  let b := lerp c.p1 c.p2 t
  let d := lerp c.p2 c.p3 t
  lerp (lerp a b t) (lerp b d t) t

variable [LinearOrder R]

/-- The curve is monotone in `y` on `[0,1]`. -/
def MonoY (c : Cubic R) : Prop :=
  (∀ s t, 0 ≤ s → s ≤ t → t ≤ 1 → (c.eval s).y ≤ (c.eval t).y) ∨
  (∀ s t, 0 ≤ s → s ≤ t → t ≤ 1 → (c.eval t).y ≤ (c.eval s).y)

end Cubic
end River
