import Verif.Model.Vec2

/-!
# Zooming in the viewer (`/repo/test/qtview.cpp:12-22, 105-116`)

Only the part of the transformation of the view that zooming changes is modelled: how much it enlarges horizontally and vertically (`m11`, `m22` of the
`QTransform`; the other entries stay zero). Scrolling, which a wheel without Alt does, and the place Qt keeps in the middle of the window are not.
-/

namespace River
namespace Viewer
variable {K : Type} [FNum K]

/-- `m11` and `m22` of the transformation of the view (`qtview.cpp:18, 111`). -/
structure Zoom (K : Type) where
  sx : K
  sy : K
deriving DecidableEq, Repr

/-- The view after construction: `scale(1, -1)` (`qtview.cpp:18`), applied to the identity, sets the two entries (Qt). -/
def Zoom.init : Zoom K := ⟨FNum.lit 1, FNum.lit (-1)⟩

/-- A wheel event: is Alt pressed; `angleDelta().x()`, in eighths of a degree (`qtview.cpp:107-109`). -/
structure Wheel where
  alt : Bool
  delta : ℤ
deriving DecidableEq, Repr

/-- The factor computed for an event (`qtview.cpp:109`). -/
def Wheel.factor (w : Wheel) : K := FNum.lit 1 +. FNum.lit w.delta *. FNum.lit (1 / 2000)

/-- `QtView::wheelEvent` (`qtview.cpp:105-116`); `QGraphicsView::scale` multiplies the two entries (Qt). -/
def Zoom.wheel (s : Zoom K) (w : Wheel) : Zoom K :=
  if w.alt then
    let sc : K := w.factor
    if sc ==. FNum.lit 1 then s else ⟨s.sx *. sc, s.sy *. sc⟩
  else s

/-- A sequence of wheel events on a new view (`qtview.cpp:105-116`). -/
def Zoom.after (ws : List Wheel) : Zoom K := ws.foldl Zoom.wheel Zoom.init

end Viewer
end River
