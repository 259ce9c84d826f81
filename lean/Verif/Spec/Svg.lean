import Verif.Spec.Ring
import Verif.Model.Svg

/-! # Specification: what the SVG drawing of the test program has to show -/

namespace River
variable {K : Type}

/-- A command in the notation of SVG. -/
def Cmd.svg : Cmd K → SvgTok K
  | .moveto p => .m p
  | .lineto p => .l p
  | .cubicto a b p => .c a b p

/-- A contour in the notation of SVG, not closed. -/
def Drawn.text (d : Drawn K) : List (SvgTok K) := d.cmds.map Cmd.svg

/-- The points named by a command. -/
def Cmd.points : Cmd K → List (Vec2 K)
  | .moveto p => [p]
  | .lineto p => [p]
  | .cubicto a b p => [a, b, p]

/-- The points named by a contour. -/
def Drawn.points (d : Drawn K) : List (Vec2 K) := d.cmds.flatMap Cmd.points

/-- The handles of a curve: from its ends to its control points. -/
def Event.handles : Event K → List (Vec2 K × Vec2 K)
  | ⟨frm, .cubicto a b p⟩ => [(frm, a), (b, p)]
  | _ => []

/-- The handles of all curves of a contour. -/
def Drawn.handles (d : Drawn K) : List (Vec2 K × Vec2 K) := (eventsFrom d.start d.body).flatMap Event.handles

/-- All texts but the last one are closed with `Z`. -/
def closeOff : List (List (SvgTok K)) → List (List (SvgTok K))
  | [] => []
  | [a] => [a]
  | a :: b :: l => (a ++ [.z]) :: closeOff (b :: l)

/-- Where the viewer shows a point: `scale` after `translate`. -/
def Drawing.place [Field K] (D : Drawing K) (p : Vec2 K) : Vec2 K := ⟨D.trans.1 * p.x, D.trans.2.1 * (p.y + D.trans.2.2)⟩

/-- Pixels per unit of length: the picture is 400 pixels high, without the rim of ten. -/
def Drawing.scale [FNum K] (D : Drawing K) : K := FNum.lit 400 /. D.view.2.2

/-- The drawing `D` shows these contours, in this order, each with its style and all but the last one closed; the nodes and handles of those that belong to the result are marked, the
nodes by squares that reach two pixels to each side; lines are one pixel wide. -/
structure Drawing.Shows [FNum K] (D : Drawing K) (L : List (SvgKind × Drawn K)) : Prop where
  figs : D.figs = (closeOff (L.map (fun x => x.2.text))).zip (L.map Prod.fst)
  marks : D.marks = ((L.filter (fun x => x.1 = .output)).flatMap (fun x => x.2.points)).map (fun p => ((Rect.around p (FNum.lit 2 /. D.scale)).min, (Rect.around p (FNum.lit 2 /. D.scale)).width, (Rect.around p (FNum.lit 2 /. D.scale)).height))
  size : D.size = (D.scale *. D.view.2.1 +. FNum.lit 10, FNum.lit 400 +. FNum.lit 10)
  stroke : D.stroke = FNum.lit 1 /. D.scale
  hints : D.hints = (L.filter (fun x => x.1 = .output)).flatMap (fun x => x.2.handles)

end River
