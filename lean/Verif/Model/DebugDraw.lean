import Verif.Model.Viewer
import Verif.Model.Bezier

/-!
# Drawing for the debug viewer (`/repo/src/src/util.cpp`, `/repo/src/src/util.h`)

What a call draws is the list of calls of `debug_util::show_*` it makes.
-/

namespace River
namespace Viewer

section
variable {K : Type} [FNum K]

/-- `draw_path(const rmath::line&, pen, offset)` (`util.cpp:16-21`), `QLineF::translate`. -/
def drawLinePath (p0 p1 : Vec2 K) (pen : Pen K) (offset : Vec2 K) : List (Shape K) :=
  [.line ⟨p0.add offset, p1.add offset⟩ pen]

omit [FNum K] in
/-- `draw_path(const rmath::bezier_cubic&, pen, offset)` (`util.cpp:23-26`). -/
def drawCubicPath (c : Cubic K) (pen : Pen K) (_offset : Vec2 K) : List (Shape K) := [.cubic c.p0 c.p1 c.p2 c.p3 pen]

/-- The two callbacks of `draw_path(const river::path&, ...)` (`util.cpp:30-51`); `move_to` stays null. -/
def drawFuncs (pen : Pen K) (offset : Vec2 K) : Funcs K (List (Shape K)) :=
  ⟨none,
   some fun source target acc => acc ++ [.line ⟨source.add offset, target.add offset⟩ pen],
   some fun source c1 c2 target acc => acc ++ [.cubic (source.add offset) (c1.add offset) (c2.add offset) (target.add offset) pen]⟩

/-- `draw_path(const river::path&, pen, offset)` (`util.cpp:28-54`). -/
def drawPath (p : Path K) (pen : Pen K) (offset : Vec2 K) : Option (List (Shape K)) := p.traverse (drawFuncs pen offset) []

/-- `draw_path(const river::paths&, pen, offset)` (`util.cpp:56-61`). -/
def drawPaths (ps : List (Path K)) (pen : Pen K) (offset : Vec2 K) : Option (List (Shape K)) :=
  ps.foldl (fun acc p => acc.bind fun a => (drawPath p pen offset).map (a ++ ·)) (some [])

omit [FNum K] in
/-- `struct offset_rect` (`util.h:21-42`): the places of frames next to each other. -/
structure OffsetRect (K : Type) where
  move : Vec2 K
  space : Vec2 K
  cow : ℕ

/-- The initial values (`util.h:23-25`) with a given `space`. -/
def OffsetRect.init (space : Vec2 K) : OffsetRect K := ⟨⟨FNum.lit 0, FNum.lit 0⟩, space, 0⟩

/-- `offset_rect::next` (`util.h:27-37`). -/
def OffsetRect.next (o : OffsetRect K) : OffsetRect K :=
  if o.cow = 4 then { o with move := ⟨o.move.x +. o.space.x, FNum.lit 0⟩, cow := 0 }
  else { o with cow := o.cow + 1, move := ⟨o.move.x, o.move.y +. o.space.y⟩ }

/-- `QRectF::translated` (Qt) (used in `util.h:39`). -/
def Box.translated (b : Box K) (d : Vec2 K) : Box K := { b with x := b.x +. d.x, y := b.y +. d.y }

/-- `offset_rect::rect` (`util.h:39`): the second argument of the constructor is a point, hence a corner. -/
def OffsetRect.rect (o : OffsetRect K) : Box K := (Box.ofCorners ⟨FNum.lit 0, FNum.lit 0⟩ o.space).translated o.move

/-- `operator()(const QLineF&)` (`util.h:41`). -/
def OffsetRect.line (o : OffsetRect K) (l : Seg K) : Seg K := ⟨l.p1.add o.move, l.p2.add o.move⟩

/-- `operator()(const QPointF&)` (`util.h:42`). -/
def OffsetRect.point (o : OffsetRect K) (p : Vec2 K) : Vec2 K := p.add o.move

end
end Viewer
end River
