import Verif.Spec.SvgText
import Verif.Spec.Svg
import Verif.Props.Format

/-! # Specification: what the SVG file of the test program has to say -/

namespace River

/-- A command with its points rounded to six decimals. -/
def Cmd.sixth : Cmd Dbl → Cmd ℚ
  | .moveto p => .moveto (sixthPt p)
  | .lineto p => .lineto (sixthPt p)
  | .cubicto a b p => .cubicto (sixthPt a) (sixthPt b) (sixthPt p)

/-- The style of a group of contours: the colours of the line and of the inside. -/
def SvgKind.colours : SvgKind → List Char × List Char
  | .subject => ("green".toList, "green".toList)
  | .clip => ("blue".toList, "blue".toList)
  | .output => ("black".toList, "tomato".toList)

/-- The text `T` is a document with one group; in this group stand a `path` element for each of the contours `L`, in their order, whose data
`make_path` reads as the contour with six decimals, in the colours of its kind; then a square for each mark and a line for each handle of the
drawing `D`. The document has the size and the view box of `D` and the group its transformation and its width of lines. -/
def SvgDoc (T : List Char) (D : Drawing Dbl) (L : List (SvgKind × Drawn Dbl)) : Prop :=
  ∃ (top group : List Char) (paths squares lines : List (List Char)),
    tags T = top :: group :: (paths ++ (squares ++ (lines ++ ["/g".toList, "/svg".toList]))) ∧
    isTag "svg".toList top = true ∧ isTag "g".toList group = true ∧
    (∀ t ∈ paths, isTag "path".toList t = true) ∧ (∀ t ∈ squares, isTag "rect".toList t = true) ∧ (∀ t ∈ lines, isTag "line".toList t = true) ∧
    attr "viewBox".toList top = some (fmtF D.view.1.x ++ ',' :: (fmtF D.view.1.y ++ ',' :: (fmtF D.view.2.1 ++ ',' :: fmtF D.view.2.2))) ∧
    attr "width".toList top = some (fmtF D.size.1) ∧ attr "height".toList top = some (fmtF D.size.2) ∧
    ("g transform = \"scale(1,-1) translate(0,".toList ++ (fmtF D.trans.2.2 ++ ") \"".toList)) <+: group ∧
    attr "stroke-width".toList group = some (fmtF D.stroke) ∧
    paths.map (fun t => ((attr "d".toList t).bind readData, attr "stroke".toList t, attr "fill".toList t)) =
      L.map (fun x => (some [Path.build (x.2.cmds.map Cmd.sixth)], some x.1.colours.1, some x.1.colours.2)) ∧
    squares.map (fun t => (attr "x".toList t, attr "y".toList t, attr "width".toList t, attr "height".toList t)) =
      D.marks.map (fun m => (some (fmtF m.1.x), some (fmtF m.1.y), some (fmtF m.2.1), some (fmtF m.2.2))) ∧
    lines.map (fun t => (attr "x1".toList t, attr "y1".toList t, attr "x2".toList t, attr "y2".toList t)) =
      D.hints.map (fun h => (some (fmtF h.1.x), some (fmtF h.1.y), some (fmtF h.2.x), some (fmtF h.2.y)))

/-- The `path` elements of a text: what `make_path` reads from their data, and the colour of their lines. -/
def readPaths (T : List Char) : List (Option (List (Path ℚ)) × Option (List Char)) :=
  ((tags T).filter (isTag "path".toList)).map (fun t => ((attr "d".toList t).bind readData, attr "stroke".toList t))

/-- A number rounded to six decimals, ties to even. -/
def round6 (q : ℚ) : ℚ := Dbl.val (decide (q < 0)) ((nearestEven (|q| * 1000000) : ℚ) / 1000000)

/-- Polygons with all coordinates rounded to six decimals. -/
def round6All (Ps : List (List (Vec2 ℚ))) : List (List (Vec2 ℚ)) := Ps.map (fun P => P.map (fun p => ⟨round6 p.x, round6 p.y⟩))

end River
