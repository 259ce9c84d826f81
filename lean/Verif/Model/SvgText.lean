import Verif.Model.Svg
import Verif.Model.Format

/-! # The SVG file of the test program as text (`/repo/src/test/main.cpp:51-115`, `127-159`)

The drawing of `Model/Svg.lean`, written with the directive `%f` of `Model/Format.lean`. -/

namespace River

/-- `"M%f %f "`, `"L%f %f "`, `"C%f %f %f %f %f %f "` and `" Z "` (`main.cpp:127`, `129`, `142`, `158-159`). -/
def SvgTok.str : SvgTok Dbl → List Char
  | .m p => 'M' :: (fmtPoint p ++ [' '])
  | .l p => 'L' :: (fmtPoint p ++ [' '])
  | .c a b p => 'C' :: (fmtPoint a ++ ' ' :: (fmtPoint b ++ ' ' :: (fmtPoint p ++ [' '])))
  | .z => " Z ".toList

/-- The string `prop` (`main.cpp:75-88`). -/
def SvgKind.prop : SvgKind → List Char
  | .subject => "\" stroke=\"green\" fill=\"green\" fill-opacity=\"0.2\" ".toList
  | .clip => "\" stroke=\"blue\" fill=\"blue\" fill-opacity=\"0.2\" ".toList
  | .output => "\" stroke=\"black\" fill=\"tomato\" ".toList

/-- A `path` element (`main.cpp:90-93`). -/
def figStr (f : List (SvgTok Dbl) × SvgKind) : List Char :=
  "<path d=\"".toList ++ (f.1.flatMap SvgTok.str ++ (f.2.prop ++ " /> ".toList))

/-- A `rect` element (`main.cpp:98-104`). -/
def markStr (m : Vec2 Dbl × Dbl × Dbl) : List Char :=
  "<rect x=\"".toList ++ (fmtF m.1.x ++ ("\" y=\"".toList ++ (fmtF m.1.y ++ ("\" width=\"".toList ++ (fmtF m.2.1 ++
    ("\" height=\"".toList ++ (fmtF m.2.2 ++ "\" fill=\"blue\" />".toList)))))))

/-- A `line` element (`main.cpp:51-54`, `106-108`). -/
def hintStr (h : Vec2 Dbl × Vec2 Dbl) : List Char :=
  "<line x1=\"".toList ++ (fmtF h.1.x ++ ("\" y1=\"".toList ++ (fmtF h.1.y ++ ("\" x2=\"".toList ++ (fmtF h.2.x ++
    ("\" y2=\"".toList ++ (fmtF h.2.y ++ "\" stroke=\"blue\"/>".toList)))))))

/-- The start tag of the document (`main.cpp:62-69`). -/
def svgHead (D : Drawing Dbl) : List Char :=
  "<svg version=\"1.1\" viewBox=\"".toList ++ (fmtF D.view.1.x ++ (',' :: (fmtF D.view.1.y ++ (',' :: (fmtF D.view.2.1 ++ (',' :: (fmtF D.view.2.2 ++
    ("\" width=\"".toList ++ (fmtF D.size.1 ++ ("\" height=\"".toList ++ (fmtF D.size.2 ++ "\" xmlns=\"http://www.w3.org/2000/svg\">".toList)))))))))))

/-- The start tag of the group (`main.cpp:70-72`). The factors of `scale` are integers and written as such: boost ignores the `f` of the directive
for them. -/
def svgGroup (D : Drawing Dbl) : List Char :=
  "<g transform = \"scale(1,-1) translate(0,".toList ++ (fmtF D.trans.2.2 ++ (") \" stroke-width=\"".toList ++ (fmtF D.stroke ++ "\"> ".toList)))

/-- The text `get_svg` returns (`main.cpp:56-115`). -/
def Drawing.str (D : Drawing Dbl) : List Char :=
  svgHead D ++ (svgGroup D ++ (D.figs.flatMap figStr ++ (D.marks.flatMap markStr ++ (D.hints.flatMap hintStr ++ ("</g>".toList ++ "</svg>".toList)))))

/-- The file `svg_process` writes (`main.cpp:176-203`); outcomes as in `svgProcess`. -/
def svgFile (env : Env Dbl) (msort : List (LocMin Dbl) → List (LocMin Dbl)) (fuel : Nat) (subject clip : List (Path Dbl)) (ct : ClipType) (fr : FillRule) :
    Option (Option (List Char)) :=
  (svgProcess env msort fuel subject clip ct fr).map (Option.map Drawing.str)

end River
