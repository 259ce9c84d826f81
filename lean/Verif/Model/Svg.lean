import Verif.Model.Process
import Verif.Model.Rect

/-! # The test program of the library: drawing input and result as SVG (`/repo/src/test/main.cpp:22-203`)

Texts are lists of pieces that keep the numbers as they are; `Model/SvgText.lean` prints them with `%f`. -/

namespace River
variable {K : Type}

/-- `svg_data::path_type` (`main.cpp:24-26`). -/
inductive SvgKind where
  | subject
  | clip
  | output
deriving DecidableEq, Repr

/-- A piece of the `d` attribute: `"M%f %f "`, `"L%f %f "`, `"C%f %f %f %f %f %f "`, `" Z "` (`main.cpp:127-129`, `142`, `158-159`). -/
inductive SvgTok (K : Type) where
  | m (p : Vec2 K)
  | l (p : Vec2 K)
  | c (a b p : Vec2 K)
  | z
deriving DecidableEq, Repr

/-- `struct svg_data` (`main.cpp:22-38`); `nodes`, `color` and `fill_rule_` are never used. -/
structure Svg (K : Type) where
  rect : Rect K
  paths : List (List (SvgTok K))
  types : List SvgKind
  cur : SvgKind
  nodes : List (Vec2 K)
  hints : List (Vec2 K × Vec2 K)
deriving DecidableEq, Repr

variable [FNum K]

/-- A new `svg_data` (`main.cpp:29-38`). -/
def Svg.new : Svg K := ⟨⟨⟨FNum.maxNum, FNum.maxNum⟩, ⟨FNum.neg FNum.maxNum, FNum.neg FNum.maxNum⟩⟩, [], [], .subject, [], []⟩

/-- `update_rect` (`main.cpp:40-45`). -/
def Svg.updateRect (s : Svg K) (p : Vec2 K) : Svg K :=
  { s with rect := ⟨⟨fmin s.rect.min.x p.x, fmin s.rect.min.y p.y⟩, ⟨fmax s.rect.max.x p.x, fmax s.rect.max.y p.y⟩⟩ }

/-- `paths.back().append(t)`; `none`: `back` of an empty vector (`main.cpp:129, 142, 158`). -/
def appendBack (ps : List (List (SvgTok K))) (t : SvgTok K) : Option (List (List (SvgTok K))) :=
  ps.getLast?.map (fun a => ps.dropLast ++ [a ++ [t]])

/-- `add_node` under the test of `curr_type` (`main.cpp:47-49`, `130-132`, `143-145`). -/
def Svg.mark (s : Svg K) (p : Vec2 K) : Svg K := if s.cur = .output then { s with nodes := s.nodes ++ [p] } else s

/-- `svg_moveto` (`main.cpp:118-133`). -/
def svgMoveto (s : Svg K) (dst : Vec2 K) : Option (Svg K) :=
  let s := s.updateRect dst
  let s := { s with types := s.types ++ [s.cur] }
  (if s.paths.isEmpty then some s.paths else appendBack s.paths .z).map (fun ps => Svg.mark { s with paths := ps ++ [[.m dst]] } dst)

/-- `svg_lineto` (`main.cpp:135-146`). -/
def svgLineto (s : Svg K) (dst : Vec2 K) : Option (Svg K) :=
  let s := s.updateRect dst
  (appendBack s.paths (.l dst)).map (fun ps => Svg.mark { s with paths := ps } dst)

/-- `svg_cubicto` (`main.cpp:148-167`). -/
def svgCubicto (s : Svg K) (frm c1 c2 dst : Vec2 K) : Option (Svg K) :=
  let s := ((s.updateRect c1).updateRect c2).updateRect dst
  (appendBack s.paths (.c c1 c2 dst)).map (fun ps =>
    let s := (((({ s with paths := ps } : Svg K).mark c1).mark c2).mark dst)
    if s.cur = .output then { s with hints := s.hints ++ [(frm, c1), (c2, dst)] } else s)

/-- The callbacks `write_svg` (`main.cpp:185-188`). -/
def svgFuncs : Funcs K (Option (Svg K)) where
  move_to := some (fun _ dst u => u.bind (fun s => svgMoveto s dst))
  line_to := some (fun _ dst u => u.bind (fun s => svgLineto s dst))
  cubic_to := some (fun frm c1 c2 dst u => u.bind (fun s => svgCubicto s frm c1 c2 dst))

/-- What `get_svg` writes: the view box, width and height, the two factors of `scale` and the second argument of `translate`, the width of
strokes, the `path` elements with the style chosen, the `rect` elements of the nodes, the `line` elements of the hints (`main.cpp:56-115`). -/
structure Drawing (K : Type) where
  view : Vec2 K × K × K
  size : K × K
  trans : K × K × K
  stroke : K
  figs : List (List (SvgTok K) × SvgKind)
  marks : List (Vec2 K × K × K)
  hints : List (Vec2 K × Vec2 K)
deriving DecidableEq, Repr

/-- The loop over the paths with the second iterator `t_it` (`main.cpp:72-96`); `none`: it is dereferenced at the end. -/
def svgFigs : List (List (SvgTok K)) → List SvgKind → Option (List (List (SvgTok K) × SvgKind))
  | [], _ => some []
  | _ :: _, [] => none
  | p :: ps, t :: ts => (svgFigs ps ts).map ((p, t) :: ·)

/-- `get_svg` (`main.cpp:56-115`). -/
def Svg.get (s : Svg K) : Option (Drawing K) :=
  let scale := FNum.lit 400 /. s.rect.height
  (svgFigs s.paths s.types).map (fun figs =>
    { view := (s.rect.min, s.rect.width, s.rect.height)
      size := (scale *. s.rect.width +. FNum.lit 10, FNum.lit 400 +. FNum.lit 10)
      trans := (FNum.lit 1, FNum.neg (FNum.lit 1), FNum.neg (s.rect.center.y *. FNum.lit 2))
      stroke := FNum.lit 1 /. scale
      figs := figs
      marks := s.nodes.map (fun p => let r := Rect.around p (FNum.lit 2 /. scale); (r.min, r.width, r.height))
      hints := s.hints })

/-- `read_input` (`main.cpp:169-174`). -/
def readInput {σ : Type} (f : Funcs K σ) (ps : List (Path K)) (u : σ) : Option σ := ps.foldlM (fun u p => p.traverse f u) u

end River

namespace River
variable {K : Type} [FTrans K]
attribute [local instance 10000] FTrans.toFNum

/-- `add_path(read_input, paths, pt)` (`main.cpp:193`, `197`, `processor.cpp:45-48`, `vatti.cpp:367-382`). -/
def Clipper.addInput (c : Clipper K) (ps : List (Path K)) (pt : PathType) : Option (Clipper K) :=
  (readInput (intakeFuncs pt) ps (some ⟨c.rings, none⟩)).bind (fun d => d.map (fun d => { c with rings := (d.finish pt).rings }))

/-- `svg_process` (`main.cpp:176-203`) with the reader `read_input` for both; `none`: undefined behaviour or an endless inner loop, `some none`:
the main loop of `process` has not finished within `fuel` rounds. -/
def svgProcess (env : Env K) (msort : List (LocMin K) → List (LocMin K)) (fuel : Nat) (subject clip : List (Path K)) (ct : ClipType) (fr : FillRule) :
    Option (Option (Drawing K)) := do
  let s ← (← readInput svgFuncs subject (some { Svg.new with cur := .subject }))
  let c ← (Clipper.new (K := K)).addInput subject .subject
  let s ← (← readInput svgFuncs clip (some { s with cur := .clip }))
  let c ← c.addInput clip .clip
  match ← c.process env msort fuel ct fr svgFuncs (some { s with cur := .output }) with
  | none => some none
  | some (_, u) => do
    let s ← u
    let d ← s.get
    some (some d)

end River
