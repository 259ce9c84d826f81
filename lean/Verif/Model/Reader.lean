import Verif.Model.Process

/-! # Adding paths through a reader of the user (`/repo/src/src/processor.cpp:45-48`, `/repo/src/src/vatti.cpp:367-382`) -/

namespace River
variable {K : Type}

/-- A call a reader makes through the `path_traverse_funcs` it is given (`river.h:25-36`). -/
inductive ReadCall (K : Type) where
  | move (frm dst : Vec2 K)
  | line (frm dst : Vec2 K)
  | cubic (frm c1 c2 dst : Vec2 K)
  | arc
deriving DecidableEq, Repr

variable [FTrans K]

/-- The callbacks `read_moveto`, `read_lineto`, `read_cubicto` (`vatti.cpp:214-302`). `arc_to` is left null by `add_path`
(`vatti.cpp:375-378`): calling it is undefined, `none`. -/
def readCall (pt : PathType) (d : Intake K) : ReadCall K → Option (Intake K)
  | .move _ dst => some (readMoveto pt d dst)
  | .line frm dst => readLineto d frm dst
  | .cubic frm c1 c2 dst => readCubicto d frm c1 c2 dst
  | .arc => none

/-- `clipper::add_path(read_path_func, path, pt, is_open)` (`vatti.cpp:367-382`, called by `processor.cpp:45-48`) with a reader
that makes these calls, one after the other. -/
def Clipper.addReader (c : Clipper K) (calls : List (ReadCall K)) (pt : PathType) : Option (Clipper K) :=
  (calls.foldlM (readCall pt) ⟨c.rings, none⟩).map (fun d => { c with rings := (d.finish pt).rings })

end River
