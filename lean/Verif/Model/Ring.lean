import Verif.Model.Segment
import Verif.Model.Path

/-! # Contour intake (`/repo/src/src/vatti.cpp:198-303`, `357-382`, `459-550`)

The vertices of a closed contour form a circular doubly linked list in the code. Here a ring is the list of its vertices
from `first` on; the `next` of the last one is the first one. That the pointer operations have the effect of these list
operations is plain from the code for `set_segment` chains; the linked active lists are treated at pointer level in
`Model/Linked.lean`. Following a null pointer (a `line_to` before any `move_to`) is the outcome `none`. -/

namespace River
variable {K : Type}

/-- `enum class path_type` (`river.h:8-11`). -/
inductive PathType where
  | subject
  | clip
deriving DecidableEq, Repr

/-- `struct vertex` (`vatti.h:38-47`) without the links; `lmin`/`lmax` are the two flags that are ever set. -/
structure Vtx (K : Type) where
  pt : Vec2 K
  seg : Seg K
  lmin : Bool := false
  lmax : Bool := false
deriving DecidableEq, Repr

/-- A closed contour with its path type (`paths_start` entry; the type is stored in the `local_minima` records,
`vatti.h:49-57`, all of a contour's minima having the same one). -/
structure Ring (K : Type) where
  nodes : List (Vtx K)
  ptype : PathType
deriving DecidableEq, Repr

/-- The contour being read (`process_path_data`, `vatti.cpp:198-212`): the point of `first` and the segments appended so
far; `prev` is the vertex the last segment ends at. -/
structure Contour (K : Type) where
  start : Vec2 K
  segs : List (Seg K)
deriving DecidableEq, Repr

/-- Ordinate of a vertex (the member `pt.y`, as in `vatti.cpp:500-553`). -/
def Vtx.y (v : Vtx K) : K := v.pt.y

/-- Joining the end to the start (`vatti.cpp:462-473`); `none`: the contour is ignored. -/
def closeContour [FNum K] (c : Contour K) : Option (List (Vtx K)) :=
  match c.segs.getLast? with
  | none => none                                        -- `!(first->next)`
  | some last =>
    if Vec2.bne c.start last.target then
      -- `set_segment(end, first, new_lineto(first->pt))`
      some (((c.start :: c.segs.map Seg.target).zip (c.segs ++ [Seg.line c.start])).map (fun p => ⟨p.1, p.2, false, false⟩))
    else
      -- `set_segment(prev, first, prev->next_seg)`: `first->pt` becomes the target of the last segment
      if c.segs.length = 1 then none                    -- `first->next == first`
      else some (((last.target :: c.segs.map Seg.target).zip c.segs).map (fun p => ⟨p.1, p.2, false, false⟩))

/-- The backward walk that finds the direction into `first` (`vatti.cpp:504-515`) on the ordinates in the order visited
(`first`, `first->prev`, ..., `first`); `none` is `total_horz`. -/
def walkBack [FNum K] : List K → Option Bool
  | e :: p :: ys => if e ==. p then walkBack (p :: ys) else some (e <. p)
  | _ => none

/-- `going_down0` of a ring (`vatti.cpp:501-519`). -/
def goingDown0 [FNum K] (nodes : List (Vtx K)) : Option Bool :=
  match nodes with
  | [] => none
  | v :: vs => walkBack (v.y :: ((v :: vs).map Vtx.y).reverse)

/-- The forward loop and the treatment of the last vertex (`vatti.cpp:521-548`). -/
def flagLoop [FNum K] (g0 : Bool) : Bool → List (Vtx K) → List (Vtx K)
  | _, [] => []
  | g, [v] => if g != g0 then (if g0 then [{ v with lmax := true }] else [{ v with lmin := true }]) else [v]
  | g, v :: w :: vs =>
    if (v.y <. w.y) && g then { v with lmin := true } :: flagLoop g0 false (w :: vs)
    else if (w.y <. v.y) && !g then { v with lmax := true } :: flagLoop g0 true (w :: vs)
    else v :: flagLoop g0 g (w :: vs)

/-- `insert_vertex_list` (`vatti.cpp:459-550`); `none`: the contour is ignored. -/
def insertVertexList [FNum K] (c : Contour K) (pt : PathType) : Option (Ring K) :=
  match closeContour c with
  | none => none
  | some nodes =>
    match goingDown0 nodes with
    | none => none
    | some g0 => some ⟨flagLoop g0 g0 nodes, pt⟩

/-- State of the intake: finished rings (`paths_start`) and the contour being read (`none`: `first == nullptr`) (`vatti.cpp:206-230`). -/
structure Intake (K : Type) where
  rings : List (Ring K)
  cur : Option (Contour K)

/-- Hand the contour read so far to `insert_vertex_list` (`vatti.cpp:218-224`, `381`). -/
def Intake.finish [FNum K] (d : Intake K) (pt : PathType) : Intake K :=
  match d.cur with
  | none => d
  | some c =>
    match insertVertexList c pt with
    | none => ⟨d.rings, none⟩
    | some r => ⟨d.rings ++ [r], none⟩

/-- Append a vertex reached by `s` (`new_cur_vertex`, `set_segment`, `next_loop`); `none` if there is no `prev` (`vatti.cpp:232-290`). -/
def Intake.append (d : Intake K) (s : Seg K) : Option (Intake K) :=
  match d.cur with
  | none => none
  | some c => some { d with cur := some { c with segs := c.segs ++ [s] } }

/-- `read_moveto` (`vatti.cpp:214-230`). -/
def readMoveto [FNum K] (pt : PathType) (d : Intake K) (dst : Vec2 K) : Intake K :=
  { d.finish pt with cur := some ⟨dst, []⟩ }

/-- `read_lineto` (`vatti.cpp:232-240`). -/
def readLineto [FNum K] (d : Intake K) (frm dst : Vec2 K) : Option (Intake K) :=
  if Vec2.bne frm dst then d.append (.line dst) else some d

/-- The segments `read_cubicto` (`vatti.cpp:248-302`) appends for a curve that is not horizontal. -/
def cubicSegs [FTrans K] (b : Cubic K) : List (Seg K) := b.readPieces.map (fun q => Seg.cubic q.p1 q.p2 q.p3)

/-- `read_cubicto` (`vatti.cpp:248-302`). -/
def readCubicto [FTrans K] (d : Intake K) (frm c1 c2 dst : Vec2 K) : Option (Intake K) :=
  if (frm.y ==. c1.y) && (c1.y ==. c2.y) && (c2.y ==. dst.y) then readLineto d frm dst
  else (cubicSegs ⟨frm, c1, c2, dst⟩).foldlM Intake.append d

/-- The three callbacks handed to the path reader (`vatti.cpp:375-378`); `arc_to` is null. `none` = undefined
behaviour has happened. -/
def intakeFuncs [FTrans K] (pt : PathType) : Funcs K (Option (Intake K)) where
  move_to := some (fun _ dst u => u.map (fun d => readMoveto pt d dst))
  line_to := some (fun frm dst u => u.bind (fun d => readLineto d frm dst))
  cubic_to := some (fun frm c1 c2 dst u => u.bind (fun d => readCubicto d frm c1 c2 dst))

/-- `add_path(read_path, &path, polytype, is_open)` (`vatti.cpp:367-382`) for a `path` object (`read_path`,
`vatti.cpp:304-308`). -/
def addPath1 [FTrans K] (pt : PathType) (rings : List (Ring K)) (p : Path K) : Option (List (Ring K)) :=
  match p.traverse (intakeFuncs pt) (some ⟨rings, none⟩) with
  | none => none
  | some none => none
  | some (some d) => some (d.finish pt).rings

/-- `clipper::add_path(const paths&, path_type, bool)` (`vatti.cpp:357-365`). -/
def addPaths [FTrans K] (pt : PathType) (rings : List (Ring K)) : List (Path K) → Option (List (Ring K))
  | [] => some rings
  | p :: ps =>
    if p.data.length > 1 then (addPath1 pt rings p).bind (fun r => addPaths pt r ps) else addPaths pt rings ps

end River
