import Verif.Model.Dcel
import Verif.Model.Arc

/-! # Half-edge structure: order around a point, faces, the whole process (`/repo/src/src/decl.cpp`)

`none` is undefined behaviour (a null pointer followed, an array overrun) or a loop that never ends. -/

namespace River
variable {K : Type}

/-! ## The edges around a point -/

/-- `line_half_edge::get_sort_data` (`decl.cpp:265-276`) for an edge from `s` to `e`. -/
def sortAngle [FAngle K] (s e : Vec2 K) : K :=
  let l := e.sub s
  let a := FAngle.atan2 l.y l.x
  if a ==. FNum.neg FAngle.pi then FNum.neg a else a

/-- The comparator of `point::sort` (`decl.cpp:149-167`). `angle` is what `sort_data` holds (`decl.cpp:139-147`), `addr` the address
of a half edge; all edges are straight, so nothing is thrown. -/
def peLess [FNum K] (angle : PEdge → K) (addr : Nat → Nat) (l r : PEdge) : Bool :=
  if angle l <. angle r then true
  else if angle r <. angle l then false
  else if l.emit && !r.emit then true
  else if !l.emit && r.emit then false
  else decide (addr r.edge < addr l.edge)

/-- The angle an entry of point number `p` is sorted by (`decl.cpp:139-147`): that of the edge, or of its twin if the edge ends
here; `none`: the twin is null. -/
def Dcel.angle [FAngle K] (d : Dcel K) (pe : PEdge) : Option K := do
  let e ← (← d.edges[pe.edge]?)
  if pe.emit then
    let (s, f) ← d.ends pe.edge
    some (sortAngle s f)
  else
    let (s, f) ← d.ends (← e.twin)
    some (sortAngle s f)

/-- `point::get_next` (`decl.cpp:176-196`) in the list `L` of a point: from the entry of `e` on, around the list, to the first entry
that leaves the point and has no predecessor. A null result (the edge is not in the list) is followed by the caller, and without
such an entry the loop does not end: both are `none`. -/
def getNext (g : FaceGraph) (L : List PEdge) (e : Nat) : Option Nat :=
  (L.findIdx? (fun pe => pe.edge == e)).bind (fun i =>
    ((L.drop (i + 1) ++ L.take (i + 1)).find? (fun pe => pe.emit && (g.prev pe.edge).isNone)).map PEdge.edge)

/-- `point::get_prev` (`decl.cpp:198-212`). `none`: null. -/
def getPrev (L : List PEdge) (e : Nat) : Option Nat :=
  (L.findIdx? (fun pe => pe.edge == e)).bind (fun i =>
    if i = 0 then L.getLast?.map PEdge.edge else (L[i - 1]?).map PEdge.edge)

/-! ## Walking around the faces -/

/-- The links between half edges, the `face` of each half edge (`none` = null) and the vector `faces`: the `start` of each face
(`dcel.h:137-140`). -/
structure WalkSt where
  g : FaceGraph
  face : Nat → Option Nat
  faces : List Nat

/-- `cur->next = n; n->prev = cur` (`decl.cpp:377-378`, `381-382`). -/
def FaceGraph.link (g : FaceGraph) (cur n : Nat) : FaceGraph :=
  { g with next := Function.update g.next cur (some n), prev := Function.update g.prev n (some cur) }

/-- The inner loop of `build_face` (`decl.cpp:362-386`) for the face number `f` that starts at `e` in point `loopStart`; `pts` are
the lists of the points. At most `fuel` turns. -/
def walk (pts : Nat → List PEdge) (f e loopStart : Nat) : Nat → WalkSt → Nat → Option WalkSt
  | 0, _, _ => none
  | fuel + 1, s, cur =>
    if (s.g.next cur).isSome then some s
    else
      (getNext s.g (pts (s.g.fin cur)) cur).bind (fun n =>
        let s' : WalkSt := { s with g := s.g.link cur n, face := Function.update s.face cur (some f) }
        if s'.g.fin n == loopStart then some { s' with g := s'.g.link n e }
        else walk pts f e loopStart fuel s' n)

/-- The loop of `build_face` over the half edges (`decl.cpp:352-387`); `start` is the start point of each half edge. -/
def walkAll (pts : Nat → List PEdge) (start : Nat → Nat) (fuel : Nat) : List Nat → WalkSt → Option WalkSt
  | [], s => some s
  | e :: es, s =>
    if (s.g.next e).isSome then walkAll pts start fuel es s
    else
      (walk pts s.faces.length e (start e) fuel { s with faces := s.faces ++ [e] } e).bind (walkAll pts start fuel es)

/-! ## The whole process -/

/-- The numbers of the half edges that exist (`dcel.h:173`). -/
def Dcel.live (d : Dcel K) : List Nat := (List.range d.edges.length).filter (fun i => (d.edges[i]?.join).isSome)

/-- What the language leaves open: the order of addresses in which a set of half edges is visited, the addresses of the objects of
the broad phase, the result of `std::sort` on break points (for given ends) and on the entries of a point (`dcel.h:173`, `scan_line.h:102`, `decl.cpp:237, 169`). -/
structure DOrder (K : Type) where
  iter : List Nat → List Nat
  scanAddr : Nat → Nat
  sortB : Vec2 K → Vec2 K → List (Vec2 K) → List (Vec2 K)
  sortP : Dcel K → List PEdge → List PEdge

/-- The broad phase of `process_break` (`decl.cpp:309-313`) over the half edges `ids`: the calls of the callback, in order. -/
def Dcel.pairs [FNum K] (o : DOrder K) (d : Dcel K) (ids : List Nat) : List (Nat × Nat) :=
  let box : Nat → Rect K := fun i => match d.ends i with
    | some (s, f) => Rect.of [s, f]
    | none => Rect.start
  (scanProcess o.scanAddr (ids.map box) Rect.start).map (fun c => (ids.getD c.1 0, ids.getD c.2 0))

/-- The callbacks of the broad phase one after the other (`decl.cpp:313`). -/
def Dcel.meetAll [FNum K] (d : Dcel K) : List (Nat × Nat) → Option (Dcel K)
  | [] => some d
  | c :: cs => (d.meet c.1 c.2).bind (fun d => d.meetAll cs)

/-- `dcel::process_break` (`decl.cpp:307-332`). -/
def Dcel.processBreak [FNum K] (o : DOrder K) (d : Dcel K) : Option (Dcel K) :=
  (d.meetAll (d.pairs o (o.iter d.live))).bind (fun d => d.breakAll o.sortB (o.iter d.live))

/-- The links before `build_face`: all null (`dcel.h:92-93`). -/
def Dcel.graph (d : Dcel K) : FaceGraph where
  next _ := none
  prev _ := none
  fin i := (d.edges[i]?.join.map HEdge.fin).getD 0

/-- The start point of half edge number `i` (`dcel.h:85-89`). -/
def Dcel.startOf (d : Dcel K) (i : Nat) : Nat := (d.edges[i]?.join.map HEdge.start).getD 0

/-- The sorted list of point number `i` (`decl.cpp:346-349`). -/
def Dcel.around (o : DOrder K) (d : Dcel K) (i : Nat) : List PEdge := o.sortP d ((d.points[i]?.map DPoint.edges).getD [])

/-- The first part of `dcel::build_face` (`decl.cpp:344-387`). -/
def Dcel.walkFaces (o : DOrder K) (d : Dcel K) : Option WalkSt :=
  walkAll (d.around o) d.startOf (d.live.length + 1) (o.iter d.live) ⟨d.graph, fun _ => none, []⟩

/-- `dcel::build_face` (`decl.cpp:344-405`): the links and `face` fields at the end, and the starts of the faces. -/
def Dcel.buildFace (o : DOrder K) (d : Dcel K) : Option WalkSt :=
  (d.walkFaces o).bind (fun s =>
    (splitAll s.g d.live.length (2 * d.live.length) s.faces.reverse []).map (fun r => { s with g := r.1, faces := r.2 }))

/-- `dcel::process` (`decl.cpp:300-305`): the structure with twins, and the faces. -/
def Dcel.process [FNum K] (o : DOrder K) (d : Dcel K) : Option (Dcel K × WalkSt) :=
  (d.processBreak o).bind (fun d => (d.buildTwins (o.iter d.live)).bind (fun d => (d.buildFace o).map (fun s => (d, s))))

end River
