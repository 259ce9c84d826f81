import Verif.Model.ScanLine
import Verif.Model.Line
import Verif.Model.Segment
import Verif.Model.Ring

/-! # Half-edge structure (`/repo/src/src/dcel.h`, `/repo/src/src/decl.cpp`)

Objects on the heap are numbered in the order of creation. `std::set<half_edge*>` is iterated in the order of addresses, which
is unspecified; functions that iterate take the order as an argument. -/

namespace River
variable {K : Type}

/-- `point::private_edge` (`dcel.h:41-44`). -/
structure PEdge where
  edge : Nat
  emit : Bool
deriving DecidableEq, Repr

/-- `struct dcel::point` (`dcel.h:29-58`). -/
structure DPoint (K : Type) where
  p : Vec2 K
  edges : List PEdge

/-- `struct half_edge` (`dcel.h:85-113`), only straight edges exist (`line_half_edge`). `breaks` is `break_points`, in the order
of `vec2_compare`. The link to the face is left out. -/
structure HEdge (K : Type) where
  start : Nat
  fin : Nat
  twin : Option Nat
  ptype : PathType
  breaks : List (Vec2 K)

/-- `class dcel` (`dcel.h:144-175`): current path type, points, half edges (`none` = deleted). -/
structure Dcel (K : Type) where
  cur : PathType
  points : List (DPoint K)
  edges : List (Option (HEdge K))

/-- `vec2_compare_func` (`decl.cpp:87-92`). -/
def vec2Less [FNum K] (r l : Vec2 K) : Bool := if r.x <. l.x then true else if r.x ==. l.x then r.y <. l.y else false

/-- Two keys a `std::set` with this comparator takes for the same (`dcel.h:115, 172`). -/
def vec2Equiv [FNum K] (a b : Vec2 K) : Bool := !vec2Less a b && !vec2Less b a

/-- `dcel::find_or_add_point` (`decl.cpp:483-497`); `point_set` holds every point ever created. -/
def Dcel.findOrAdd [FNum K] (d : Dcel K) (q : Vec2 K) : Dcel K × Nat :=
  match d.points.findIdx? (fun p => vec2Equiv p.p q) with
  | some i => (d, i)
  | none => ({ d with points := d.points ++ [⟨q, []⟩] }, d.points.length)

/-- `point::add_edge` (`decl.cpp:121-124`) on point number `i`. -/
def addPEdge (pts : List (DPoint K)) (i : Nat) (pe : PEdge) : List (DPoint K) :=
  pts.modify i (fun p => { p with edges := p.edges ++ [pe] })

/-- `dcel::new_line_edge` (`decl.cpp:469-481`). -/
def Dcel.newLine (d : Dcel K) (s e : Nat) : Dcel K × Nat :=
  let id := d.edges.length
  ({ d with edges := d.edges ++ [some ⟨s, e, none, d.cur, []⟩],
            points := addPEdge (addPEdge d.points s ⟨id, true⟩) e ⟨id, false⟩ }, id)

/-- `dcel::add_line` (`decl.cpp:288-298`). -/
def Dcel.addLine [FNum K] (d : Dcel K) (x1 y1 x2 y2 : K) : Dcel K :=
  if (x1 ==. x2) && (y1 ==. y2) then d
  else
    let (d, s) := d.findOrAdd ⟨x1, y1⟩
    let (d, e) := d.findOrAdd ⟨x2, y2⟩
    (d.newLine s e).1

/-- The comparator of `line_half_edge::process_break_point` (`decl.cpp:219-235`). -/
def breakLess [FNum K] (s e r l : Vec2 K) : Bool :=
  let dx := s.x ≤. e.x
  let dy := s.y ≤. e.y
  if dx && (r.x <. l.x) then true
  else if !dx && (l.x <. r.x) then true
  else if dy && (r.y <. l.y) then true
  else if !dy && (l.y <. r.y) then true
  else false

/-- The loop of `process_break_point` (`decl.cpp:241-252`): edges from point to point, in the order of the sorted break points,
then the last one to the end. -/
def Dcel.chain [FNum K] (d : Dcel K) (cur fin : Nat) : List (Vec2 K) → Dcel K × List Nat
  | [] =>
    let (d, id) := d.newLine cur fin
    (d, [id])
  | p :: ps =>
    let (d, q) := d.findOrAdd p
    let (d, id) := d.newLine cur q
    let (d, ids) := d.chain q fin ps
    (d, id :: ids)

/-- `line_half_edge::process_break_point` (`decl.cpp:214-255`); `bp` is the vector after sorting. -/
def Dcel.breakEdge [FNum K] (d : Dcel K) (e : HEdge K) (bp : List (Vec2 K)) : Dcel K × List Nat :=
  if bp.isEmpty then (d, []) else d.chain e.start e.fin bp

/-- `point::remove` (`decl.cpp:126-129`) on point number `i`. -/
def removePEdge (pts : List (DPoint K)) (i : Nat) (id : Nat) : List (DPoint K) :=
  pts.modify i (fun p => { p with edges := p.edges.filter (fun pe => pe.edge != id) })

/-- One turn of the loop of `dcel::process_break` (`decl.cpp:318-331`); `sort` stands for `std::sort` of the break points. -/
def Dcel.breakOne [FNum K] (sort : Vec2 K → Vec2 K → List (Vec2 K) → List (Vec2 K)) (d : Dcel K) (id : Nat) : Option (Dcel K) := do
  let e ← (← d.edges[id]?)
  let ps ← d.points[e.start]?
  let pe ← d.points[e.fin]?
  let (d, ids) := d.breakEdge e (sort ps.p pe.p e.breaks)
  if ids.isEmpty then some d
  else some { d with edges := d.edges.set id none, points := removePEdge (removePEdge d.points e.start id) e.fin id }

/-- Insertion into `std::set<vec2, vec2_compare>` (`half_edge::add_break_point`, `dcel.h:102-104`). -/
def insertBreak [FNum K] (q : Vec2 K) : List (Vec2 K) → List (Vec2 K)
  | [] => [q]
  | p :: ps => if vec2Less p q then p :: insertBreak q ps else if vec2Less q p then q :: p :: ps else p :: ps

/-- `dcel::intersect` (`decl.cpp:100-119`): the break points recorded for the first and for the second edge, in order; `none` = the
fixed array of the line intersection overflows. -/
def dcelIntersect [FNum K] (p0 p1 p2 p3 : Vec2 K) : Option (List (Vec2 K) × List (Vec2 K)) := do
  let res ← lineIntersect p0 p1 p2 p3
  if res.length == 1 then some (res.map (·.p), res.map (·.p))
  else if res.length == 2 then
    some ((res.filter (fun i => (FNum.lit 0 <. i.t0) && (i.t0 <. FNum.lit 1))).map (·.p),
      (res.filter (fun i => (FNum.lit 0 <. i.t1) && (i.t1 <. FNum.lit 1))).map (·.p))
  else some ([], [])

/-- The end points of half edge number `id` (the members `start`, `end`, used in `dcel.h:122-124`, `decl.cpp:38-50`). -/
def Dcel.ends (d : Dcel K) (id : Nat) : Option (Vec2 K × Vec2 K) := do
  let e ← (← d.edges[id]?)
  let s ← d.points[e.start]?
  let f ← d.points[e.fin]?
  some (s.p, f.p)

/-- Recording break points at half edge number `id` (`add_break_point`, `dcel.h:102-104`). -/
def Dcel.addBreaks [FNum K] (d : Dcel K) (id : Nat) (bs : List (Vec2 K)) : Dcel K :=
  { d with edges := d.edges.modify id (Option.map fun e => { e with breaks := bs.foldl (fun l b => insertBreak b l) e.breaks }) }

/-- The callback of the broad phase for one pair (`decl.cpp:38-50`). -/
def Dcel.meet [FNum K] (d : Dcel K) (l r : Nat) : Option (Dcel K) := do
  let (p0, p1) ← d.ends l
  let (p2, p3) ← d.ends r
  let (bl, br) ← dcelIntersect p0 p1 p2 p3
  some ((d.addBreaks r br).addBreaks l bl)

/-- The second part of `dcel::process_break` (`decl.cpp:315-331`) over the edges in the given order. -/
def Dcel.breakAll [FNum K] (sort : Vec2 K → Vec2 K → List (Vec2 K) → List (Vec2 K)) (d : Dcel K) : List Nat → Option (Dcel K)
  | [] => some d
  | id :: ids => do
    let d ← d.breakOne sort id
    d.breakAll sort ids

/-- `line_half_edge::build_twin` (`decl.cpp:257-263`) for edge number `id`. -/
def Dcel.buildTwin (d : Dcel K) (id : Nat) : Option (Dcel K) := do
  let e ← (← d.edges[id]?)
  let (d, t) := d.newLine e.fin e.start
  some { d with edges := (d.edges.modify t (Option.map fun x => { x with twin := some id })).modify id (Option.map fun x => { x with twin := some t }) }

/-- The loop of `dcel::build_twin` (`decl.cpp:334-342`) over the edges in the given order. -/
def Dcel.buildTwins (d : Dcel K) : List Nat → Option (Dcel K)
  | [] => some d
  | id :: ids => do
    let d ← d.buildTwin id
    d.buildTwins ids

/-! ## Faces -/

/-- The links `split_face` works on: `next`, `prev` (`none` = null) and the end point of each half edge (`dcel.h:90-93`). -/
structure FaceGraph where
  next : Nat → Option Nat
  prev : Nat → Option Nat
  fin : Nat → Nat

/-- The rewiring of `split_face` (`decl.cpp:451-464`). -/
def FaceGraph.rewire (g : FaceGraph) (e1 e2 e3 e4 : Nat) : FaceGraph :=
  let g := { g with next := Function.update g.next e1 (some e4) }
  let g := { g with prev := Function.update g.prev e4 (some e1) }
  let g := { g with prev := Function.update g.prev e2 (some e3) }
  { g with next := Function.update g.next e3 (some e2) }

/-- The loop of `split_face` (`decl.cpp:442-465`): `index` is `point_index`. The result is `none` when a null link is followed or
the steps run out, `some none` for a null result, otherwise the new links and the start of the new face. -/
def splitLoop (g : FaceGraph) (start : Nat) : Nat → Nat → List (Nat × Nat) → Option (Option (FaceGraph × Nat))
  | 0, _, _ => none
  | fuel + 1, cur, index =>
    match index.lookup (g.fin cur) with
    | none =>
      match g.next cur with
      | none => none
      | some n => if n == start then some none else splitLoop g start fuel n ((g.fin cur, cur) :: index)
    | some e1 =>
      match g.next e1, g.next cur with
      | some e2, some e4 => some (some (g.rewire e1 e2 cur e4, e2))
      | _, _ => none

/-- `dcel::split_face` (`decl.cpp:436-467`) on the face that starts at `start`. -/
def splitFace (g : FaceGraph) (fuel start : Nat) : Option (Option (FaceGraph × Nat)) := splitLoop g start fuel start []

/-- The second loop of `build_face` (`decl.cpp:389-405`): the stack of faces still to be split (its top first), the finished
faces in the order of completion. -/
def splitAll (g : FaceGraph) (fuel : Nat) : Nat → List Nat → List Nat → Option (FaceGraph × List Nat)
  | _, [], done => some (g, done)
  | 0, _ :: _, _ => none
  | n + 1, f :: fs, done =>
    match splitFace g fuel f with
    | none => none
    | some (some (g', f')) => splitAll g' fuel n (f' :: f :: fs) done
    | some none => splitAll g fuel n fs (done ++ [f])

end River
