import Verif.Model.Edge

/-! # Output polygons and bounds (`/repo/src/src/vatti.cpp:1246-1440`, `vatti.h:95-123`)

Objects live in pools that are never emptied, so a pointer to a bound or polygon is its number in order of creation. The
links of the output bound list (OBL) are kept as in the code (`prev`/`next` fields). Following a null pointer is `none`. -/

namespace River
variable {K : Type}

/-- `struct out_bound` (`vatti.h:110-123`). -/
structure Bound (K : Type) where
  prev : Option Nat := none
  next : Option Nat := none
  owner : Nat
  currEdge : Option Nat
  stopX : K
  windDx : Int
deriving DecidableEq, Repr

/-- `is_up()` (`vatti.h:120-122`). -/
def Bound.isUp (b : Bound K) : Bool := decide (b.windDx < 0)

/-- `struct out_polygon` (`vatti.h:95-108`). Its `idx` is its number (`vatti.cpp:1361-1362`); `owner` and `is_open` are
never read. -/
structure Poly (K : Type) where
  origin : Vec2 K
  upBound : Option Nat
  downBound : Option Nat
  upPath : List (Seg K)
  downPath : List (Seg K)
  complete : Bool := false
deriving DecidableEq, Repr

/-- The pools of bounds and polygons (`output_list` holds the polygons in order of creation) and `obl_first` (`vatti.cpp:1362`, `969`). -/
structure Outs (K : Type) where
  bounds : List (Bound K)
  polys : List (Poly K)
  oblFirst : Option Nat
deriving DecidableEq, Repr

namespace Outs

/-- Change bound `i` (an assignment through a pointer, as in `vatti.cpp:970-976`). -/
def modB (o : Outs K) (i : Nat) (f : Bound K → Bound K) : Outs K := { o with bounds := o.bounds.modify i f }

/-- Change polygon `i` (an assignment through a pointer, as in `vatti.cpp:1362-1380`). -/
def modP (o : Outs K) (i : Nat) (f : Poly K → Poly K) : Outs K := { o with polys := o.polys.modify i f }

/-- Append a segment at the end of bound `b` (`b->is_up() ? owner->up_path : owner->down_path`) (`vatti.cpp:1392-1410`). -/
def push (o : Outs K) (b : Bound K) (s : Seg K) : Outs K :=
  o.modP b.owner (fun p => if b.isUp then { p with upPath := p.upPath ++ [s] } else { p with downPath := p.downPath ++ [s] })

/-- `delete_obl_bound` (`vatti.cpp:1431-1440`). -/
def deleteObl (o : Outs K) (b : Nat) : Outs K :=
  match o.bounds[b]? with
  | none => o
  | some bb =>
    let o1 := match bb.prev with
      | some p => o.modB p (fun x => { x with next := bb.next })
      | none => { o with oblFirst := bb.next }
    match bb.next with
    | some n => o1.modB n (fun x => { x with prev := bb.prev })
    | none => o1

variable [FNum K]

/-- `new_output(a, b)` (`vatti.cpp:1358-1390`), the part concerning bounds and polygons; the two edges get the bounds
numbered `o.bounds.length` (for `a`) and `o.bounds.length + 1` (for `b`). -/
def newOutput (o : Outs K) (a b : Edge K) : Outs K :=
  let n := o.bounds.length
  let ba : Bound K := { owner := o.polys.length, currEdge := some a.eid, stopX := a.currX, windDx := a.windDx }
  let bb : Bound K := { owner := o.polys.length, currEdge := some b.eid, stopX := b.currX, windDx := b.windDx }
  -- `if (!up->is_up()) std::swap(up, down)`
  let up := if ba.isUp then a else b
  let down := if ba.isUp then b else a
  let p : Poly K :=
    { origin := down.bot
      upBound := some (if ba.isUp then n else n + 1)
      downBound := some (if ba.isUp then n + 1 else n)
      upPath := if Vec2.bne up.bot down.bot then [Seg.line up.bot] else []
      downPath := [] }
  { o with bounds := o.bounds ++ [ba, bb], polys := o.polys ++ [p] }

/-- `update_bound(bound, new_edge)` (`vatti.cpp:1393-1408`), the part concerning bounds and polygons. -/
def updateBound (o : Outs K) (i : Nat) (e : Edge K) : Option (Outs K) :=
  match o.bounds[i]? with
  | none => none
  | some b =>
    let o1 := if e.currX ==. b.stopX then o
      else if b.isUp then o.push b (Seg.line e.bot) else o.push b (Seg.line ⟨b.stopX, e.bot.y⟩)
    some (o1.modB i (fun x => { x with currEdge := some e.eid }))

/-- The merging of polygon `s` into polygon `d`, whose bound `db` met a bound of `s` (`vatti.cpp:1326-1351`). `none`: `s`
has no such bound any more. -/
def merge (o : Outs K) (dUp : Bool) (d s : Nat) : Option (Outs K) :=
  match o.polys[s]? with
  | none => none
  | some ps =>
    let clear := fun (x : Poly K) =>
      ({ x with upPath := [], downPath := [], upBound := none, downBound := none, complete := true } : Poly K)
    if dUp then
      match ps.upBound with
      | none => none
      | some ub =>
        some (((o.modP d (fun x => { x with
          upPath := x.upPath ++ ps.downPath.reverse ++ ps.upPath, upBound := some ub })).modB ub
            (fun x => { x with owner := d })).modP s clear)
    else
      match ps.downBound with
      | none => none
      | some db =>
        some (((o.modP d (fun x => { x with
          downPath := x.downPath ++ ps.upPath.reverse ++ ps.downPath, downBound := some db })).modB db
            (fun x => { x with owner := d })).modP s clear)

/-- `join_output(a, b, y)` (`vatti.cpp:1292-1355`), the part concerning bounds and polygons; the caller clears the
`bound` of the two current edges. -/
def join (o : Outs K) (i j : Nat) (y : K) : Option (Outs K) :=
  let o0 := (o.modB i (fun x => { x with currEdge := none })).modB j (fun x => { x with currEdge := none })
  match o0.bounds[i]?, o0.bounds[j]? with
  | some a, some b =>
    let o1 := if a.stopX ==. b.stopX then o0
      else if a.isUp then o0.push a (Seg.line ⟨b.stopX, y⟩) else o0.push a (Seg.line ⟨a.stopX, y⟩)
    if a.owner = b.owner then
      some (((o1.modP a.owner (fun p => { p with complete := true })).deleteObl i).deleteObl j)
    else
      (if b.owner < a.owner then o1.merge b.isUp b.owner a.owner else o1.merge a.isUp a.owner b.owner).map
        (fun o2 => (o2.deleteObl i).deleteObl j)
  | _, _ => none

end Outs

/-! ## Writing the result -/

/-- `write_path` (`vatti.cpp:1246-1270`): the callbacks made for a list of segments, `last` being the current point;
`none`: a null callback is called. -/
def writePath {σ : Type} (f : Funcs K σ) : List (Seg K) → Vec2 K → σ → Option (Vec2 K × σ)
  | [], last, u => some (last, u)
  | Seg.line t :: l, last, u => f.line_to.bind (fun g => writePath f l t (g last t u))
  | Seg.cubic c1 c2 t :: l, last, u => f.cubic_to.bind (fun g => writePath f l t (g last c1 c2 t u))

/-- One polygon in `build_output` (`vatti.cpp:1275-1287`). -/
def writePoly {σ : Type} [FNum K] (f : Funcs K σ) (p : Poly K) (u : σ) : Option σ :=
  if p.complete && !(p.upPath.isEmpty && p.downPath.isEmpty) then
    f.move_to.bind (fun g =>
      (writePath f p.upPath p.origin (g ⟨FNum.lit 0, FNum.lit 0⟩ p.origin u)).bind (fun r =>
        (writePath f p.downPath.reverse r.1 r.2).map (fun r => r.2)))
  else some u

/-- `build_output` (`vatti.cpp:1272-1289`). -/
def buildOutput {σ : Type} [FNum K] (f : Funcs K σ) (polys : List (Poly K)) (u : σ) : Option σ :=
  polys.foldlM (fun u p => writePoly f p u) u

/-- `write_moveto`, `write_lineto`, `write_cubicto` (`vatti.cpp:310-327`): appending to a list of paths; `back()` of an
empty vector is undefined, which `writePoly` excludes by calling `move_to` first (the list stays empty here). -/
def pathsWriter : Funcs K (List (Path K)) where
  move_to := some (fun _ t ps => ps ++ [Path.empty.moveto t])
  line_to := some (fun _ t ps => ps.modify (ps.length - 1) (fun p => p.lineto t))
  cubic_to := some (fun _ c1 c2 t ps => ps.modify (ps.length - 1) (fun p => p.cubicto c1 c2 t))

end River
