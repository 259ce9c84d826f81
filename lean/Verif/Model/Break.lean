import Verif.Model.Ring
import Verif.Model.CubicCubic
import Verif.Model.ScanLine

/-! # Intersections and breaking (`/repo/src/src/vatti.cpp:571-702`, `1546-1603`)

A vertex is named by its position in the order in which `process_intersect` visits the vertices (rings in the order of
`paths_start`, each from its first vertex on). `addr` is the order of the vertex addresses, used by the comparison of
the break records. -/

namespace River
variable {K : Type}

/-- `struct break_info` (`vatti.h:59-69`). -/
structure Brk (K : Type) where
  vert : Nat
  pt : Vec2 K
  t : K
deriving DecidableEq, Repr

/-- `break_info::operator==` (`vatti.h:65-69`). -/
def Brk.same [FNum K] (a b : Brk K) : Bool := (a.vert == b.vert) && a.pt.beq b.pt && (a.t ==. b.t)

/-- `zero < t && t < one` with `zero = 0 + 1e-6`, `one = 1 - 1e-6` (`vatti.cpp:50-52`). -/
def inUnit [FNum K] (t : K) : Bool :=
  (FNum.lit 0 +. FNum.lit (1 / 1000000) <. t) && (t <. FNum.lit 1 -. FNum.lit (1 / 1000000))

/-- The loop over the intersections found, common to the three cases of `clipper::intersect` (`vatti.cpp:1562-1566`,
`1579-1583`, `1592-1596`): `a` is the vertex parameter `t0` belongs to. -/
def pushBreaks [FNum K] (a b : Nat) (l : List (Info K)) : List (Brk K) :=
  l.flatMap (fun d => (if inUnit d.t0 then [⟨a, d.p, d.t0⟩] else []) ++ (if inUnit d.t1 then [⟨b, d.p, d.t1⟩] else []))

/-- `clipper::intersect(l, r)` (`vatti.cpp:1546-1603`): the break records appended; `none` = one of the result arrays
overflows. -/
def intersectVtx [FTrans K] (csort : List (Cell K × Cell K) → List (Cell K × Cell K)) (l r : Nat) (vl vr : Vtx K) :
    Option (List (Brk K)) :=
  match vl.seg, vr.seg with
  | .line tl, .line tr => (lineIntersect vl.pt tl vr.pt tr).map (pushBreaks l r)
  | .line tl, .cubic c1 c2 tr => (lineCubicIntersect vl.pt tl (Seg.getCubic c1 c2 tr vr.pt)).map (pushBreaks l r)
  | .cubic c1 c2 tl, .line tr => (lineCubicIntersect vr.pt tr (Seg.getCubic c1 c2 tl vl.pt)).map (pushBreaks r l)
  | .cubic c1 c2 tl, .cubic d1 d2 tr =>
    some (pushBreaks l r (cubicIntersect csort (Seg.getCubic c1 c2 tl vl.pt) (Seg.getCubic d1 d2 tr vr.pt) 40))

/-- The choices left open by the C++ code: addresses, and the results of the three unstable sorts (`scan_line.h:102`, `rmath.cpp:897`, `vatti.cpp:596, 641`). -/
structure Env (K : Type) where
  /-- addresses of the broad-phase records -/
  segAddr : Nat → Nat
  /-- addresses of the vertices -/
  vtxAddr : Nat → Nat
  csort : List (Cell K × Cell K) → List (Cell K × Cell K)
  bsort : List (Brk K) → List (Brk K)
  tsort : List (Brk K) → List (Brk K)

/-- The comparison of break records (`vatti.cpp:597-600`). -/
def Env.brkLess [FNum K] (env : Env K) (l r : Brk K) : Bool :=
  if l.vert ≠ r.vert then decide (env.vtxAddr l.vert < env.vtxAddr r.vert) else l.t <. r.t

/-- The broad phase and all calls of `clipper::intersect` (`vatti.cpp:573-584`). -/
def collectBreaks [FTrans K] (env : Env K) (nodes : List (Vtx K)) : Option (List (Brk K)) :=
  (scanProcess env.segAddr (nodes.map (fun v => v.seg.boundary v.pt)) ⟨⟨FNum.lit 0, FNum.lit 0⟩, ⟨FNum.lit 0, FNum.lit 0⟩⟩).foldlM
    (fun acc c =>
      match nodes[c.1]?, nodes[c.2]? with
      | some vl, some vr => (intersectVtx env.csort c.1 c.2 vl vr).map (acc ++ ·)
      | _, _ => some acc) []

/-- The outer loop's grouping of the sorted records by vertex (`vatti.cpp:603-613`). -/
def groupRuns (l : List (Brk K)) : List (Nat × List (Brk K)) :=
  match l with
  | [] => []
  | b :: bs => (b.vert, b :: bs.takeWhile (fun x => x.vert == b.vert)) :: groupRuns (bs.dropWhile (fun x => x.vert == b.vert))
termination_by l.length
decreasing_by
  simp only [List.length_cons]
  have := (List.dropWhile_sublist (fun x : Brk K => x.vert == b.vert) (l := bs)).length_le
  omega

/-- The vertices that replace `v` when its segment, ending at `endPt`, is broken at `bs` (`vatti.cpp:615-670`): `v`
itself, then one new vertex per record. -/
def breakNode [FNum K] (tsort : List (Brk K) → List (Brk K)) (v : Vtx K) (endPt : Vec2 K) (bs : List (Brk K)) :
    List (Vtx K) :=
  match v.seg with
  | .line _ =>
    let segs := (bs.map Brk.pt ++ [endPt]).map Seg.line
    match segs with
    | [] => [v]
    | s :: segs => { v with seg := s } :: ((bs.map Brk.pt).zip segs).map (fun p => ⟨p.1, p.2, false, false⟩)
  | .cubic c1 c2 t =>
    let bs := tsort bs
    let pieces := (Seg.getCubic c1 c2 t v.pt).splitMany (bs.map Brk.t)
    let segs := (pieces.zip (bs.map Brk.pt ++ [endPt])).map (fun p => Seg.cubic p.1.p1 p.1.p2 p.2)
    match segs with
    | [] => [v]
    | s :: segs => { v with seg := s } :: ((bs.map Brk.pt).zip segs).map (fun p => ⟨p.1, p.2, false, false⟩)

/-- The main loop over one ring whose first vertex has number `off` (`vatti.cpp:603-673`). The loop visits the vertices
in the order of their addresses; since it touches only the links between a vertex and its old successor, whose position
and flags stay, the order does not matter and the vertices are treated in ring order here. -/
def breakRing [FNum K] (tsort : List (Brk K) → List (Brk K)) (groups : List (Nat × List (Brk K))) (off : Nat) (r : Ring K) :
    Ring K :=
  { r with nodes := (r.nodes.zipIdx.flatMap (fun vi =>
      match groups.lookup (off + vi.2), r.nodes[(vi.2 + 1) % r.nodes.length]? with
      | some bs, some w => breakNode tsort vi.1 w.pt bs
      | _, _ => [vi.1])) }

/-- All rings (the loop of `vatti.cpp:606-673`, by rings). -/
def breakRings [FNum K] (tsort : List (Brk K) → List (Brk K)) (groups : List (Nat × List (Brk K))) :
    Nat → List (Ring K) → List (Ring K)
  | _, [] => []
  | off, r :: rs => breakRing tsort groups off r :: breakRings tsort groups (off + r.nodes.length) rs

/-- The vertices in visiting order (`vatti.cpp:577-583`). -/
def allNodes (rings : List (Ring K)) : List (Vtx K) := rings.flatMap Ring.nodes

/-- The records after sorting and removal of duplicates, by vertex (`vatti.cpp:596-601`). -/
def breakGroups [FNum K] (env : Env K) (brks : List (Brk K)) : List (Nat × List (Brk K)) :=
  groupRuns (stdUnique Brk.same (env.bsort brks))

/-- `clipper::process_intersect` (`vatti.cpp:571-702`). -/
def processIntersect [FTrans K] (env : Env K) (rings : List (Ring K)) : Option (List (Ring K)) :=
  (collectBreaks env (allNodes rings)).map (fun brks => breakRings env.tsort (breakGroups env brks) 0 rings)

/-- What is guaranteed about the environment: distinct objects have distinct addresses, `std::sort` returns a sorted
permutation (`scan_line.h:102`, `rmath.cpp:897`, `vatti.cpp:596, 641`). -/
structure Env.Ok [FNum K] (env : Env K) : Prop where
  segAddr : Function.Injective env.segAddr
  vtxAddr : Function.Injective env.vtxAddr
  csort : IsSort env.csort
  bsort : ∀ l, (env.bsort l).Perm l ∧ (env.bsort l).Pairwise (fun a b => env.brkLess b a = false)
  tsort : ∀ l, (env.tsort l).Perm l ∧ (env.tsort l).Pairwise (fun a b => (b.t <. a.t) = false)

end River
