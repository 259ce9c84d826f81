import Verif.Model.Rect

/-! # Broad phase: `scan_line::scan_line` (`/repo/src/src/scan_line.h`)

The `inner_seg` objects are numbered in the order of `add_segment`; `addr i` is the address of object `i`, which decides
the iteration order of `std::set<inner_seg*>`. -/

namespace River
variable {K : Type}

/-- `struct scan_point` (`scan_line.h:50-56`). -/
structure ScanPoint (K : Type) where
  x : K
  ins : List Nat
  outs : List Nat

/-- `get_point(x)` followed by an update of the point found or created (`scan_line.h:124-140`): `scan_points` is the
list of the points in the order of `scan_point_compare`. -/
def touch [FNum K] (x : K) (f : ScanPoint K → ScanPoint K) : List (ScanPoint K) → List (ScanPoint K)
  | [] => [f ⟨x, [], []⟩]
  | p :: ps =>
    if p.x <. x then p :: touch x f ps
    else if x <. p.x then f ⟨x, [], []⟩ :: p :: ps
    else f p :: ps

/-- `add_segment` (`scan_line.h:86-97`) for object `i` with box `b`. -/
def addSegment [FNum K] (pts : List (ScanPoint K)) (i : Nat) (b : Rect K) : List (ScanPoint K) :=
  touch b.max.x (fun p => { p with outs := p.outs ++ [i] }) (touch b.min.x (fun p => { p with ins := p.ins ++ [i] }) pts)

/-- All `add_segment` calls, from object number `i` on (`vatti.cpp:577-583`, `decl.cpp:310-312`). -/
def addSegments [FNum K] (pts : List (ScanPoint K)) (i : Nat) : List (Rect K) → List (ScanPoint K)
  | [] => pts
  | b :: bs => addSegments (addSegment pts i b) (i + 1) bs

/-- `current.insert(in)` (`scan_line.h:115`). -/
def insertAddr (addr : Nat → Nat) (i : Nat) : List Nat → List Nat
  | [] => [i]
  | c :: cs =>
    if addr c < addr i then c :: insertAddr addr i cs else if addr i < addr c then i :: c :: cs else c :: cs

/-- The loop over `p->in` (`scan_line.h:106-116`): `current` afterwards and the calls made, in order. -/
def scanIns [FNum K] (addr : Nat → Nat) (boxes : Nat → Rect K) :
    List Nat → List Nat → List Nat × List (Nat × Nat)
  | cur, [] => (cur, [])
  | cur, i :: is =>
    let calls := (cur.filter (fun c => (boxes c).intersect (boxes i))).map (fun c => (c, i))
    let r := scanIns addr boxes (insertAddr addr i cur) is
    (r.1, calls ++ r.2)

/-- The loop over `scan_points` (`scan_line.h:104-121`): all calls made, in order. -/
def scanPoints [FNum K] (addr : Nat → Nat) (boxes : Nat → Rect K) : List Nat → List (ScanPoint K) → List (Nat × Nat)
  | _, [] => []
  | cur, p :: ps =>
    let r := scanIns addr boxes cur p.ins
    r.2 ++ scanPoints addr boxes (r.1.filter (fun c => !p.outs.contains c)) ps

/-- `add_segment` for every box, then `process` (`scan_line.h:99-122`): the calls `intersect(c->seg, in->seg)`. -/
def scanProcess [FNum K] (addr : Nat → Nat) (bs : List (Rect K)) (dflt : Rect K) : List (Nat × Nat) :=
  scanPoints addr (fun i => bs.getD i dflt) [] (addSegments [] 0 bs)

end River
