import Verif.Model.Process

/-! # Blocks of memory taken by the broad phase (`/repo/src/src/scan_line.h:86-97`, `124-140`)

`add_segment` takes one block with `new inner_seg`, `get_point` one with `new scan_point` whenever it does not find the point. The
file contains no `delete`, and the class no destructor: the members `scan_points` and `segments` are containers of plain pointers,
which do not free what they point to. All other objects of a call of `process` live in the pools of the clipper (`vatti.h:197-203`),
which are freed with it. -/

namespace River
variable {K : Type}

/-- `get_point(x)` (`scan_line.h:124-140`): the number of blocks it takes. -/
def pointBlocks [FNum K] (x : K) (pts : List (ScanPoint K)) : Nat :=
  if pts.any (fun p => !(p.x <. x) && !(x <. p.x)) then 0 else 1

/-- `add_segment` (`scan_line.h:86-97`): the number of blocks it takes. -/
def segmentBlocks [FNum K] (pts : List (ScanPoint K)) (i : Nat) (b : Rect K) : Nat :=
  1 + pointBlocks b.min.x pts + pointBlocks b.max.x (touch b.min.x (fun p => { p with ins := p.ins ++ [i] }) pts)

/-- All calls of `add_segment` (`vatti.cpp:577-583`). -/
def scanBlocks [FNum K] (pts : List (ScanPoint K)) (i : Nat) : List (Rect K) → Nat
  | [] => 0
  | b :: bs => segmentBlocks pts i b + scanBlocks (addSegment pts i b) (i + 1) bs

/-- The blocks taken and never freed by a call of `process` (`vatti.cpp:573-584`). -/
def Clipper.leak [FTrans K] (c : Clipper K) : Nat :=
  scanBlocks [] 0 ((allNodes c.rings).map (fun v => v.seg.boundary v.pt))

end River
