import Verif.Spec.Ring
import Verif.Model.Break
import Verif.Spec.Line

/-! # Specification of breaking a ring at intersection points -/

namespace River
variable {K : Type}

/-- `c` is the chain of vertices that replaces `v`, broken at `cuts` (points with parameters): it starts with `v` (same
position and flags), visits the cut points in the given order with unflagged vertices, every segment is of `v`'s kind, and
the last one ends where `v`'s segment ended. -/
structure Chain (v : Vtx K) (cuts : List (Vec2 K × K)) (c : List (Vtx K)) : Prop where
  pts : c.map Vtx.pt = v.pt :: cuts.map Prod.fst
  targets : c.map (fun w => w.seg.target) = cuts.map Prod.fst ++ [v.seg.target]
  flags : c.map (fun w => (w.lmin, w.lmax)) = (v.lmin, v.lmax) :: cuts.map (fun _ => (false, false))
  kind : ∀ w ∈ c, w.seg.isCubic = v.seg.isCubic

/-- Position and flags of a vertex. -/
def Vtx.mark (v : Vtx K) : Vec2 K × Bool × Bool := (v.pt, v.lmin, v.lmax)

/-- The intersections of two segments, each with the parameter on the first and on the second one. -/
structure Meet (K : Type) where
  p : Vec2 K
  s : K
  t : K

/-- The intersections found between the segments of two vertices: the line/line, line/cubic and cubic/cubic routines; the
line/cubic routine always takes the line first, so its parameters are exchanged if the cubic comes first. -/
def meets [FTrans K] (csort : List (Cell K × Cell K) → List (Cell K × Cell K)) (v w : Vtx K) : Option (List (Meet K)) :=
  match v.seg, w.seg with
  | .line b, .line d => (lineIntersect v.pt b w.pt d).map (List.map (fun i => ⟨i.p, i.t0, i.t1⟩))
  | .line b, .cubic c1 c2 d => (lineCubicIntersect v.pt b ⟨w.pt, c1, c2, d⟩).map (List.map (fun i => ⟨i.p, i.t0, i.t1⟩))
  | .cubic c1 c2 b, .line d => (lineCubicIntersect w.pt d ⟨v.pt, c1, c2, b⟩).map (List.map (fun i => ⟨i.p, i.t1, i.t0⟩))
  | .cubic c1 c2 b, .cubic d1 d2 d =>
    some ((cubicIntersect csort ⟨v.pt, c1, c2, b⟩ ⟨w.pt, d1, d2, d⟩ 40).map (fun i => ⟨i.p, i.t0, i.t1⟩))

end River
