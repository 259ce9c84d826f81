import Verif.Model.Bezier

/-! # `river::segment` (`/repo/src/src/segment.h`, `/repo/src/src/segment.cpp`)

The two segment kinds the clipper creates; `seg_moveto` and `seg_arcto` are never stored in a ring (`vatti.cpp:232-303`
creates only `seg_lineto` and `seg_cubicto`). -/

namespace River
variable {K : Type}

/-- `seg_lineto` (`segment.h:58-78`) and `seg_cubicto` (`segment.h:111-138`). -/
inductive Seg (K : Type) where
  | line (target : Vec2 K)
  | cubic (ctrl1 ctrl2 target : Vec2 K)
deriving DecidableEq, Repr

namespace Seg

/-- `get_target()` (`segment.cpp:13-15`, `31-33`). -/
def target : Seg K → Vec2 K
  | line t => t
  | cubic _ _ t => t

/-- `get_type()` (`segment.cpp:17-20`, `35-38`): `true` for `cubicto`. -/
def isCubic : Seg K → Bool
  | line _ => false
  | cubic .. => true

/-- `seg_cubicto::get_cubic(from)` (`segment.h:119-121`). -/
def getCubic (c1 c2 t frm : Vec2 K) : Cubic K := ⟨frm, c1, c2, t⟩

/-- `reverse(from)` (`segment.h:72-74`, `133-136`). -/
def reverse (s : Seg K) (frm : Vec2 K) : Seg K :=
  match s with
  | line _ => line frm
  | cubic c1 c2 _ => cubic c2 c1 frm

/-- The linear formula shared by `seg_lineto::curr_x` (`segment.h:75-77`) and `seg_cubicto::curr_x`
(`segment.cpp:48`). -/
def linX [FNum K] (target frm : Vec2 K) (y : K) : K :=
  (target.x -. frm.x) *. (y -. frm.y) /. (target.y -. frm.y) +. frm.x

/-- `curr_x(from, y)` (`segment.h:75-77`, `segment.cpp:40-51`). -/
def currX [FTrans K] (s : Seg K) (frm : Vec2 K) (y : K) : K :=
  match s with
  | line t => linX t frm y
  | cubic c1 c2 t =>
    let c := getCubic c1 c2 t frm
    match c.pointAtY y with
    | [r] => (c.pointAt r).x
    | _ => linX t frm y

/-- `get_boundary(from)` (`segment.h:65`, `124-126`). -/
def boundary [FTrans K] (s : Seg K) (frm : Vec2 K) : Rect K :=
  match s with
  | line t => Rect.of [t, frm]
  | cubic c1 c2 t => (getCubic c1 c2 t frm).getBoundary

end Seg
end River
