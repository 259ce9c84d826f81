import Verif.Model.Vec2

/-! # `rmath::rect` (`/repo/src/include/rmath.h:59-94`, `/repo/src/src/rmath.cpp:15-19`) -/

namespace River

/-- `struct rect { point_type min; point_type max; }` (`rmath.h:59-65`). -/
structure Rect (K : Type) where
  min : Vec2 K
  max : Vec2 K
deriving DecidableEq, Repr

namespace Rect
variable {K : Type} [FNum K]

/-- `bool rect::intersect(const rect& r) const` (`rmath.cpp:15-19`); `a > b` is `b < a`. -/
def intersect (s r : Rect K) : Bool :=
  !((s.max.x <. r.min.x) || (r.max.x <. s.min.x) || (s.max.y <. r.min.y) || (r.max.y <. s.min.y))

/-- `num width() const` (`rmath.h:73`). -/
def width (r : Rect K) : K := r.max.x -. r.min.x
/-- `num height() const` (`rmath.h:74`). -/
def height (r : Rect K) : K := r.max.y -. r.min.y
/-- `point_type center() const` (`rmath.h:75`). -/
def center (r : Rect K) : Vec2 K := (r.max.add r.min).sdiv (FNum.lit 2)

/-- `rect(const point_type& p, num offset)` (`rmath.h:70-71`). -/
def around (p : Vec2 K) (offset : K) : Rect K := ⟨p.subS offset, p.addS offset⟩

/-- `rect inflated(const num& n) const` (`rmath.h:77`): the code uses `min` for both corners. -/
def inflated (r : Rect K) (n : K) : Rect K := ⟨r.min.subS n, r.min.addS n⟩

/-- The start value of `rect::from` (`rmath.h:81-83`). -/
def start : Rect K := ⟨⟨FNum.maxNum, FNum.maxNum⟩, ⟨FNum.neg FNum.maxNum, FNum.neg FNum.maxNum⟩⟩

/-- One loop step of `rect::from` (`rmath.h:86-90`). -/
def extend (out : Rect K) (e : Vec2 K) : Rect K :=
  ⟨⟨fmin out.min.x e.x, fmin out.min.y e.y⟩, ⟨fmax out.max.x e.x, fmax out.max.y e.y⟩⟩

/-- `static rect from(std::initializer_list<point_type>)` (`rmath.h:79-93`). -/
def of (ps : List (Vec2 K)) : Rect K := ps.foldl extend start

end Rect
end River
