import Verif.Num

/-! # `rmath::vec2` (`/repo/src/include/rmath.h:16-57`) -/

namespace River

/-- `struct vec2 { num x = 0; num y = 0; }` (`rmath.h:16-25`). -/
@[ext] structure Vec2 (K : Type) where
  x : K
  y : K
deriving DecidableEq, Repr

namespace Vec2
variable {K : Type} [FNum K]

/-- `vec2 operator+(const vec2& r)` (`rmath.h:27`). -/
def add (a b : Vec2 K) : Vec2 K := ⟨a.x +. b.x, a.y +. b.y⟩
/-- `vec2 operator+(const num& n)` (`rmath.h:28`). -/
def addS (a : Vec2 K) (n : K) : Vec2 K := ⟨a.x +. n, a.y +. n⟩
/-- `vec2 operator-()` (`rmath.h:29`). -/
def neg (a : Vec2 K) : Vec2 K := ⟨FNum.neg a.x, FNum.neg a.y⟩
/-- `vec2 operator-(const vec2& r)` (`rmath.h:30`). -/
def sub (a b : Vec2 K) : Vec2 K := ⟨a.x -. b.x, a.y -. b.y⟩
/-- `vec2 operator-(const num& n)` (`rmath.h:31`). -/
def subS (a : Vec2 K) (n : K) : Vec2 K := ⟨a.x -. n, a.y -. n⟩
/-- `vec2 operator*(num sc)` (`rmath.h:32`); `operator*(double, vec2)` (`rmath.cpp:55`) is the same function. -/
def smul (a : Vec2 K) (s : K) : Vec2 K := ⟨a.x *. s, a.y *. s⟩
/-- `vec2 operator/(num sc)` (`rmath.h:33`). -/
def sdiv (a : Vec2 K) (s : K) : Vec2 K := ⟨a.x /. s, a.y /. s⟩
/-- `bool operator==` (`rmath.h:35`). -/
def beq (a b : Vec2 K) : Bool := (a.x ==. b.x) && (a.y ==. b.y)
/-- `bool operator!=` (`rmath.h:36`). -/
def bne (a b : Vec2 K) : Bool := !(beq a b)
/-- `num dot(const vec2& p)` (`rmath.h:39`). -/
def dot (a b : Vec2 K) : K := a.x *. b.x +. a.y *. b.y
/-- `num cross(const vec2& p)` (`rmath.h:40`). -/
def cross (a b : Vec2 K) : K := a.x *. b.y -. b.x *. a.y
/-- `num dist2()` (`rmath.h:42`). -/
def dist2 (a : Vec2 K) : K := a.x *. a.x +. a.y *. a.y

end Vec2

/-- Embedding of finite points into the number type with special values (not in the code; for `rmath.h:18` with special values). -/
def Vec2.fin {R : Type} (p : Vec2 R) : Vec2 (Ext R) := ⟨.fin p.x, .fin p.y⟩

/-- Equality test of points under a lawful order is equality. -/
theorem Vec2.beq_iff {K : Type} [FNum K] [LinearOrder K] [LawfulOrd K] (a b : Vec2 K) :
    Vec2.beq a b = true ↔ a = b := by
  unfold Vec2.beq
  rw [Bool.and_eq_true, LawfulOrd.eq_iff, LawfulOrd.eq_iff, Vec2.ext_iff]

end River
