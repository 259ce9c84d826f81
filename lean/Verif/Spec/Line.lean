import Verif.Model.Line

/-! # Segments as point sets -/

namespace River
variable {R : Type} [Field R]

/-- The point of the line through `a` and `b` at parameter `t` (`a` at 0, `b` at 1). -/
def lerp (a b : Vec2 R) (t : R) : Vec2 R := ⟨a.x + t * (b.x - a.x), a.y + t * (b.y - a.y)⟩

/-- Squared euclidean distance. -/
def sqDist (p q : Vec2 R) : R := (p.x - q.x) ^ 2 + (p.y - q.y) ^ 2

/-- `p` lies on the line through `a` and `b`. -/
def OnLine (p a b : Vec2 R) : Prop := ∃ t : R, p = lerp a b t

variable [LinearOrder R]

/-- `p` lies on the closed segment from `a` to `b`. -/
def OnSeg (p a b : Vec2 R) : Prop := ∃ t : R, 0 ≤ t ∧ t ≤ 1 ∧ p = lerp a b t

/-- `p` lies on the segment from `a` to `b`, but is not one of its end points. -/
def InsideSeg (p a b : Vec2 R) : Prop := OnSeg p a b ∧ p ≠ a ∧ p ≠ b

/-- The four points lie on one line / the two directions are parallel. -/
def Parallel (p0 p1 p2 p3 : Vec2 R) : Prop := (p1.x - p0.x) * (p3.y - p2.y) = (p1.y - p0.y) * (p3.x - p2.x)

/-- `info` describes, without special values, a common point of the two segments with its two parameters. -/
structure IsCommon (p0 p1 p2 p3 : Vec2 R) (info : Info (Ext R)) (p : Vec2 R) (s t : R) : Prop where
  p_eq : info.p = p.fin
  t0_eq : info.t0 = .fin s
  t1_eq : info.t1 = .fin t
  s_mem : 0 ≤ s ∧ s ≤ 1
  t_mem : 0 ≤ t ∧ t ≤ 1
  on0 : p = lerp p0 p1 s
  on1 : p = lerp p2 p3 t

end River
