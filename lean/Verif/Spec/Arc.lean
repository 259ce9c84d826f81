import Verif.Num
import Verif.Model.Arc

/-! # What an arc is -/

namespace River

/-- The point at distance `r` from `c` in direction `φ`. -/
noncomputable def polar (c : Vec2 ℝ) (r φ : ℝ) : Vec2 ℝ := ⟨c.x + r * Real.cos φ, c.y + r * Real.sin φ⟩

/-- Two angles name the same direction. -/
def SameDir (a b : ℝ) : Prop := ∃ k : ℤ, a = b + k * (2 * Real.pi)

/-- The points of an arc as described by its accessors: from `start_rad` on, through the swept angle. -/
noncomputable def Arc.points (a : Arc ℝ) (t : ℝ) : Vec2 ℝ := polar a.center a.radius (a.startRad + t * a.sweep)

/-- Directions in which the ordinate along a circle stops growing or falling: the top and the bottom. -/
def Turning (φ : ℝ) : Prop := Real.cos φ = 0

end River
