import Verif.Model.Double
import Verif.Spec.Path

/-! # Doubles that hold given numbers -/

namespace River

/-- `d` is a finite double, and its value is `q`. -/
def Dbl.Is (d : Dbl) (q : ℚ) : Prop := ∃ s m, 0 ≤ m ∧ d = .num s m ∧ Dbl.val s m = q

/-- A point with finite coordinates, which are those of `q`. -/
def Vec2.Is (p : Vec2 Dbl) (q : Vec2 ℚ) : Prop := p.x.Is q.x ∧ p.y.Is q.y

/-- The point with its coordinates multiplied by `c`. -/
def Vec2.times (c : ℚ) (q : Vec2 ℚ) : Vec2 ℚ := ⟨c * q.x, c * q.y⟩

/-- Polygons with all coordinates multiplied by `c`. -/
def timesAll (c : ℚ) (Ps : List (List (Vec2 ℚ))) : List (List (Vec2 ℚ)) := Ps.map (fun P => P.map (Vec2.times c))

/-- The same command, with finite coordinates that are those of the other one. -/
def Cmd.Is : Cmd Dbl → Cmd ℚ → Prop
  | .moveto p, .moveto q => p.Is q
  | .lineto p, .lineto q => p.Is q
  | .cubicto a b p, .cubicto a' b' q => a.Is a' ∧ b.Is b' ∧ p.Is q
  | _, _ => False

/-- The same callback, with finite coordinates that are those of the other one. -/
def Event.Is (e : Event Dbl) (f : Event ℚ) : Prop := e.source.Is f.source ∧ e.cmd.Is f.cmd

end River
