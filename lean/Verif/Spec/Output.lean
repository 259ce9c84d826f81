import Verif.Model.Output
import Verif.Spec.Path

/-! # Specification of the emitted contours -/

namespace River
variable {K : Type}

/-- A command that draws something. -/
def Cmd.draws : Cmd K → Bool
  | .moveto _ => false
  | _ => true

/-- The callbacks of one contour: a `move_to` (whose `from` argument is the point `org`), followed by at least one
`line_to` or `cubic_to`, each starting where the callback before it ended (`eventsFrom`). -/
def IsContour (org : Vec2 K) (es : List (Event K)) : Prop :=
  ∃ start cs, es = eventsFrom org (Cmd.moveto start :: cs) ∧ cs ≠ [] ∧ ∀ c ∈ cs, c.draws = true

/-- The point at which a sequence of callbacks ends, `p` if there is none. -/
def endPoint (p : Vec2 K) (es : List (Event K)) : Vec2 K := (es.getLast?.map (fun e => e.cmd.target)).getD p

/-- The contour ends where it starts. -/
def ClosedContour (es : List (Event K)) : Prop :=
  ∃ start, (es.head?.map Event.cmd) = some (Cmd.moveto start) ∧ endPoint start es = start

/-- The callback an event needs. -/
def Funcs.has {σ : Type} (f : Funcs K σ) : Cmd K → Bool
  | .moveto _ => f.move_to.isSome
  | .lineto _ => f.line_to.isSome
  | .cubicto .. => f.cubic_to.isSome

end River
