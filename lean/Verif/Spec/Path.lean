import Verif.Model.Vec2

/-! # Specification of paths: drawing commands and the events a traversal must deliver -/

namespace River

/-- A drawing command, as issued through the API. -/
inductive Cmd (K : Type) where
  | moveto (p : Vec2 K)
  | lineto (p : Vec2 K)
  | cubicto (c1 c2 p : Vec2 K)
deriving DecidableEq, Repr

/-- The point a command ends at. -/
def Cmd.target {K : Type} : Cmd K → Vec2 K
  | .moveto p => p
  | .lineto p => p
  | .cubicto _ _ p => p

/-- A callback invocation: the command together with the `from` argument. -/
structure Event (K : Type) where
  source : Vec2 K
  cmd : Cmd K
deriving DecidableEq, Repr

/-- The events expected for a command sequence when the pen is at `cur`. -/
def eventsFrom {K : Type} (cur : Vec2 K) : List (Cmd K) → List (Event K)
  | [] => []
  | c :: cs => ⟨cur, c⟩ :: eventsFrom c.target cs

end River
