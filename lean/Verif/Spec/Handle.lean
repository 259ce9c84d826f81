import Verif.Model.Handle

/-! # Specification: programs with variables of type `processor` -/

namespace River
variable {K : Type}

/-- The variables alive after an operation; `none` if the program would not compile: a variable used outside its life time or
created twice. -/
def POp.scope (l : List Nat) : POp K → Option (List Nat)
  | .create v => if v ∈ l then none else some (v :: l)
  | .copy v w => if v ∈ l ∨ w ∉ l then none else some (v :: l)
  | .assign v w => if v ∈ l ∧ w ∈ l then some l else none
  | .destroy v => if v ∈ l then some (l.erase v) else none
  | .add v _ _ => if v ∈ l then some l else none
  | .read v _ _ => if v ∈ l then some l else none
  | .process v _ _ _ _ _ _ => if v ∈ l then some l else none

/-- A whole program: every variable is used only during its life time and destroyed in the end. -/
def WholeProg (p : List (POp K)) : Prop := p.foldlM POp.scope [] = some []

/-- The operation makes two variables share an object: a copy, or an assignment from a different variable. -/
def POp.Shares : POp K → Prop
  | .copy _ _ => True
  | .assign v w => v ≠ w
  | _ => False

/-- The variable an operation works on. -/
def POp.var : POp K → Nat
  | .create v => v
  | .copy v _ => v
  | .assign v _ => v
  | .destroy v => v
  | .add v _ _ => v
  | .read v _ _ => v
  | .process v _ _ _ _ _ _ => v

end River
