import Verif.Model.DcelAgain
import Verif.Spec.Dcel

/-! # Histories of a half-edge structure with several calls of `process` -/

namespace River
variable {K : Type}

/-- A call of a function of the structure: building it, or processing it. -/
inductive DStep (K : Type) where
  | call (c : DCall K)
  | process

/-- The state after one call: the structure, and what the calls of `process` so far have left. `none` is undefined behaviour. -/
def DStep.run [FNum K] (o : DOrder K) (r : Dcel K × WalkSt) : DStep K → Option (Dcel K × WalkSt)
  | .call c => some (c.run r.1, r.2)
  | .process => r.1.processAgain o r.2

/-- The state after a sequence of calls. -/
def Dcel.history [FNum K] (o : DOrder K) (steps : List (DStep K)) : Option (Dcel K × WalkSt) :=
  steps.foldlM (DStep.run o) (⟨.subject, [], []⟩, WalkSt.fresh)

/-- The calls of a history other than those of `process`. -/
def DStep.calls (steps : List (DStep K)) : List (DCall K) :=
  steps.filterMap fun c => match c with
    | .call c => some c
    | .process => none

end River
