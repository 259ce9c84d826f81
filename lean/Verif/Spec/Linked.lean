import Verif.Model.Linked

/-! # Specification: a doubly linked list represents a sequence of nodes -/

namespace River.Links

/-- Every node of `l` points to the node after it (null for the last one) and to the node before it; `before` is what the
first one points back to. -/
def Chain (h : Links) : Option Nat → List Nat → Prop
  | _, [] => True
  | before, a :: l => h.prev a = before ∧ h.next a = l.head? ∧ Chain h (some a) l

/-- The structure is a proper null-terminated doubly linked list of exactly the nodes `l`, in that order. -/
def Represents (h : Links) (l : List Nat) : Prop := h.head = l.head? ∧ l.Nodup ∧ h.Chain none l

end River.Links
