import Verif.Model.Reader
import Verif.Spec.Ring

/-! # Specification: what the calls of a reader stand for -/

namespace River
variable {K : Type}

/-- The call that reports an event of a traversal. -/
def Event.call : Event K → ReadCall K
  | ⟨frm, .moveto p⟩ => .move frm p
  | ⟨frm, .lineto p⟩ => .line frm p
  | ⟨frm, .cubicto c1 c2 p⟩ => .cubic frm c1 c2 p

/-- The call begins a contour. -/
def ReadCall.begins : ReadCall K → Bool
  | .move _ _ => true
  | _ => false

/-- The segments a call adds to its contour: nothing for a line that ends where it is reported to begin, a straight line for a
curve reported to be horizontal, otherwise the line or the pieces of the curve. -/
def ReadCall.segs [FTrans K] : ReadCall K → List (Seg K)
  | .line frm dst => (cmdEdges frm (.lineto dst)).map Prod.snd
  | .cubic frm c1 c2 dst => (cmdEdges frm (.cubicto c1 c2 dst)).map Prod.snd
  | _ => []

/-- A contour as a reader reports it. -/
structure Reported (K : Type) where
  frm : Vec2 K
  start : Vec2 K
  body : List (ReadCall K)

/-- The calls of a reported contour. -/
def Reported.calls (r : Reported K) : List (ReadCall K) := .move r.frm r.start :: r.body

/-- The calls draw and neither begin a contour nor ask for an arc. -/
def Draws (l : List (ReadCall K)) : Prop := ∀ c ∈ l, c.begins = false ∧ c ≠ .arc

end River
