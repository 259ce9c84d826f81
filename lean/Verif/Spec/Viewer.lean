import Verif.Model.Viewer

/-!
# Specification of the debug viewer: what a shape looks like, what was sent, what was drawn
-/

namespace River
namespace Viewer

section
variable {K : Type}

/-- Reading gives back what was written and leaves the rest alone: the contract of Qt's stream operators. -/
def Wire.Faithful {α : Type} (w : Wire α) : Prop := ∀ a rest, w.get (w.put a ++ rest) = (a, rest)

/-- All formats keep the contract. -/
def Formats.Faithful (f : Formats K) : Prop := f.num.Faithful ∧ f.pen.Faithful ∧ f.brush.Faithful

variable [FNum K]

/-- What the user sees of a shape: lines, rectangles and curves where the program put them, in a pen whose width does not depend on the scale; points
as filled discs. -/
def Shape.look : Shape K → Item K
  | .line l pen => .line l { pen with cosmetic := true }
  | .rect r pen brush => .rect r { pen with cosmetic := true } brush
  | .cubic p0 p1 p2 p3 pen => .cubic p0 p1 p2 p3 { pen with cosmetic := true }
  | .point p pen => .ellipse ⟨p.x -. FNum.lit (1 / 2), p.y -. FNum.lit (1 / 2), (p.x +. FNum.lit (1 / 2)) -. (p.x -. FNum.lit (1 / 2)),
      (p.y +. FNum.lit (1 / 2)) -. (p.y -. FNum.lit (1 / 2))⟩ pen ⟨pen.color, 1⟩

omit [FNum K] in
/-- The shapes program `i` tried to send, in order. -/
def tried (i : ℕ) (ls : List (Label K)) : List (Shape K) := ls.filterMap fun
  | .sent j s => if j = i then some s else none
  | .refused j s => if j = i then some s else none
  | _ => none

omit [FNum K] in
/-- The shapes of program `i` that reached the viewer, in order. -/
def sent (i : ℕ) (ls : List (Label K)) : List (Shape K) := ls.filterMap fun
  | .sent j s => if j = i then some s else none
  | _ => none

omit [FNum K] in
/-- What the window drew for program `i`, in order. -/
def drawn (i : ℕ) (ls : List (Label K)) : List (Option (Item K)) := ls.filterMap fun
  | .drew j x => if j = i then some x else none
  | _ => none

omit [FNum K] in
/-- What the window drew since it was last cleared, for all programs. -/
def onScreen : List (Label K) → List (Item K)
  | ls => ls.foldl (fun acc l => match l with
    | .drew _ (some x) => acc ++ [x]
    | .cleared => []
    | _ => acc) []

omit [FNum K] in
/-- The shapes in the scene, without the cross-hair. -/
def Pane.shown (v : Pane K) : List (Item K) := v.objs.filterMap fun
  | (_, .item x) => some x
  | _ => none

omit [FNum K] in
/-- The lines of the cross-hair in the scene. -/
def Pane.crosses (v : Pane K) : List (Seg K) := v.objs.filterMap fun
  | (_, .cross l _) => some l
  | _ => none

/-- Nothing is on its way. -/
def VState.Quiet (s : VState K) : Prop := (∀ i, s.wait i = false) ∧ s.queue = []

end

end Viewer
end River
