import Verif.Spec.Polygons
import Verif.Spec.Ring
import Mathlib.Logic.Relation

/-! # Specification: drawing the same thing with more commands than needed -/

namespace River
variable {K : Type}

/-- Where the pen is after the commands, having been at `p` before. -/
def penAfter (p : Vec2 K) (cs : List (Cmd K)) : Vec2 K := cs.foldl (fun _ c => c.target) p

/-- All points of a contour, the control points included, have height `y`. -/
def Drawn.Flat (d : Drawn K) (y : K) : Prop :=
  d.start.y = y ∧ ∀ c ∈ d.body, match c with
    | .moveto p => p.y = y
    | .lineto p => p.y = y
    | .cubicto c1 c2 p => c1.y = y ∧ c2.y = y ∧ p.y = y

/-- `Redundant D D'`: the contours `D'` are the contours `D` without
* `line`: a line from the pen position to itself,
* `curve`: a curve from the pen position to itself with both control points there,
* `close`: the line back to the start at the end of a contour,
* `flat`: a contour of which all points have the same height. -/
inductive Redundant : List (Drawn K) → List (Drawn K) → Prop
  | line (A B : List (Drawn K)) (p : Vec2 K) (l r : List (Cmd K)) :
      Redundant (A ++ ⟨p, l ++ .lineto (penAfter p l) :: r⟩ :: B) (A ++ ⟨p, l ++ r⟩ :: B)
  | curve (A B : List (Drawn K)) (p : Vec2 K) (l r : List (Cmd K)) :
      Redundant (A ++ ⟨p, l ++ .cubicto (penAfter p l) (penAfter p l) (penAfter p l) :: r⟩ :: B) (A ++ ⟨p, l ++ r⟩ :: B)
  | close (A B : List (Drawn K)) (p : Vec2 K) (l : List (Cmd K)) :
      Redundant (A ++ ⟨p, l ++ [.lineto p]⟩ :: B) (A ++ ⟨p, l⟩ :: B)
  | flat (A B : List (Drawn K)) (d : Drawn K) (y : K) (h : d.Flat y) : Redundant (A ++ d :: B) (A ++ B)

/-- One step of tidying up polygons given by their corners:
* `again`: a corner that is given twice in succession is given once,
* `close`: the first corner is not given again at the end,
* `flat`: a polygon of which all corners have the same height is left out (also one without corners). -/
inductive TidyStep : List (List (Vec2 K)) → List (List (Vec2 K)) → Prop
  | again (A B : List (List (Vec2 K))) (l r : List (Vec2 K)) (p : Vec2 K) : TidyStep (A ++ (l ++ p :: p :: r) :: B) (A ++ (l ++ p :: r) :: B)
  | close (A B : List (List (Vec2 K))) (l : List (Vec2 K)) (p : Vec2 K) : TidyStep (A ++ (p :: l ++ [p]) :: B) (A ++ (p :: l) :: B)
  | flat (A B : List (List (Vec2 K))) (P : List (Vec2 K)) (h : ∀ p ∈ P, ∀ q ∈ P, p.y = q.y) : TidyStep (A ++ P :: B) (A ++ B)

/-- Any number of such steps. -/
def Tidies : List (List (Vec2 K)) → List (List (Vec2 K)) → Prop := Relation.ReflTransGen TidyStep

end River
