import Verif.Model.MakePath
import Verif.Spec.Path

/-! # Specification of the text syntax -/

namespace River
namespace MakePath
variable {K : Type}

/-- Only white space. -/
def IsWs (w : List Char) : Prop := ∀ c ∈ w, isSp c = true

/-- `w number`: optional white space, then a number as the numeric primitive reads it. -/
inductive NumAt (L : NumLex K) : List Char → K → List Char → Prop
  | mk (w s : List Char) (k : K) (r : List Char) (hw : IsWs w) (hs : ∀ c t, s = c :: t → isSp c = false)
      (h : L.lex s = some (k, r)) : NumAt L (w ++ s) k r

/-- Two numbers. -/
inductive PointAt (L : NumLex K) : List Char → Vec2 K → List Char → Prop
  | mk (s s1 s2 : List Char) (x y : K) (h1 : NumAt L s x s1) (h2 : NumAt L s1 y s2) : PointAt L s ⟨x, y⟩ s2

/-- One command at the front of the text (after optional white space) and the text after it. -/
inductive CmdAt (L : NumLex K) : List Char → TCmd K → List Char → Prop
  | m (w s r : List Char) (p : Vec2 K) (hw : IsWs w) (h : PointAt L s p r) : CmdAt L (w ++ 'm' :: s) (.m p) r
  | l (w s r : List Char) (p : Vec2 K) (hw : IsWs w) (h : PointAt L s p r) : CmdAt L (w ++ 'l' :: s) (.l p) r
  | a (w s s1 r : List Char) (p q : Vec2 K) (hw : IsWs w) (h1 : PointAt L s p s1) (h2 : PointAt L s1 q r) :
      CmdAt L (w ++ 'a' :: s) (.a p q) r
  | c (w s s1 s2 r : List Char) (p q t : Vec2 K) (hw : IsWs w) (h1 : PointAt L s p s1) (h2 : PointAt L s1 q s2)
      (h3 : PointAt L s2 t r) : CmdAt L (w ++ 'c' :: s) (.c p q t) r

/-- A sequence of commands at the front of the text, and the text after it. -/
inductive CmdsAt (L : NumLex K) : List Char → List (TCmd K) → List Char → Prop
  | nil (s : List Char) : CmdsAt L s [] s
  | cons (s s1 s2 : List Char) (c : TCmd K) (cs : List (TCmd K)) (h : CmdAt L s c s1) (h' : CmdsAt L s1 cs s2) :
      CmdsAt L s (c :: cs) s2

/-- The drawing command a text command stands for (arcs draw nothing). -/
def TCmd.toCmd : TCmd K → Option (Cmd K)
  | .m p => some (.moveto p)
  | .l p => some (.lineto p)
  | .a _ _ => none
  | .c p q r => some (.cubicto p q r)

/-- Cut a command list in front of every moveto. Commands before the first moveto form a group of their own. -/
def groups : List (Cmd K) → List (List (Cmd K))
  | [] => []
  | c :: cs =>
    match groups cs with
    | [] => [[c]]
    | g :: gs =>
      match g with
      | .moveto _ :: _ => [c] :: g :: gs
      | _ => (c :: g) :: gs

/-- Does the list start with a moveto (or draw nothing at all)? -/
def startsWithMove : List (Cmd K) → Bool
  | [] => true
  | .moveto _ :: _ => true
  | _ => false

/-- How numbers are printed: the numeric primitive reads a printed number back whenever the following text is empty,
starts with white space or starts with a command letter. -/
structure Printer (L : NumLex K) (ok : K → Prop) where
  pr : K → List Char
  noSp : ∀ k, ok k → ∀ c t, pr k = c :: t → isSp c = false
  read : ∀ k, ok k → ∀ rest : List Char,
    (∀ c t, rest = c :: t → isSp c = true ∨ c ∈ ['m', 'l', 'a', 'c']) → L.lex (pr k ++ rest) = some (k, rest)

/-- White space that is not empty. -/
def IsWs1 (w : List Char) : Prop := IsWs w ∧ w ≠ []

/-- Text forms of a point: optional white space, number, some white space, number. -/
inductive PrintsPoint {L : NumLex K} {ok : K → Prop} (P : Printer L ok) : Vec2 K → List Char → Prop
  | mk (x y : K) (w1 w2 : List Char) (hx : ok x) (hy : ok y) (h1 : IsWs w1) (h2 : IsWs1 w2) :
      PrintsPoint P ⟨x, y⟩ (w1 ++ P.pr x ++ (w2 ++ P.pr y))

/-- Text forms of a point after another one: some white space in front. -/
inductive PrintsPoint1 {L : NumLex K} {ok : K → Prop} (P : Printer L ok) : Vec2 K → List Char → Prop
  | mk (x y : K) (w1 w2 : List Char) (hx : ok x) (hy : ok y) (h1 : IsWs1 w1) (h2 : IsWs1 w2) :
      PrintsPoint1 P ⟨x, y⟩ (w1 ++ P.pr x ++ (w2 ++ P.pr y))

/-- Text forms of a command. -/
inductive PrintsCmd {L : NumLex K} {ok : K → Prop} (P : Printer L ok) : Cmd K → List Char → Prop
  | m (w : List Char) (p : Vec2 K) (s : List Char) (hw : IsWs w) (h : PrintsPoint P p s) :
      PrintsCmd P (.moveto p) (w ++ 'm' :: s)
  | l (w : List Char) (p : Vec2 K) (s : List Char) (hw : IsWs w) (h : PrintsPoint P p s) :
      PrintsCmd P (.lineto p) (w ++ 'l' :: s)
  | c (w : List Char) (p q r : Vec2 K) (s1 s2 s3 : List Char) (hw : IsWs w) (h1 : PrintsPoint P p s1)
      (h2 : PrintsPoint1 P q s2) (h3 : PrintsPoint1 P r s3) : PrintsCmd P (.cubicto p q r) (w ++ 'c' :: (s1 ++ (s2 ++ s3)))

/-- Text forms of a command list, with arbitrary white space at every place where it is allowed. -/
inductive Prints {L : NumLex K} {ok : K → Prop} (P : Printer L ok) : List (Cmd K) → List Char → Prop
  | nil : Prints P [] []
  | cons (c : Cmd K) (cs : List (Cmd K)) (s t : List Char) (h : PrintsCmd P c s) (h' : Prints P cs t) :
      Prints P (c :: cs) (s ++ t)

end MakePath
end River
