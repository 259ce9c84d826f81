import Verif.Spec.Dcel
import Verif.Spec.General

/-! # Specification: plane arrangements of half edges -/

namespace River
variable {K : Type}

/-- The lines that were added, leaving out those that begin and end at the same point. -/
def linesOf [DecidableEq K] (calls : List (DCall K)) : List (Vec2 K × Vec2 K) :=
  calls.filterMap fun c => match c with
    | .line x1 y1 x2 y2 => if x1 = x2 ∧ y1 = y2 then none else some (⟨x1, y1⟩, ⟨x2, y2⟩)
    | .type _ => none

/-- The half edge with number `i` exists and leads from the place `a` to the place `b`. -/
def Dcel.Leads (d : Dcel K) (i : Nat) (a b : Vec2 K) : Prop :=
  ∃ m n p q, d.Runs i m n ∧ d.points[m]? = some p ∧ d.points[n]? = some q ∧ p.p = a ∧ q.p = b

variable [Field K] [LinearOrder K]

/-- All points the segments from `a` to `b` and from `c` to `e` have in common are end points of both. -/
def MeetAtEnds (a b c e : Vec2 K) : Prop := ∀ X, OnSeg X a b → OnSeg X c e → (X = a ∨ X = b) ∧ (X = c ∨ X = e)

/-- The lines cross each other in any way, but do not overlap: if they are parallel they have at most end points in common. -/
def NoOverlap (l m : Vec2 K × Vec2 K) : Prop := Parallel l.1 l.2 m.1 m.2 → MeetAtEnds l.1 l.2 m.1 m.2

/-- The half edges of `d` divide the plane: what they cover is exactly what `lines` cover, and two different half edges that are not
twins of each other have at most end points in common. -/
structure Dcel.Divides (d : Dcel K) (lines : List (Vec2 K × Vec2 K)) : Prop where
  covers : ∀ X, (∃ i a b, d.Leads i a b ∧ OnSeg X a b) ↔ ∃ l ∈ lines, OnSeg X l.1 l.2
  apart : ∀ i j a b c e, d.Leads i a b → d.Leads j c e → i ≠ j → MeetAtEnds a b c e ∨ (∃ t u, d.edges[i]? = some (some t) ∧
    d.edges[j]? = some (some u) ∧ t.twin = some j ∧ u.twin = some i ∧ a = e ∧ b = c)

/-- `std::sort` sorts points on a line by the comparator given to it: no point stands before one that is less than it. -/
def DOrder.Sorts [FNum K] (o : DOrder K) : Prop := ∀ s e l, (∀ p ∈ l, OnSeg p s e) →
  (o.sortB s e l).Pairwise (fun a b => breakLess s e b a = false)

end River
