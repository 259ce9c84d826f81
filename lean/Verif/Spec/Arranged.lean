import Verif.Spec.Wind
import Verif.Spec.Ring
import Verif.Model.Sweep

/-! # Specification: the sides of a set of contours, general position, and the boundary of the result

Nothing here refers to the sweep; a contour is its list of vertices, each with the segment to the next one. -/

namespace River
variable {K : Type}

/-- A side of a contour: segment number `idx` of contour number `ring`, from the point `frm` to `seg.target`. -/
structure Side (K : Type) where
  ring : Nat
  idx : Nat
  frm : Vec2 K
  seg : Seg K
  ptype : PathType

/-- All sides of all contours. -/
def sides (rings : List (Ring K)) : List (Side K) :=
  rings.zipIdx.flatMap (fun r => r.1.nodes.zipIdx.map (fun v => ⟨r.2, v.2, v.1.pt, v.1.seg, r.1.ptype⟩))

/-- The side leads up or down. -/
def Side.up [LinearOrder K] (s : Side K) : Bool := decide (s.frm.y < s.seg.target.y)

/-- The lower end. -/
def Side.bot [LinearOrder K] (s : Side K) : Vec2 K := if s.up then s.frm else s.seg.target

/-- The upper end. -/
def Side.top [LinearOrder K] (s : Side K) : Vec2 K := if s.up then s.seg.target else s.frm

/-- What crossing the side from left to right adds to the winding number: `+1` if the side leads down, `-1` if it leads
up. -/
def Side.dx [LinearOrder K] (s : Side K) : Int := if s.up then -1 else 1

/-- What counts as the abscissa of a segment, strictly between its ends. Unless another choice is made, the segment's own `curr_x`.
Any function will do that agrees with `curr_x` at the heights the code looks at (`Arranged.visit`, `Arranged.visitMid`): where `curr_x`
is afflicted with rounding errors, it need not be taken at all the other heights. -/
class Absc (K : Type) where
  x : Vec2 K → Seg K → K → K

instance (priority := low) stdAbsc [FTrans K] : Absc K := ⟨fun p s y => s.currX p y⟩

/-- The abscissa of the side at height `y`. -/
def Side.x [FTrans K] [LinearOrder K] [Absc K] (s : Side K) (y : K) : K :=
  if y = s.bot.y then s.bot.x else if y = s.top.y then s.top.x else Absc.x s.frm s.seg y

/-- The side crosses the horizontal line just above height `y`. -/
def Side.Above [LinearOrder K] (s : Side K) (y : K) : Prop := s.bot.y ≤ y ∧ y < s.top.y

/-- The side crosses the horizontal line just below height `y`. -/
def Side.Below [LinearOrder K] (s : Side K) (y : K) : Prop := s.bot.y < y ∧ y ≤ s.top.y

instance [LinearOrder K] (s : Side K) (y : K) : Decidable (s.Above y) := inferInstanceAs (Decidable (_ ∧ _))
instance [LinearOrder K] (s : Side K) (y : K) : Decidable (s.Below y) := inferInstanceAs (Decidable (_ ∧ _))

/-- `s` lies to the left of `t` at all heights they have in common; they meet at most in a common lower or upper end
point. -/
def LeftOf [FTrans K] [LinearOrder K] [Absc K] (s t : Side K) : Prop :=
  ∀ y, s.bot.y ≤ y → t.bot.y ≤ y → y ≤ s.top.y → y ≤ t.top.y →
    s.x y ≤ t.x y ∧ (s.x y = t.x y → (s.bot = t.bot ∧ y = s.bot.y) ∨ (s.top = t.top ∧ y = s.top.y))

/-- The same curve: equal ends, and both straight or both cubic with the same control points (in this or the opposite
order). -/
def SameSpan [LinearOrder K] (s t : Side K) : Prop :=
  s.bot = t.bot ∧ s.top = t.top ∧
    match s.seg, t.seg with
    | .line _, .line _ => True
    | .cubic c1 c2 _, .cubic d1 d2 _ => (c1 = d1 ∧ c2 = d2) ∨ (c2 = d1 ∧ c1 = d2)
    | _, _ => False

/-- The side is horizontal. -/
def Side.Flat (s : Side K) : Prop := s.frm.y = s.seg.target.y

instance [LinearOrder K] (s : Side K) : Decidable s.Flat := inferInstanceAs (Decidable (_ = _))

/-- A horizontal side reaches over the abscissa `X`, its ends included. -/
def Side.Covers [LinearOrder K] (f : Side K) (X : K) : Prop := min f.frm.x f.seg.target.x ≤ X ∧ X ≤ max f.frm.x f.seg.target.x

/-- One gets from vertex `i` to vertex `j` of ring `r` along horizontal sides in the direction of travel. -/
inductive FlatRun (rings : List (Ring K)) (r : Nat) : Nat → Nat → Prop
  | nil (i : Nat) : FlatRun rings r i i
  | snoc (i : Nat) (f : Side K) : f ∈ sides rings → f.ring = r → f.Flat → FlatRun rings r i f.idx →
      FlatRun rings r i (nextIdx (ringSize rings r) f.idx)

/-- `t` is the next side after `s` that is not horizontal. -/
def Follows (rings : List (Ring K)) (s t : Side K) : Prop :=
  ¬ s.Flat ∧ ¬ t.Flat ∧ s.ring = t.ring ∧ FlatRun rings s.ring (nextIdx (ringSize rings s.ring) s.idx) t.idx

/-- Two sides run along the same curve (in the same or in opposite directions). -/
def Twin [FTrans K] [LinearOrder K] [Absc K] (s t : Side K) : Prop :=
  SameSpan s t ∧ ∀ y, s.bot.y ≤ y → y ≤ s.top.y → s.x y = t.x y

/-- The contour keeps its vertical direction across the horizontal side `f`: the last side before `f` that is not horizontal
and the first such side after it lead both up or both down. -/
def Through [LinearOrder K] (rings : List (Ring K)) (f : Side K) : Prop :=
  ∃ s ∈ sides rings, ∃ t ∈ sides rings, ¬ s.Flat ∧ ¬ t.Flat ∧ s.up = t.up ∧ f.ring = s.ring ∧ f.ring = t.ring ∧
    FlatRun rings f.ring (nextIdx (ringSize rings f.ring) s.idx) f.idx ∧
    FlatRun rings f.ring (nextIdx (ringSize rings f.ring) f.idx) t.idx

/-- At the upper end of `s` the contour goes on upwards (against its direction of travel if `s` leads down), but along a
horizontal side first. -/
def GoesOn [LinearOrder K] (rings : List (Ring K)) (s : Side K) : Prop :=
  ∃ f ∈ sides rings, f.Flat ∧ f.ring = s.ring ∧ Through rings f ∧
    if s.up then f.idx = nextIdx (ringSize rings s.ring) s.idx else s.idx = nextIdx (ringSize rings s.ring) f.idx

/-- General position. No two sides that are not horizontal cross or touch except at common end points from the same side; two
such sides may coincide, but then they coincide entirely. A horizontal side meets other sides only in end points of both.
Horizontal sides across which the contours keep their vertical directions do not overlap, at their ends all sides that begin
there coincide, and no two of them begin where they are reached from below. No contour is horizontal throughout. And what the code needs in addition: heights above
`-DBL_MAX`, the average of two heights computed for two sides with a common lower end lies between them, the flags of local minima
and maxima are right (with horizontal sides in between, the flag belongs to the last vertex), and between the two sides of a local
minimum there is no other side if the ascending one is on the left. -/
structure Arranged [FTrans K] [LinearOrder K] [Absc K] (rings : List (Ring K)) : Prop where
  linked : ∀ r ∈ rings, Linked r.nodes
  low : ∀ s ∈ sides rings, FNum.neg FNum.maxNum < s.frm.y
  flags : ∀ t ∈ sides rings, ∀ v, nodeAt rings t.ring t.idx = some v →
    (v.lmin = true ↔ t.up = true ∧ ∃ s ∈ sides rings, Follows rings s t ∧ s.up = false) ∧
    (v.lmax = true ↔ t.up = false ∧ ∃ s ∈ sides rings, Follows rings s t ∧ s.up = true)
  apart : ∀ s ∈ sides rings, ∀ t ∈ sides rings, ¬ s.Flat → ¬ t.Flat → s ≠ t → s.bot.y < t.top.y → t.bot.y < s.top.y →
    LeftOf s t ∨ LeftOf t s ∨ Twin s t
  mid : ∀ s ∈ sides rings, ∀ t ∈ sides rings, ¬ s.Flat → ¬ t.Flat → s ≠ t → s.bot = t.bot →
    s.bot.y < (s.bot.y +. fmin s.top.y t.top.y) /. FNum.lit 2 ∧
      (s.bot.y +. fmin s.top.y t.top.y) /. FNum.lit 2 < fmin s.top.y t.top.y
  distinct : ∀ s ∈ sides rings, ∀ t ∈ sides rings, ¬ s.Flat → ¬ t.Flat → s ≠ t → SameSpan s t → Twin s t
  minima : ∀ a ∈ sides rings, ∀ b ∈ sides rings, Follows rings a b → a.up = false → b.up = true →
    ∀ u ∈ sides rings, u ≠ a → u ≠ b → u.Above b.bot.y → LeftOf b u → (LeftOf u a ∨ Twin u a) → False
  turn : ∀ f ∈ sides rings, f.Flat → ∃ s ∈ sides rings, s.ring = f.ring ∧ ¬ s.Flat
  wide : ∀ f ∈ sides rings, f.Flat → f.frm.x ≠ f.seg.target.x
  touch : ∀ f ∈ sides rings, f.Flat → ∀ s ∈ sides rings, ¬ s.Flat → s.bot.y ≤ f.frm.y → f.frm.y ≤ s.top.y → f.Covers (s.x f.frm.y) →
    s.bot = f.frm ∨ s.bot = f.seg.target ∨ s.top = f.frm ∨ s.top = f.seg.target
  corner : ∀ f ∈ sides rings, f.Flat → Through rings f → ∀ p, p = f.frm ∨ p = f.seg.target → ∀ s ∈ sides rings, ∀ t ∈ sides rings,
    ¬ s.Flat → ¬ t.Flat → s.bot = p → t.bot = p → s ≠ t → Twin s t
  start : ∀ s ∈ sides rings, ∀ t ∈ sides rings, ¬ s.Flat → ¬ t.Flat → s ≠ t → s.top = t.top → GoesOn rings s → GoesOn rings t → False
  visit : ∀ s ∈ sides rings, ∀ t ∈ sides rings, ∀ y, y = t.bot.y ∨ y = t.top.y → s.bot.y < y → y < s.top.y →
    Absc.x s.frm s.seg y = s.seg.currX s.frm y
  visitMid : ∀ s ∈ sides rings, ∀ t ∈ sides rings, ¬ s.Flat → ¬ t.Flat → s ≠ t → s.bot = t.bot →
    Absc.x s.frm s.seg ((s.bot.y +. fmin s.top.y t.top.y) /. FNum.lit 2) = s.seg.currX s.frm ((s.bot.y +. fmin s.top.y t.top.y) /. FNum.lit 2)
  overlap : ∀ f ∈ sides rings, ∀ g ∈ sides rings, f.Flat → g.Flat → f ≠ g → Through rings f → Through rings g → f.frm.y = g.frm.y →
    max f.frm.x f.seg.target.x ≤ min g.frm.x g.seg.target.x ∨ max g.frm.x g.seg.target.x ≤ min f.frm.x f.seg.target.x

/-- The winding number with respect to the paths of type `t`, to the right of the sides `l`. -/
def wnS [LinearOrder K] (t : PathType) (l : List (Side K)) : Int :=
  ((l.filter (fun s => decide (s.ptype = t))).map Side.dx).sum

/-- Whether the points just to the right of the sides `l` belong to the result. -/
def inResultS [LinearOrder K] (ct : ClipType) (fr : FillRule) (l : List (Side K)) : Prop :=
  ct.op (fr.inside (wnS .subject l)) (fr.inside (wnS .clip l))

open Classical in
/-- The sides strictly to the left of `s` at height `y`. -/
noncomputable def leftSides [FTrans K] [LinearOrder K] [Absc K] (rings : List (Ring K)) (s : Side K) (y : K) : List (Side K) :=
  (sides rings).filter (fun t => decide (t.Above y ∧ t ≠ s ∧ LeftOf t s))

open Classical in
/-- The sides other than `s` that coincide with `s`. -/
noncomputable def twins [FTrans K] [LinearOrder K] [Absc K] (rings : List (Ring K)) (s : Side K) : List (Side K) :=
  (sides rings).filter (fun t => decide (t ≠ s ∧ Twin t s))

/-- At height `y`, exactly one of the two sides of `s`, and of the sides that coincide with it, belongs to the result. -/
def Boundary [FTrans K] [LinearOrder K] [Absc K] (rings : List (Ring K)) (ct : ClipType) (fr : FillRule) (s : Side K) (y : K) : Prop :=
  ¬ (inResultS ct fr (leftSides rings s y) ↔ inResultS ct fr (leftSides rings s y ++ s :: twins rings s))

/-- Where the sides are crossed one after the other from left to right (those that coincide in any order), those that lead from
outside the result to the inside all have the direction `σ`, those that lead from the inside to the outside the other one: for
`σ = 1` the former lead down and the latter up, for `σ = -1` the other way round. -/
def Directed [FTrans K] [LinearOrder K] [Absc K] (rings : List (Ring K)) (ct : ClipType) (fr : FillRule) (σ : Int) : Prop :=
  ∀ s ∈ sides rings, ∀ y, s.Above y → ∀ C D, (C ++ D).Perm (twins rings s) →
    ¬ (inResultS ct fr (leftSides rings s y ++ C) ↔ inResultS ct fr (leftSides rings s y ++ C ++ [s])) →
    (s.dx = σ ↔ ¬ inResultS ct fr (leftSides rings s y ++ C))

/-- An outline of the result, horizontal sides left out: of the sides on the boundary of the result, and of those that coincide,
one each, directed such that the result lies on the same hand everywhere. -/
structure Outline [FTrans K] [LinearOrder K] [Absc K] (rings : List (Ring K)) (ct : ClipType) (fr : FillRule) (σ : Int) (B : List (Side K)) : Prop where
  mem : ∀ s ∈ B, s ∈ sides rings ∧ ¬ s.Flat ∧ Boundary rings ct fr s s.bot.y
  once : B.Pairwise (fun s t => s ≠ t ∧ ¬ Twin s t)
  all : ∀ s ∈ sides rings, ¬ s.Flat → Boundary rings ct fr s s.bot.y → s ∈ B ∨ ∃ t ∈ B, Twin t s
  dir : ∀ s ∈ B, (s.dx = σ ↔ ¬ inResultS ct fr (leftSides rings s s.bot.y))

end River
