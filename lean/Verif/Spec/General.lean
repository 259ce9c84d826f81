import Mathlib.Algebra.Order.Field.Basic
import Verif.Spec.Arranged
import Verif.Spec.Line

/-! # Specification: straight contours, exact arithmetic, and which intersections are admitted -/

namespace River
variable {K : Type}

attribute [local instance 10000] FTrans.toFNum

/-- The arithmetic is exact: the operations are those of a field. -/
class Exact (K : Type) [Field K] [LinearOrder K] [FTrans K] : Prop where
  add_eq : ∀ a b : K, a +. b = a + b
  sub_eq : ∀ a b : K, a -. b = a - b
  mul_eq : ∀ a b : K, a *. b = a * b
  div_eq : ∀ a b : K, a /. b = a / b
  neg_eq : ∀ a : K, FNum.neg a = -a
  lit_eq : ∀ q : Rat, (FNum.lit q : K) = (q : K)
  max_eq : (FNum.maxNum : K) = (dblMax : K)
  fin_eq : ∀ a : K, FNum.isFinite a = true

/-- The side is straight. -/
def Side.Straight (s : Side K) : Prop := s.seg = .line s.seg.target

variable [Field K] [LinearOrder K] [FTrans K]

/-- The coordinates are within the range of finite doubles. -/
def InDoubles (p : Vec2 K) : Prop :=
  FNum.neg FNum.maxNum ≤ p.x ∧ p.x ≤ FNum.maxNum ∧ FNum.neg FNum.maxNum ≤ p.y ∧ p.y ≤ FNum.maxNum

/-- A position on a segment that the code treats correctly: an end point, or at a relative distance of more than `1e-6` from
both ends. -/
def ClearPos (a : K) : Prop := a = 0 ∨ a = 1 ∨ (1 / 1000000 < a ∧ a < 1 - 1 / 1000000)

/-- How the segments from `p0` to `p1` and from `p2` to `p3` may meet: if they are not parallel, in clear positions. -/
def MeetOk (p0 p1 p2 p3 : Vec2 K) : Prop :=
  ¬ Parallel p0 p1 p2 p3 → ∀ a b : K, 0 ≤ a → a ≤ 1 → 0 ≤ b → b ≤ 1 → lerp p0 p1 a = lerp p2 p3 b → ClearPos a ∧ ClearPos b

/-- The segments have more than a point in common. -/
def Overlap (p0 p1 p2 p3 : Vec2 K) : Prop := ∃ p q, p ≠ q ∧ OnSeg p p0 p1 ∧ OnSeg q p0 p1 ∧ OnSeg p p2 p3 ∧ OnSeg q p2 p3

/-- The abscissa at height `y` of the line through two points. -/
def atHeight (p q : Vec2 K) (y : K) : K := p.x + (y - p.y) * ((q.x - p.x) / (q.y - p.y))

/-- Just above the height `y` the segment `u` lies to the right of the segment `b`, and to the left of the segment `a` or on it. -/
def RunsBetween (y : K) (b a u : Vec2 K × Vec2 K) : Prop :=
  min u.1.y u.2.y ≤ y ∧ y < max u.1.y u.2.y ∧ ∃ z, y < z ∧ ∀ y', y < y' → y' < z →
    atHeight b.1 b.2 y' < atHeight u.1 u.2 y' ∧ atHeight u.1 u.2 y' ≤ atHeight a.1 a.2 y'

/-- The segment from `a` to `b` reaches above the height of `p`. -/
def GoesUp (p a b : Vec2 K) : Prop := p.y < a.y ∨ p.y < b.y

/-- Straight contours that may cross, touch and overlap each other and themselves anywhere, with these exceptions.
* No intersection of sides that are not parallel lies closer than `1e-6` of a side's length to an end of the side without being that end.
* Where an end of a side lies inside a parallel side (that is not horizontal), a side in another direction passes, too.
* Across a horizontal side a contour may keep its vertical direction; then the sides that lead up from a point of the horizontal
  side all run along one line, the horizontal side does not overlap another one of this kind, and it does not begin, seen from below,
  at the same point as another one.
* Between the two sides of a local minimum, if the ascending one is on the left, no other side leads up. -/
structure General (rings : List (Ring K)) : Prop where
  straight : ∀ s ∈ sides rings, s.Straight
  linked : ∀ r ∈ rings, Linked r.nodes
  proper : ∀ s ∈ sides rings, s.frm ≠ s.seg.target
  turn : ∀ f ∈ sides rings, f.Flat → ∃ s ∈ sides rings, s.ring = f.ring ∧ ¬ s.Flat
  range : ∀ s ∈ sides rings, InDoubles s.frm ∧ FNum.neg FNum.maxNum < s.frm.y
  flags : ∀ t ∈ sides rings, ∀ v, nodeAt rings t.ring t.idx = some v →
    (v.lmin = true ↔ t.up = true ∧ ∃ s ∈ sides rings, Follows rings s t ∧ s.up = false) ∧
    (v.lmax = true ↔ t.up = false ∧ ∃ s ∈ sides rings, Follows rings s t ∧ s.up = true)
  meet : ∀ s ∈ sides rings, ∀ t ∈ sides rings, s ≠ t → MeetOk s.frm s.seg.target t.frm t.seg.target
  along : ∀ s ∈ sides rings, ∀ t ∈ sides rings, ¬ t.Flat → Parallel s.frm s.seg.target t.frm t.seg.target →
    ∀ p, p = s.frm ∨ p = s.seg.target → InsideSeg p t.frm t.seg.target →
      ∃ u ∈ sides rings, ¬ Parallel u.frm u.seg.target t.frm t.seg.target ∧ OnSeg p u.frm u.seg.target
  corner : ∀ f ∈ sides rings, f.Flat → Through rings f → ∀ p, OnSeg p f.frm f.seg.target → ∀ s ∈ sides rings, ∀ t ∈ sides rings, s ≠ t →
    OnSeg p s.frm s.seg.target → OnSeg p t.frm t.seg.target → GoesUp p s.frm s.seg.target → GoesUp p t.frm t.seg.target →
      Parallel s.frm s.seg.target t.frm t.seg.target
  start : ∀ s ∈ sides rings, ∀ t ∈ sides rings, ¬ s.Flat → ¬ t.Flat → s ≠ t → s.top = t.top → GoesOn rings s → GoesOn rings t → False
  overlap : ∀ f ∈ sides rings, ∀ g ∈ sides rings, f.Flat → g.Flat → f ≠ g → Through rings f → Through rings g → f.frm.y = g.frm.y →
    max f.frm.x f.seg.target.x ≤ min g.frm.x g.seg.target.x ∨ max g.frm.x g.seg.target.x ≤ min f.frm.x f.seg.target.x
  minima : ∀ a ∈ sides rings, ∀ b ∈ sides rings, Follows rings a b → a.up = false → b.up = true →
    ∀ u ∈ sides rings, u ≠ a → u ≠ b → ¬ RunsBetween b.frm.y (b.frm, b.seg.target) (a.frm, a.seg.target) (u.frm, u.seg.target)

/-- No two sides overlap (other than horizontal ones). -/
def Apart (rings : List (Ring K)) : Prop :=
  ∀ s ∈ sides rings, ∀ t ∈ sides rings, ¬ s.Flat → s ≠ t → ¬ Overlap s.frm s.seg.target t.frm t.seg.target

/-- No two sides of contour number `k` overlap (other than horizontal ones). -/
def ApartIn (rings : List (Ring K)) (k : Nat) : Prop :=
  ∀ s ∈ sides rings, ∀ t ∈ sides rings, s.ring = k → t.ring = k → ¬ s.Flat → s ≠ t → ¬ Overlap s.frm s.seg.target t.frm t.seg.target

end River
