import Mathlib.Data.List.Rotate
import Verif.Spec.General
import Verif.Spec.Path
import Verif.Spec.Wind

/-! # Specification: polygons given by their corners

Everything here is about lists of points and exact field arithmetic only. -/

namespace River
variable {K : Type}

/-- The sides of a polygon: from every corner to the next one, from the last to the first. -/
def polySides (P : List (Vec2 K)) : List (Vec2 K × Vec2 K) := P.zip (P.rotate 1)

/-- The commands that draw a polygon: move to the first corner, lines to the others (the last side is left to the closing of
the contour). -/
def polyCmds : List (Vec2 K) → List (Cmd K)
  | [] => []
  | p :: qs => .moveto p :: qs.map .lineto

/-- The same with the closing line drawn. -/
def closedCmds : List (Vec2 K) → List (Cmd K)
  | [] => []
  | p :: qs => .moveto p :: (qs ++ [p]).map .lineto

variable [Field K] [LinearOrder K]

/-- What a side contributes to the winding number at `(X, y)`: it counts if it crosses the ray from `(X, y)` to the left, `+1` if
it leads down, `-1` if it leads up. -/
def sideWinding (X y : K) (s : Vec2 K × Vec2 K) : Int :=
  if atHeight s.1 s.2 y < X then
    if s.2.y ≤ y ∧ y < s.1.y then 1 else if s.1.y ≤ y ∧ y < s.2.y then -1 else 0
  else 0

/-- The winding number of polygons at `(X, y)`. -/
def polyWinding (Ps : List (List (Vec2 K))) (X y : K) : Int := ((Ps.flatMap polySides).map (sideWinding X y)).sum

/-- `l` are successive corners of the polygon `P` (more than once around, if need be). -/
def Successive (P l : List (Vec2 K)) : Prop := ∃ n, l <+: P.rotate n ++ P.rotate n

/-- Corner number `i`, counted around the polygon. -/
def cornerAt (P : List (Vec2 K)) (i : Nat) : Vec2 K := P.getD (i % P.length) ⟨0, 0⟩

/-- The corners `i` to `i + n` of the polygon form a ledge: they have the same height, and of the corners before and after them one
is lower and the other is higher. -/
structure Ledge (P : List (Vec2 K)) (i n : Nat) : Prop where
  pos : 0 < n
  flat : ∀ j ≤ n, (cornerAt P (i + j)).y = (cornerAt P i).y
  goes : ((cornerAt P (i + (P.length - 1))).y < (cornerAt P i).y ∧ (cornerAt P i).y < (cornerAt P (i + n + 1)).y) ∨
    ((cornerAt P (i + n + 1)).y < (cornerAt P i).y ∧ (cornerAt P i).y < (cornerAt P (i + (P.length - 1))).y)

/-- The end of a ledge that is reached from below. -/
def ledgeStart (P : List (Vec2 K)) (i n : Nat) : Vec2 K :=
  if (cornerAt P (i + (P.length - 1))).y < (cornerAt P i).y then cornerAt P i else cornerAt P (i + n)

/-- Polygons with coordinates in the range of finite doubles, none of them horizontal throughout, that may cross, touch and overlap
each other and themselves anywhere with these exceptions.
* `meet`: no intersection of sides that are not parallel lies closer than `1e-6` of a side's length to an end of the side without
  being that end.
* `along`: where an end of a side lies inside a parallel side (that is not horizontal), a side in another direction passes, too.
* `corner`: the sides that lead up from one point of a ledge all run along one line.
* `start`: no two ledges begin, seen from below, at the same point.
* `overlap`: no two sides of ledges overlap.
* `minima`: between the sides of a local minimum — corners `l` of the same height between two higher corners `a` and `b` — at most
  one side leads up: the side from `a`, and that only if it is on the right. -/
structure GeneralPolygons (Ps : List (List (Vec2 K))) : Prop where
  proper : ∀ s ∈ Ps.flatMap polySides, s.1 ≠ s.2
  turn : ∀ P ∈ Ps, ∃ p ∈ P, ∃ q ∈ P, p.y ≠ q.y
  range : ∀ P ∈ Ps, ∀ p ∈ P, -(dblMax : K) ≤ p.x ∧ p.x ≤ dblMax ∧ -(dblMax : K) < p.y ∧ p.y ≤ dblMax
  meet : (Ps.flatMap polySides).Pairwise (fun s t => MeetOk s.1 s.2 t.1 t.2)
  along : ∀ s ∈ Ps.flatMap polySides, ∀ t ∈ Ps.flatMap polySides, t.1.y ≠ t.2.y → Parallel s.1 s.2 t.1 t.2 →
    ∀ p, p = s.1 ∨ p = s.2 → InsideSeg p t.1 t.2 → ∃ u ∈ Ps.flatMap polySides, ¬ Parallel u.1 u.2 t.1 t.2 ∧ OnSeg p u.1 u.2
  corner : ∀ P ∈ Ps, ∀ i n, Ledge P i n → ∀ j, j < n → ∀ p, OnSeg p (cornerAt P (i + j)) (cornerAt P (i + j + 1)) →
    (Ps.flatMap polySides).Pairwise (fun s t => OnSeg p s.1 s.2 → OnSeg p t.1 t.2 → GoesUp p s.1 s.2 → GoesUp p t.1 t.2 →
      Parallel s.1 s.2 t.1 t.2)
  start : ∀ (k k' : Nat) (P P' : List (Vec2 K)), Ps[k]? = some P → Ps[k']? = some P' → ∀ i i' n n', Ledge P i n → Ledge P' i' n' →
    ¬ (k = k' ∧ i % P.length = i' % P.length) → ledgeStart P i n ≠ ledgeStart P' i' n'
  overlap : ∀ (k k' : Nat) (P P' : List (Vec2 K)), Ps[k]? = some P → Ps[k']? = some P' → ∀ i i' n n', Ledge P i n → Ledge P' i' n' → ∀ j j', j < n → j' < n' →
    ¬ (k = k' ∧ (i + j) % P.length = (i' + j') % P.length) → (cornerAt P i).y = (cornerAt P' i').y →
    max (cornerAt P (i + j)).x (cornerAt P (i + j + 1)).x ≤ min (cornerAt P' (i' + j')).x (cornerAt P' (i' + j' + 1)).x ∨
      max (cornerAt P' (i' + j')).x (cornerAt P' (i' + j' + 1)).x ≤ min (cornerAt P (i + j)).x (cornerAt P (i + j + 1)).x
  minima : ∀ P ∈ Ps, ∀ (a b : Vec2 K) (l : List (Vec2 K)) (hl : l ≠ []), Successive P (a :: l ++ [b]) →
    ∀ y, (∀ q ∈ l, q.y = y) → y < a.y → y < b.y →
    (Ps.flatMap polySides).Pairwise (fun u v => ¬ (RunsBetween y (l.getLast hl, b) (a, l.head hl) u ∧ RunsBetween y (l.getLast hl, b) (a, l.head hl) v))

/-- No two sides of the polygons overlap (other than horizontal ones). -/
def SidesApart (Ps : List (List (Vec2 K))) : Prop :=
  (Ps.flatMap polySides).Pairwise (fun s t => s.1.y ≠ s.2.y → ¬ Overlap s.1 s.2 t.1 t.2)

/-- The point `(X, y)` belongs to the result of the operation on the two sets of polygons. -/
def InResult (subject clip : List (List (Vec2 K))) (ct : ClipType) (fr : FillRule) (X y : K) : Prop :=
  ct.op (fr.inside (polyWinding subject X y)) (fr.inside (polyWinding clip X y))

/-- The result lies to the same side of its whole boundary: for `σ = 1`, where only one of the two winding numbers is higher by
one, and the lower one is inside the result, so is the higher one; for `σ = -1` the other way round. -/
def Oriented (subject clip : List (List (Vec2 K))) (ct : ClipType) (fr : FillRule) (σ : Int) : Prop :=
  ∀ X y X' y' : K,
    (polyWinding subject X' y' = polyWinding subject X y + 1 ∧ polyWinding clip X' y' = polyWinding clip X y) ∨
      (polyWinding subject X' y' = polyWinding subject X y ∧ polyWinding clip X' y' = polyWinding clip X y + 1) →
    (σ = 1 → InResult subject clip ct fr X y → InResult subject clip ct fr X' y') ∧
      (σ = -1 → InResult subject clip ct fr X' y' → InResult subject clip ct fr X y)

/-- All winding numbers of the polygon have the sign `ε` or are zero, and no two of its own sides overlap (nothing is asked for
`ε = 0`). -/
def Signed (ε : Int) (P : List (Vec2 K)) : Prop := ε = 0 ∨ (SidesApart [P] ∧ ∀ X y, 0 ≤ ε * polyWinding [P] X y)

/-- For winding numbers with the signs `εs` and `εc` (any winding numbers, where the sign is 0): more winding never leads out of the
result (for `σ = 1`), or never into it (for `σ = -1`). -/
def Monotone (εs εc : Int) (ct : ClipType) (fr : FillRule) (σ : Int) : Prop :=
  ∀ a b a' b' : Int, 0 ≤ εs * a → 0 ≤ εc * b → 0 ≤ εs * a' → 0 ≤ εc * b' → (a' = a + 1 ∧ b' = b) ∨ (a' = a ∧ b' = b + 1) →
    (σ = 1 → ct.op (fr.inside a) (fr.inside b) → ct.op (fr.inside a') (fr.inside b')) ∧
      (σ = -1 → ct.op (fr.inside a') (fr.inside b') → ct.op (fr.inside a) (fr.inside b))

/-- The result lies to the same side of its whole boundary, also where sides overlap and the boundary runs along several of
them: either no sides overlap, or the operation is monotone for the signs of the polygons. -/
def Consistent (subject clip : List (List (Vec2 K))) (ct : ClipType) (fr : FillRule) (σ : Int) : Prop :=
  (SidesApart (subject ++ clip) ∧ Oriented subject clip ct fr σ) ∨
    ∃ εs εc : Int, (∀ P ∈ subject, Signed εs P) ∧ (∀ P ∈ clip, Signed εc P) ∧ Monotone εs εc ct fr σ

end River
