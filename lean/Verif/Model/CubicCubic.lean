import Verif.Model.Bezier
import Verif.Model.Rect
import Mathlib.Data.List.Basic
import Mathlib.Algebra.Order.Group.Nat
import Mathlib.Algebra.BigOperators.Group.List.Basic
import Mathlib.Tactic.Linarith

/-! # Cubic/cubic intersection (`/repo/src/src/rmath.cpp:827-918`) -/

namespace River
variable {K : Type}

/-- `rough_rect` (`rmath.cpp:828-830`). -/
def roughRect [FNum K] (b : Cubic K) : Rect K := Rect.of [b.p0, b.p1, b.p2, b.p3]

/-- `struct data` (`rmath.cpp:832-841`). `recurse` is an `int` counting up from 0; its overflow (a run of 2^31 nested
subdivisions) is not modelled. -/
structure Cell (K : Type) where
  bez : Cubic K
  bbox : Rect K
  t0 : K
  t1 : K
  recurse : Nat

/-- `data::subdive` (`rmath.cpp:843-854`): `(out1, out2)`. -/
def Cell.subdive [FNum K] (d : Cell K) : Cell K × Cell K :=
  let o := d.bez.split (FNum.lit (1 / 2))
  let m := (d.t0 +. d.t1) /. FNum.lit 2
  (⟨o.1, roughRect o.1, d.t0, m, d.recurse + 1⟩, ⟨o.2, roughRect o.2, m, d.t1, d.recurse + 1⟩)

/-- The two vectors of the loop: `pairs` (a stack, its back is the head of the list here) and `intersect_pair` (in push
order reversed; it is sorted afterwards) (`rmath.cpp:865-866`). -/
structure CCState (K : Type) where
  pairs : List (Cell K × Cell K)
  found : List (Cell K × Cell K)

/-- The lambda `check_func` (`rmath.cpp:881-889`). -/
def ccCheck [FNum K] (precise : Int) (s : CCState K) (p0 p1 : Cell K) : CCState K :=
  if p0.bbox.intersect p1.bbox then
    if (p0.recurse : Int) > precise then ⟨s.pairs, (p0, p1) :: s.found⟩ else ⟨(p0, p1) :: s.pairs, s.found⟩
  else s

/-- The body of the `while` loop after `pairs.pop_back()` (`rmath.cpp:873-895`). -/
def ccBody [FNum K] (precise : Int) (back : Cell K × Cell K) (s : CCState K) : CCState K :=
  let a := back.1.subdive
  let b := back.2.subdive
  ccCheck precise (ccCheck precise (ccCheck precise (ccCheck precise s a.1 b.1) a.1 b.2) a.2 b.1) a.2 b.2

/-- One iteration of the loop, `none` when `pairs` is empty (`rmath.cpp:873`). -/
def ccStep [FNum K] (precise : Int) (s : CCState K) : Option (CCState K) :=
  match s.pairs with
  | [] => none
  | back :: rest => some (ccBody precise back ⟨rest, s.found⟩)

/-- Work left for one stacked pair (a measure for the loop of `rmath.cpp:873-895`). -/
def ccWeight (precise : Int) (p : Cell K × Cell K) : Nat := 5 ^ (precise + 1 - (p.1.recurse : Int)).toNat

/-- Work left on the stack (a measure for the loop of `rmath.cpp:873-895`). -/
def ccWork (precise : Int) (ps : List (Cell K × Cell K)) : Nat := (ps.map (ccWeight precise)).sum

theorem ccWork_check [FNum K] (precise : Int) (s : CCState K) (p0 p1 : Cell K) (r : Nat) (h0 : p0.recurse = r + 1) :
    ccWork precise (ccCheck precise s p0 p1).pairs ≤ ccWork precise s.pairs +
      (if (r : Int) + 1 ≤ precise then 5 ^ (precise - (r : Int)).toNat else 0) := by
  unfold ccCheck
  split
  · split
    · simp
    · rename_i h
      rw [h0] at h; push_cast at h
      rw [if_pos (by omega)]
      unfold ccWork
      simp only [List.map_cons, List.sum_cons]
      unfold ccWeight
      rw [h0, show precise + 1 - ((r + 1 : Nat) : Int) = precise - (r : Int) by push_cast; ring]
      omega
  · simp

/-- Every iteration reduces the work left. -/
theorem ccWork_body [FNum K] (precise : Int) (back : Cell K × Cell K) (s : CCState K) :
    ccWork precise (ccBody precise back s).pairs < ccWork precise s.pairs + ccWeight precise back := by
  unfold ccBody
  dsimp only
  set r := back.1.recurse with hr
  have a := fun s p => ccWork_check precise s back.1.subdive.1 p r rfl
  have b := fun s p => ccWork_check precise s back.1.subdive.2 p r rfl
  have h1 := a s back.2.subdive.1
  have h2 := a (ccCheck precise s back.1.subdive.1 back.2.subdive.1) back.2.subdive.2
  have h3 := b (ccCheck precise (ccCheck precise s back.1.subdive.1 back.2.subdive.1) back.1.subdive.1 back.2.subdive.2)
    back.2.subdive.1
  have h4 := b (ccCheck precise (ccCheck precise (ccCheck precise s back.1.subdive.1 back.2.subdive.1) back.1.subdive.1
    back.2.subdive.2) back.1.subdive.2 back.2.subdive.1) back.2.subdive.2
  have hw : 4 * (if (r : Int) + 1 ≤ precise then 5 ^ (precise - (r : Int)).toNat else 0) < ccWeight precise back := by
    unfold ccWeight
    rw [← hr]
    split
    · rw [show (precise + 1 - (r : Int)).toNat = (precise - (r : Int)).toNat + 1 by omega, pow_succ]
      have : 0 < 5 ^ (precise - (r : Int)).toNat := by positivity
      omega
    · positivity
  omega

/-- The `while` loop (`rmath.cpp:873-895`), run until `pairs` is empty; Lean accepts the recursion because every
iteration reduces `ccWork`. -/
def ccLoop [FNum K] (precise : Int) (s : CCState K) : List (Cell K × Cell K) :=
  match _h : s.pairs with
  | [] => s.found
  | back :: rest => ccLoop precise (ccBody precise back ⟨rest, s.found⟩)
termination_by ccWork precise s.pairs
decreasing_by
  rw [_h]
  have := ccWork_body precise back ⟨rest, s.found⟩
  simp only [ccWork, List.map_cons, List.sum_cons] at this ⊢
  omega

/-- `std::unique` (used at `rmath.cpp:902-905`): an element is dropped when the predicate holds with the last kept
one. -/
def uniqueFrom {α} (same : α → α → Bool) (kept : α) : List α → List α
  | [] => [kept]
  | x :: xs => if same kept x then uniqueFrom same kept xs else kept :: uniqueFrom same x xs

/-- `std::unique` followed by `erase` (`rmath.cpp:902-905`). -/
def stdUnique {α} (same : α → α → Bool) : List α → List α
  | [] => []
  | x :: xs => uniqueFrom same x xs

/-- `intersect(const bezier_cubic&, const bezier_cubic&, int precise)` (`rmath.cpp:858-918`). `std::sort` is not stable,
its result is one of the sorted permutations: `sort` stands for the implementation. The loop of `rmath.cpp:910-917`
stops after nine results: `take 9`. -/
def cubicIntersect [FNum K] (sort : List (Cell K × Cell K) → List (Cell K × Cell K)) (b1 b2 : Cubic K) (precise : Int) :
    List (Info K) :=
  let p1 : Cell K := ⟨b1, roughRect b1, FNum.lit 0, FNum.lit 1, 0⟩
  let p2 : Cell K := ⟨b2, roughRect b2, FNum.lit 0, FNum.lit 1, 0⟩
  if p1.bbox.intersect p2.bbox then
    let found := ccLoop precise ⟨[(p1, p2)], []⟩
    let uniq := stdUnique (fun l r => fabs (l.1.t0 -. r.1.t0) <. FNum.lit (1 / 100000000)) (sort found)
    (uniq.take 9).map (fun p =>
      let t0 := (p.1.t0 +. p.1.t1) /. FNum.lit 2
      ⟨b1.pointAt t0, t0, (p.2.t0 +. p.2.t1) /. FNum.lit 2⟩)
  else []

/-- What the standard guarantees about the call of `std::sort` at `rmath.cpp:897-900`, for a comparison that is a strict
weak order. -/
def IsSort [FNum K] (sort : List (Cell K × Cell K) → List (Cell K × Cell K)) : Prop :=
  ∀ l, (sort l).Perm l ∧ (sort l).Pairwise (fun a b => (b.1.t0 <. a.1.t0) = false)

end River
