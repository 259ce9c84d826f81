import Verif.Model.Edge

/-! # Specification of winding numbers, fill rules and boolean operations

`pre` is always the list of active edges to the left of a position of a scan line. -/

namespace River
variable {K : Type}

/-- The winding number with respect to the paths of type `t`, to the right of the edges `pre`: the sum of the directions
of the edges of that type crossed on the way from the far left (a descending edge counts `+1`, an ascending one `-1`). -/
def wn (t : PathType) (pre : List (Edge K)) : Int :=
  ((pre.filter (fun e => decide (e.ptype = t))).map (fun e => e.windDx)).sum

/-- The other path type. -/
def PathType.other : PathType → PathType
  | .subject => .clip
  | .clip => .subject

/-- Which winding numbers a fill rule regards as inside. -/
def FillRule.inside : FillRule → Int → Prop
  | .evenOdd, w => Odd w
  | .nonZero, w => w ≠ 0
  | .positive, w => 0 < w
  | .negative, w => w < 0

/-- The boolean operations on sets, for one point. -/
def ClipType.op : ClipType → Prop → Prop → Prop
  | .none, _, _ => False
  | .intersection, s, c => s ∧ c
  | .union, s, c => s ∨ c
  | .difference, s, c => s ∧ ¬ c
  | .xor, s, c => (s ∧ ¬ c) ∨ (c ∧ ¬ s)

/-- Whether the points just to the right of the edges `pre` belong to the result `subject OP clip`. -/
def inResult (ct : ClipType) (fr : FillRule) (pre : List (Edge K)) : Prop :=
  ct.op (fr.inside (wn .subject pre)) (fr.inside (wn .clip pre))

/-- Every edge is either descending or ascending. -/
def DirsOk (ael : List (Edge K)) : Prop := ∀ e ∈ ael, e.windDx = 1 ∨ e.windDx = -1

/-- The counts stored in `e`, which has the edges `pre` to its left, are the winding numbers they are meant to be:
`wind_cnt` the winding number of the own type on the side of `e` where it is larger in absolute value, `wind_cnt2` the
winding number of the other type (for even-odd: the direction, and the parity of the other type). -/
def CountsOk (fr : FillRule) (pre : List (Edge K)) (e : Edge K) : Prop :=
  match fr with
  | .evenOdd =>
    e.windCnt = e.windDx ∧ (e.windCnt2 = 0 ∨ e.windCnt2 = 1) ∧ (e.windCnt2 = 1 ↔ Odd (wn e.ptype.other pre))
  | _ =>
    ((e.windCnt = wn e.ptype pre ∧ (wn e.ptype (pre ++ [e])).natAbs < (wn e.ptype pre).natAbs) ∨
      (e.windCnt = wn e.ptype (pre ++ [e]) ∧ (wn e.ptype pre).natAbs < (wn e.ptype (pre ++ [e])).natAbs)) ∧
    e.windCnt2 = wn e.ptype.other pre

/-- All edges of an active edge list carry the right counts. -/
def AllCountsOk (fr : FillRule) (ael : List (Edge K)) : Prop :=
  ∀ pre e post, ael = pre ++ e :: post → CountsOk fr pre e

/-- What an edge is, apart from the counts and the output bound attached to it. -/
def Edge.plain (e : Edge K) : Edge K := { e with windCnt := 0, windCnt2 := 0, bound := none }

end River
