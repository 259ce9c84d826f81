import Verif.Model.Ring

/-! # Active edges: winding counts, contributing edges, the active edge list (`/repo/src/src/vatti.cpp:722-1244`)

The active edge list (AEL, linked by `prev_in_ael`/`next_in_ael` from `ael_first`) is a list here; `Model/Linked.lean`
treats the links. -/

namespace River
variable {K : Type}

/-- `enum class fill_rule` (`river.h:13`). -/
inductive FillRule where
  | evenOdd | nonZero | positive | negative
deriving DecidableEq, Repr

/-- `enum class clip_type` (`river.h:14`). -/
inductive ClipType where
  | none | intersection | union | difference | xor
deriving DecidableEq, Repr

/-- `struct edge` (`vatti.h:125-144`). `eid` is the identity of the object; `bound` the number of its `out_bound`;
`vertex_top` is vertex `vtop` of ring `ring`; of `local_min` only the polygon type is used later. The field `dx` is never
used by the code. -/
structure Edge (K : Type) where
  eid : Nat
  bot : Vec2 K
  top : Vec2 K
  currX : K
  windDx : Int
  windCnt : Int := 0
  windCnt2 : Int := 0
  bound : Option Nat := none
  ring : Nat
  vtop : Nat
  ptype : PathType
deriving DecidableEq, Repr

namespace Edge

/-- `is_up()` (`vatti.h:143`). -/
def isUp (e : Edge K) : Bool := decide (e.windDx < 0)

/-- `is_horz` (`vatti.cpp:63`). -/
def isHorz [FNum K] (e : Edge K) : Bool := e.bot.y ==. e.top.y

end Edge

/-- Split a list at the last element satisfying `p`: that element and everything after it (`while (left && ...)
left = left->prev_in_ael`, `vatti.cpp:797`). -/
def splitLast {α} (p : α → Bool) : List α → Option (α × List α)
  | [] => none
  | a :: l =>
    match splitLast p l with
    | some r => some r
    | none => if p a then some (a, l) else none

/-- The new `wind_cnt` for the rules other than even-odd, from the next edge to the left of the same type
(`vatti.cpp:815-840`). -/
def windFrom (leftCnt leftDx dx : Int) : Int :=
  if leftCnt * leftDx < 0 then
    if 1 < leftCnt.natAbs then (if leftDx * dx < 0 then leftCnt else leftCnt + dx) else dx
  else (if leftDx * dx < 0 then leftCnt else leftCnt + dx)

/-- Accumulating `wind_cnt2` over the edges in between (`vatti.cpp:846-859`). -/
def wind2 (fr : FillRule) (pt : PathType) (acc : Int) (between : List (Edge K)) : Int :=
  between.foldl (fun acc l =>
    if l.ptype ≠ pt then (if fr = .evenOdd then (if acc = 0 then 1 else 0) else acc + l.windDx) else acc) acc

/-- `calc_windcnt` (`vatti.cpp:793-860`); `left` are the edges before `e` in the AEL. `is_open` is constantly false
(`vatti.cpp:65`). -/
def calcWind (fr : FillRule) (left : List (Edge K)) (e : Edge K) : Edge K :=
  match splitLast (fun l => decide (l.ptype = e.ptype)) left with
  | none => { e with windCnt := e.windDx, windCnt2 := wind2 fr e.ptype 0 left }
  | some (l, between) =>
    { e with
      windCnt := if fr = .evenOdd then e.windDx else windFrom l.windCnt l.windDx e.windDx
      windCnt2 := wind2 fr e.ptype l.windCnt2 between }

/-- The inner loop of `recalc_windcnt` (`vatti.cpp:775-789`) for one recorded abscissa: `done` is the part of the AEL
already passed, `rest` starts with `curr_e`. Detaching the edge from its bound: here `bound := none`, the other direction
in `Model/Sweep.lean`. -/
def recalcX [FNum K] (fr : FillRule) (x : K) : List (Edge K) → List (Edge K) → List (Edge K) × List (Edge K)
  | done, [] => (done, [])
  | done, e :: rest =>
    if e.currX <. x then recalcX fr x (done ++ [e]) rest
    else if x <. e.currX then (done, e :: rest)
    else recalcX fr x (done ++ [calcWind fr done { e with bound := none }]) rest

/-- The outer loop of `recalc_windcnt` (`vatti.cpp:773`). -/
def recalcGo [FNum K] (fr : FillRule) : List K → List (Edge K) → List (Edge K) → List (Edge K)
  | [], done, rest => done ++ rest
  | x :: xs, done, rest =>
    let r := recalcX fr x done rest
    recalcGo fr xs r.1 r.2

/-- Sorting and removing duplicates in a list of numbers (`vatti.cpp:769-770`, `1221-1222`). For numbers the result of
`std::sort` is determined. -/
def insertNum [FNum K] (x : K) : List K → List K
  | [] => [x]
  | y :: ys => if y <. x then y :: insertNum x ys else x :: y :: ys

/-- See `insertNum` (`vatti.cpp:769, 1221`). -/
def sortNum [FNum K] (l : List K) : List K := l.foldr insertNum []

/-- `std::unique` after the element `x` has been kept (`vatti.cpp:770, 1222`). -/
def uniqFrom [FNum K] (x : K) : List K → List K
  | [] => []
  | y :: l => if x ==. y then uniqFrom x l else y :: uniqFrom y l

/-- `std::unique` on numbers (`vatti.cpp:770, 1222`). -/
def uniqNum [FNum K] : List K → List K
  | [] => []
  | x :: l => x :: uniqFrom x l

/-- `is_contributing` (`vatti.cpp:983-1051`). -/
def isContributing (ct : ClipType) (fr : FillRule) (e : Edge K) : Bool :=
  (match fr with
    | .evenOdd => true
    | .nonZero => e.windCnt.natAbs == 1
    | .positive => e.windCnt == 1
    | .negative => e.windCnt == -1) &&
  (match ct with
    | .none => false
    | .intersection =>
      (match fr with
      | .positive => decide (e.windCnt2 > 0)
      | .negative => decide (e.windCnt2 < 0)
      | _ => e.windCnt2 != 0)
    | .union =>
      (match fr with
      | .positive => decide (e.windCnt2 ≤ 0)
      | .negative => decide (e.windCnt2 ≥ 0)
      | _ => e.windCnt2 == 0)
    | .difference =>
      let result := (match fr with
        | .positive => decide (e.windCnt2 ≤ 0)
        | .negative => decide (e.windCnt2 ≥ 0)
        | _ => e.windCnt2 == 0)
      if e.ptype = .subject then result else !result
    | .xor => true)

/-- The tail of `insert_into_ael(left, newcomer)` (`vatti.cpp:1087-1097`): `rest` is the list after `left`. -/
def insertFrom {α : Type} (valid : α → α → Bool) (n : α) : List α → List α
  | [] => [n]
  | r :: rest => if valid r n then r :: insertFrom valid n rest else n :: r :: rest

/-- `insert_into_ael(newcomer)` (`vatti.cpp:1061-1081`); `valid resident newcomer` is `is_valid_ael_order`. -/
def insertAel {α : Type} (valid : α → α → Bool) (n : α) : List α → List α
  | [] => [n]
  | h :: t => if valid h n then h :: insertFrom valid n t else n :: h :: t

/-- `insert_into_ael(a->prev_in_ael, b)` (`vatti.cpp:761`, `1083-1098`) where `a` is the edge with identity `aid`. -/
def insertAfterPrev (valid : Edge K → Edge K → Bool) (aid : Nat) (b : Edge K) (ael : List (Edge K)) : List (Edge K) :=
  match ael.span (fun e => e.eid != aid) with
  | ([], _) => insertAel valid b ael
  | (pre, post) => pre ++ insertFrom valid b post

end River
