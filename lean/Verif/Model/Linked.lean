import Verif.Model.Edge
import Verif.Model.Output

/-! # The linked lists at pointer level (`/repo/src/src/vatti.cpp:1061-1111`, `1431-1440`, `1452-1462`)

A node (an `edge`, an `out_bound`) is a number; `prev`/`next` are the two link fields of every object that exists, linked
or not. `none` is the null pointer. -/

namespace River

/-- The link fields `prev_in_ael`, `next_in_ael` (`vatti.h:136-137`) of all edges, or `prev_in_obl`, `next_in_obl`
(`vatti.h:112-113`) of all bounds, and the pointer to the first node (`ael_first`, `obl_first`, `vatti.h:215-216`). -/
structure Links where
  prev : Nat → Option Nat
  next : Nat → Option Nat
  head : Option Nat

namespace Links

/-- `e->prev_in_ael = p` (`vatti.h:136`). -/
def setPrev (h : Links) (e : Nat) (p : Option Nat) : Links := { h with prev := Function.update h.prev e p }

/-- `e->next_in_ael = n` (`vatti.h:137`). -/
def setNext (h : Links) (e : Nat) (n : Option Nat) : Links := { h with next := Function.update h.next e n }

/-- The search of `insert_into_ael(left, newcomer)` (`vatti.cpp:1087-1093`): returns `resident` and `next`. The loop may
run around a cycle for ever: then any `fuel` is too little (`none`). -/
def findPlace (valid : Nat → Nat → Bool) (n : Nat) (h : Links) : Nat → Nat → Option Nat → Option (Nat × Option Nat)
  | _, resident, none => some (resident, none)
  | 0, _, some _ => none
  | fuel + 1, resident, some nx =>
    -- `resident = resident->next_in_ael; next = next->next_in_ael;`
    if valid nx n then (h.next resident).bind (fun r => findPlace valid n h fuel r (h.next nx)) else some (resident, some nx)

/-- `insert_into_ael(left, newcomer)` for non-null `left` (`vatti.cpp:1087-1097`). -/
def insertAfter (valid : Nat → Nat → Bool) (n : Nat) (fuel left : Nat) (h : Links) : Option Links :=
  (findPlace valid n h fuel left (h.next left)).map (fun rn =>
    let h1 := h.setNext n rn.2
    let h2 := match rn.2 with
      | some nx => h1.setPrev nx (some n)
      | none => h1
    (h2.setPrev n (some rn.1)).setNext rn.1 (some n))

/-- `insert_into_ael(newcomer)` (`vatti.cpp:1061-1081`). -/
def insert (valid : Nat → Nat → Bool) (n : Nat) (fuel : Nat) (h : Links) : Option Links :=
  match h.head with
  | none => some (({ h with head := some n }.setPrev n none).setNext n none)
  | some f =>
    if valid f n then insertAfter valid n fuel f h
    else some { ((h.setPrev n none).setNext n (some f)).setPrev f (some n) with head := some n }

/-- `insert_into_ael(left, newcomer)` (`vatti.cpp:1083-1098`). -/
def insertLeft (valid : Nat → Nat → Bool) (n : Nat) (fuel : Nat) (left : Option Nat) (h : Links) : Option Links :=
  match left with
  | none => insert valid n fuel h
  | some l => insertAfter valid n fuel l h

/-- `take_from_ael` (`vatti.cpp:1100-1111`). -/
def take (e : Nat) (h : Links) : Links :=
  let prev := h.prev e
  let next := h.next e
  let h1 := match prev with
    | some p => h.setNext p next
    | none => { h with head := next }
  let h2 := match next with
    | some n => h1.setPrev n prev
    | none => h1
  (h2.setPrev e none).setNext e none

/-- `delete_active_edge` (`vatti.cpp:1452-1462`): the new links and the value returned. -/
def delete (e : Nat) (h : Links) : Links × Option Nat :=
  let next := h.next e
  let prev := h.prev e
  let h1 := match next with
    | some n => h.setPrev n prev
    | none => h
  let h2 := match prev with
    | some p => h1.setNext p next
    | none => { h1 with head := next }
  (h2, next)

/-- The first loop of `resort_ael` (`vatti.cpp:1228-1241`) at pointer level, without the bounds: `x` gives the abscissa of
an edge. Returns the links and the edges taken out. `none`: the loop does not end. -/
def resortTake {K : Type} [FNum K] (x : Nat → K) : Nat → List K → Option Nat → Links → List Nat → Option (Links × List Nat)
  | _, [], _, h, acc => some (h, acc)
  | _, _ :: _, none, h, acc => some (h, acc)
  | 0, _ :: _, some _, _, _ => none
  | fuel + 1, c :: cs, some e, h, acc =>
    if x e ==. c then resortTake x fuel (c :: cs) (h.next e) (h.take e) (acc ++ [e])
    else if c <. x e then resortTake x fuel cs (some e) h acc
    else resortTake x fuel (c :: cs) (h.next e) h acc

/-- `for (auto e : reinsert_list) insert_into_ael(e);` (`vatti.cpp:1243`). -/
def insertMany (valid : Nat → Nat → Bool) (fuel : Nat) (l : List Nat) (h : Links) : Option Links :=
  l.foldlM (fun h e => insert valid e fuel h) h

end Links

/-- The links of the output bound list (`vatti.cpp:969-979`). -/
def Outs.links {K : Type} (o : Outs K) : Links where
  prev i := (o.bounds[i]?).bind Bound.prev
  next i := (o.bounds[i]?).bind Bound.next
  head := o.oblFirst

end River
