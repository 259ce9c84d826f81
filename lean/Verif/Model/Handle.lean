import Verif.Model.Reader

/-! # Objects of class `processor` (`/repo/src/include/river.h:70-90`, `/repo/src/src/processor.cpp:8-58`)

A `processor` is a pointer `pptr` to a `processor_private`. The class declares a destructor and no copy or move operation, so the
language supplies a copy constructor and a copy assignment that copy the pointer, and both also serve for moving. The member
`dcel` of `processor_private` is not reached by any function of the class and left out. -/

namespace River

/-- What a program does with variables of type `processor`; the choices left open inside a call come with the call (`river.h:74-90`). -/
inductive POp (K : Type) where
  | create (v : Nat)
  | copy (v w : Nat)
  | assign (v w : Nat)
  | destroy (v : Nat)
  | add (v : Nat) (ps : List (Path K)) (pt : PathType)
  | read (v : Nat) (calls : List (ReadCall K)) (pt : PathType)
  | process (v : Nat) (env : Env K) (msort : List (LocMin K) → List (LocMin K)) (fuel : Nat) (ct : ClipType) (fr : FillRule)
      (out : List (Path K))

/-- Why a program stops: an object that was freed is used or freed again, or a call itself is undefined or does not end (`processor.cpp:20-24`). -/
inductive Fault where
  | memory
  | call
deriving DecidableEq, Repr

/-- `heap`: the objects `processor_private` ever allocated, `none` after `delete`; `vars`: the pointer `pptr` of each variable, `none`
outside its life time; `log`: what the calls of `process` left in their `output`, with the variable. An address is never used twice:
a pointer to a freed object stays invalid whatever is allocated later (`river.h:89`, `processor.cpp:8-24`). -/
structure PState (K : Type) where
  heap : List (Option (Clipper K))
  vars : Nat → Option Nat
  log : List (Nat × List (Path K))

variable {K : Type}

/-- No variable, no object (before the first `processor`, `river.h:74-90`). -/
def PState.init : PState K := ⟨[], fun _ => none, []⟩

/-- The object the pointer of `v` refers to, with its address (`pptr->`, `processor.cpp:42, 47, 52, 57`). -/
def PState.deref (s : PState K) (v : Nat) : Except Fault (Nat × Clipper K) :=
  match s.vars v with
  | none => .error .memory
  | some a =>
    match s.heap[a]? with
    | some (some c) => .ok (a, c)
    | _ => .error .memory

/-- Point `v` to `a` (`processor.cpp:15`). -/
def PState.point (s : PState K) (v : Nat) (a : Option Nat) : PState K := { s with vars := Function.update s.vars v a }

variable [FTrans K]

/-- One operation.
* `create`: `processor::processor()` (`processor.cpp:14-18`).
* `copy`, `assign`: supplied by the language (`river.h:71-90` declares none).
* `destroy`: `processor::~processor()` (`processor.cpp:20-24`); deleting a freed object is undefined.
* `add`, `read`, `process`: `processor.cpp:40-53`. -/
def POp.step (s : PState K) : POp K → Except Fault (PState K)
  | .create v => .ok ({ s with heap := s.heap ++ [some Clipper.new] }.point v (some s.heap.length))
  | .copy v w => .ok (s.point v (s.vars w))
  | .assign v w => .ok (s.point v (s.vars w))
  | .destroy v => do
    let (a, _) ← s.deref v
    .ok ({ s with heap := s.heap.set a none }.point v none)
  | .add v ps pt => do
    let (a, c) ← s.deref v
    match c.addPath ps pt with
    | none => .error .call
    | some c' => .ok { s with heap := s.heap.set a (some c') }
  | .read v calls pt => do
    let (a, c) ← s.deref v
    match c.addReader calls pt with
    | none => .error .call
    | some c' => .ok { s with heap := s.heap.set a (some c') }
  | .process v env msort fuel ct fr out => do
    let (a, c) ← s.deref v
    match c.processPaths env msort fuel ct fr out with
    | some (some (c', out')) => .ok { s with heap := s.heap.set a (some c'), log := s.log ++ [(v, out')] }
    | _ => .error .call

/-- A program, from the beginning (calls of the members in `river.h:79-86`). -/
def runProg (p : List (POp K)) : Except Fault (PState K) := p.foldlM POp.step PState.init

end River
