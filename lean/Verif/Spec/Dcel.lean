import Verif.Model.Walk

/-! # Chains and cycles of half edges -/

namespace River

/-- Consecutive elements are linked in both directions. -/
def FaceGraph.Linked (g : FaceGraph) (l : List Nat) : Prop := l.IsChain (fun x y => g.next x = some y ∧ g.prev y = some x)

/-- The half edges of `c`, in order, form one cycle. -/
def FaceGraph.Cycle (g : FaceGraph) (c : List Nat) : Prop := c.Nodup ∧ ∃ a t, c = a :: t ∧ g.Linked (a :: t ++ [a])

/-- No vertex is visited twice. -/
def FaceGraph.Simple (g : FaceGraph) (c : List Nat) : Prop := (c.map g.fin).Nodup

/-- Half edges that lead from point `a` to point `b`, one after the other. -/
def Route {K : Type} (edges : List (Option (HEdge K))) : Nat → List Nat → Nat → Prop
  | a, [], b => a = b
  | a, id :: ids, b => ∃ e, edges[id]? = some (some e) ∧ e.start = a ∧ Route edges e.fin ids b

/-- Calls that build a structure: choosing the path type of later lines, adding a line. -/
inductive DCall (K : Type) where
  | type (t : PathType)
  | line (x1 y1 x2 y2 : K)

/-- The structure after one call. -/
def DCall.run {K : Type} [FNum K] (d : Dcel K) : DCall K → Dcel K
  | .type t => { d with cur := t }
  | .line x1 y1 x2 y2 => d.addLine x1 y1 x2 y2

/-- The structure after a sequence of calls. -/
def Dcel.after {K : Type} [FNum K] (cs : List (DCall K)) : Dcel K := cs.foldl DCall.run ⟨.subject, [], []⟩

/-- What is left open is chosen as the language demands: sorting and visiting permute. -/
structure DOrder.Ok {K : Type} (o : DOrder K) : Prop where
  iter : ∀ l, (o.iter l).Perm l
  addr : Function.Injective o.scanAddr
  sortB : ∀ s e l, (o.sortB s e l).Perm l
  sortP : ∀ d l, (o.sortP d l).Perm l

/-- The half edge with number `i` exists and runs from point `a` to point `b`. -/
def Dcel.Runs {K : Type} (d : Dcel K) (i a b : Nat) : Prop := ∃ e, d.edges[i]? = some (some e) ∧ e.start = a ∧ e.fin = b

/-- The faces of `d` given by the links in `s`: `cs` lists the half edges of each face. -/
structure Dcel.Faced {K : Type} (d : Dcel K) (s : WalkSt) (cs : List (List Nat)) : Prop where
  /-- every face begins at the half edge recorded for it -/
  starts : List.Forall₂ (fun a c => c.head? = some a) s.faces cs
  /-- the half edges of a face form a cycle, in both directions -/
  cycle : ∀ c ∈ cs, s.g.Cycle c
  /-- every half edge that exists lies in exactly one face, once -/
  once : cs.flatten.Perm d.live
  /-- the next half edge of a face starts at the point where the half edge before it ends -/
  joined : ∀ c ∈ cs, ∀ x ∈ c, ∃ y ∈ c, ∃ a p b, s.g.next x = some y ∧ d.Runs x a p ∧ d.Runs y p b
  /-- a face passes every point at most once -/
  simple : ∀ c ∈ cs, c.Pairwise (fun x y => ∀ a b p q, d.Runs x a p → d.Runs y b q → p ≠ q)

/-- Turning counter-clockwise from direction `θ`, direction `a` is not met later than direction `b` (a full turn comes last). -/
def CcwLe {K : Type} [LinearOrder K] (θ a b : K) : Prop := (θ < a ∧ (θ < b → a ≤ b)) ∨ (a ≤ θ ∧ b ≤ θ ∧ a ≤ b)

end River
