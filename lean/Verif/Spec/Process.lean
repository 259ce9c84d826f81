import Verif.Model.Reader
import Verif.Spec.Ring
import Verif.Props.Path

/-! # Specification: the states of a processor that the public API can produce -/

namespace River
variable {K : Type}

/-- A stored contour: closed, with a local minimum, a local maximum and two vertices of different height. -/
structure RingOk (r : Ring K) : Prop where
  linked : Linked r.nodes
  hasMin : ∃ v ∈ r.nodes, v.lmin = true
  hasMax : ∃ v ∈ r.nodes, v.lmax = true
  heights : ∃ v ∈ r.nodes, ∃ w ∈ r.nodes, v.pt.y ≠ w.pt.y

/-- The states of a processor after any number of calls of `add_path` (with any paths drawn through the API, or with any reader)
and `process` (with any operation, fill rule, callbacks) in any order, as long as no call was undefined or endless. -/
inductive Clipper.Reach [FTrans K] (env : Env K) : Clipper K → Prop
  | new : Reach env Clipper.new
  | addPath {c c' : Clipper K} (css : List (List (Cmd K))) (pt : PathType) : Reach env c →
      c.addPath (css.map Path.build) pt = some c' → Reach env c'
  | addReader {c c' : Clipper K} (calls : List (ReadCall K)) (pt : PathType) : Reach env c →
      c.addReader calls pt = some c' → Reach env c'
  | process {c c' : Clipper K} {σ : Type} (msort : List (LocMin K) → List (LocMin K)) (hm : ∀ l, (msort l).Perm l) (fuel : Nat)
      (ct : ClipType) (fr : FillRule) (f : Funcs K σ) (u u' : σ) : Reach env c →
      c.process env msort fuel ct fr f u = some (some (c', u')) → Reach env c'

end River
