import Verif.Spec.Upright
import Verif.Spec.CurvedCross

/-! # Specification: contours that cross, whose curved sides rise or fall all the way -/

namespace River.Upright
variable {K : Type}

attribute [local instance 10000] FTrans.toFNum

variable [Field K] [LinearOrder K] [FTrans K]

/-- Closed contours of straight and curved sides, each of which rises or falls all the way. They may cross each other and themselves.
* All coordinates are in the range of finite doubles.
* With the curved sides, and with their parts between neighbouring ends or common points, the library's own functions deal correctly
  (`traced`, `parts`), and the library's bounding box contains them (`boxed`).
* No common point of two sides lies closer than `1e-6` to an end of one of them without being that end (`meet`); so sides do not overlap.
* About the intersections of sides the library does not err (`truthful`).
* Through no point more than two sides lead up (`feet`). -/
structure CrossingLoops (Ls : List (Loop K)) : Prop where
  closed : ∀ l ∈ Ls, l.Closed
  range : ∀ s ∈ Ls.flatMap Loop.sides, ∀ p ∈ sidePoints s, -(dblMax : K) ≤ p.x ∧ p.x ≤ dblMax ∧ -(dblMax : K) < p.y ∧ p.y ≤ dblMax
  runs : ∀ s ∈ Ls.flatMap Loop.sides, Climbs s ∨ Drops s
  traced : ∀ s ∈ Ls.flatMap Loop.sides, Traced s
  parts : ∀ s ∈ Ls.flatMap Loop.sides, ∀ a b, Stop (Ls.flatMap Loop.sides) s a → Stop (Ls.flatMap Loop.sides) s b →
    (∀ t, Stop (Ls.flatMap Loop.sides) s t → ¬ (a < t ∧ t < b)) → ∀ w, IsPart s w a b → Traced w
  boxed : ∀ s ∈ Ls.flatMap Loop.sides, s.2.isCubic = true → ∀ r, 0 ≤ r → r ≤ 1 → (s.2.boundary s.1).Mem (sidePoint s r)
  meet : (Ls.flatMap Loop.sides).Pairwise (fun s t => ∀ a b, Meet2 s t a b → ClearPos a ∧ ClearPos b)
  truthful : (Ls.flatMap Loop.sides).Pairwise (fun s t => Far s t ∨ Truthful s t)
  feet : ∀ s ∈ Ls.flatMap Loop.sides, ∀ t ∈ Ls.flatMap Loop.sides, ∀ u ∈ Ls.flatMap Loop.sides, ∀ a b c, Meet2 s t a b → Meet2 t u b c →
    (sidePoint s a).y < highest s → (sidePoint s a).y < highest t → (sidePoint s a).y < highest u → s = t ∨ s = u ∨ t = u

end River.Upright
