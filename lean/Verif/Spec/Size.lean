import Verif.Spec.Process

/-! # What C95 says -/

namespace River
variable {K : Type}

/-- Number of vertices of contours. -/
def vertexCount (rings : List (Ring K)) : Nat := (rings.map (fun r => r.nodes.length)).sum

/-- At most this many scan lines for contours of `v` vertices that do not cross. -/
def linesAtMost (v : Nat) : Nat := v * (2 * v + 3) + 1

/-- At most this many calls of the callbacks for contours of `v` vertices that do not cross. -/
def callsAtMost (v : Nat) : Nat := linesAtMost v * (linesAtMost v + 1) * (2 * linesAtMost v + 1)

end River
