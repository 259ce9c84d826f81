import Verif.Model.Ring
import Verif.Spec.Path

/-! # Specification of closed contours -/

namespace River
variable {K : Type}

/-- `Y` lists the ordinates `ys` of a ring, continued periodically in both directions. -/
def IsCyc (ys : List K) (Y : ℤ → K) : Prop :=
  (∀ z, Y (z + ys.length) = Y z) ∧ ∀ (i : Nat) (y : K), ys[i]? = some y → Y i = y

/-- The outline comes down into position `z`: going back over positions of the same height one meets a higher one. -/
def DownInto [LT K] (Y : ℤ → K) (z : ℤ) : Prop := ∃ k : Nat, Y z < Y (z - (k + 1)) ∧ ∀ l : Nat, l ≤ k → Y (z - l) = Y z

/-- The outline comes up into position `z`. -/
def UpInto [LT K] (Y : ℤ → K) (z : ℤ) : Prop := ∃ k : Nat, Y (z - (k + 1)) < Y z ∧ ∀ l : Nat, l ≤ k → Y (z - l) = Y z

/-- Local minimum: down into it (ignoring horizontal steps), up out of it. -/
def LocalMin [LT K] (Y : ℤ → K) (z : ℤ) : Prop := DownInto Y z ∧ Y z < Y (z + 1)
/-- Local maximum: up into it (ignoring horizontal steps), down out of it. -/
def LocalMax [LT K] (Y : ℤ → K) (z : ℤ) : Prop := UpInto Y z ∧ Y (z + 1) < Y z

/-- The kinds of the flagged vertices in ring order: `true` = minimum, `false` = maximum. -/
def kinds (l : List (Vtx K)) : List Bool :=
  l.filterMap (fun v => if v.lmin then some true else if v.lmax then some false else none)

/-- Every segment ends at the next vertex, the last one at the first. -/
def Linked (l : List (Vtx K)) : Prop :=
  ∀ (i : Nat) (v w : Vtx K), l[i]? = some v → l[(i + 1) % l.length]? = some w → v.seg.target = w.pt

/-- A contour as drawn: a `moveto` and the commands up to the next `moveto`. -/
structure Drawn (K : Type) where
  start : Vec2 K
  body : List (Cmd K)

/-- The commands of a contour. -/
def Drawn.cmds (d : Drawn K) : List (Cmd K) := .moveto d.start :: d.body

/-- No `moveto` inside. -/
def Drawn.Ok (d : Drawn K) : Prop := ∀ c ∈ d.body, ∀ p, c ≠ .moveto p

/-- Drop consecutive repetitions, given the point before. -/
def dedupFrom [DecidableEq K] (a : Vec2 K) : List (Vec2 K) → List (Vec2 K)
  | [] => []
  | b :: l => if a = b then dedupFrom a l else b :: dedupFrom b l

/-- The corner points of the closed polygon drawn by straight lines through `p :: qs`: no consecutive repetitions, and
not the start again at the end. -/
def polygonPts [DecidableEq K] (p : Vec2 K) (qs : List (Vec2 K)) : List (Vec2 K) :=
  let l := p :: dedupFrom p qs
  if l.length > 1 ∧ l.getLast? = some p then l.dropLast else l

end River

namespace River
variable {K : Type}

/-- The directed edges (start point, segment) a drawing command stands for: nothing for a line to the pen position, a
straight line for a horizontal curve, otherwise the pieces of the curve. -/
def cmdEdges [FTrans K] (pen : Vec2 K) : Cmd K → List (Vec2 K × Seg K)
  | .moveto _ => []
  | .lineto q => if Vec2.bne pen q then [(pen, .line q)] else []
  | .cubicto c1 c2 q =>
    if (pen.y ==. c1.y) && (c1.y ==. c2.y) && (c2.y ==. q.y) then (if Vec2.bne pen q then [(pen, .line q)] else [])
    else (Cubic.readPieces ⟨pen, c1, c2, q⟩).map (fun b => (b.p0, .cubic b.p1 b.p2 b.p3))

/-- The edges of the commands of a contour, the pen starting at `pen`. -/
def bodyEdges [FTrans K] (pen : Vec2 K) : List (Cmd K) → List (Vec2 K × Seg K)
  | [] => []
  | c :: cs => cmdEdges pen c ++ bodyEdges c.target cs

/-- The closed outline of a contour: its edges, and a straight line back to the start if they end elsewhere. -/
def outline [FTrans K] (d : Drawn K) : List (Vec2 K × Seg K) :=
  match (bodyEdges d.start d.body).getLast? with
  | none => []
  | some e =>
    if Vec2.bne d.start e.2.target then bodyEdges d.start d.body ++ [(e.2.target, .line d.start)]
    else bodyEdges d.start d.body

end River
