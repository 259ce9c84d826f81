import Verif.Props.Terminate
import Verif.Props.Segment

/-! # C43: recognising coincident edges -/

namespace River
variable {K : Type}

/-- The edge belongs to its segment: an ascending edge runs from the segment's start to its target, a descending one the
other way round. `frm` is the start point `get_seg` reports. -/
def Attached (rings : List (Ring K)) (e : Edge K) : Prop :=
  ∃ s frm, getSeg rings e = some (s, frm) ∧ (if e.isUp then frm = e.bot ∧ s.target = e.top else frm = e.top ∧ s.target = e.bot)

/-- The points of an edge from its lower to its upper end, as a function of the parameter. -/
def Edge.rise {R : Type} [Field R] (s : Seg R) (e : Edge R) (t : R) : Vec2 R :=
  if e.isUp then s.trace e.bot t else s.trace e.top (1 - t)

/-- The control points of an edge's segment from the lower to the upper end. -/
def Edge.controls (s : Seg K) (e : Edge K) : List (Vec2 K) :=
  match s with
  | .line _ => []
  | .cubic c1 c2 _ => if e.isUp then [c1, c2] else [c2, c1]

section
variable [FNum K] [LinearOrder K] [LawfulOrd K]

/-- **C43**: what `is_same` decides: same ends, same kind and, for curves, the same pair of control points in either
order. -/
theorem isSame_iff (rings : List (Ring K)) (a b : Edge K) (sa sb : Seg K) (fa fb : Vec2 K) (ha : getSeg rings a = some (sa, fa))
    (hb : getSeg rings b = some (sb, fb)) : isSame rings a b = true ↔
      a.bot = b.bot ∧ a.top = b.top ∧ (a.controls sa = b.controls sb ∨ a.controls sa = (b.controls sb).reverse) ∧
        sa.isCubic = sb.isCubic := by
  rw [isSame, ha, hb]
  cases sa with
  | line ta =>
    cases sb with
    | line tb => simp [Vec2.beq_iff, Edge.controls, Seg.isCubic]
    | cubic d1 d2 tb => simp [Seg.isCubic]
  | cubic c1 c2 ta =>
    cases sb with
    | line tb => simp [Seg.isCubic]
    | cubic d1 d2 tb =>
      simp only [Bool.and_eq_true, Bool.or_eq_true, Vec2.beq_iff, Edge.controls, Seg.isCubic, and_true]
      cases a.isUp <;> cases b.isUp <;> simp <;> tauto

/-- **C43**, completeness: edges with the same ends and the same control points from below are recognised; in particular an
edge and its exact copy, and an edge and the same segment drawn in the opposite direction. -/
theorem isSame_complete (rings : List (Ring K)) (a b : Edge K) (sa sb : Seg K) (fa fb : Vec2 K)
    (ha : getSeg rings a = some (sa, fa)) (hb : getSeg rings b = some (sb, fb)) (h1 : a.bot = b.bot) (h2 : a.top = b.top)
    (h3 : sa.isCubic = sb.isCubic) (h4 : a.controls sa = b.controls sb) : isSame rings a b = true :=
  (isSame_iff rings a b sa sb fa fb ha hb).2 ⟨h1, h2, Or.inl h4, h3⟩

omit [FNum K] [LinearOrder K] [LawfulOrd K] in
/-- A segment and its reversal have the same control points from below. -/
theorem controls_reverse (s : Seg K) (frm : Vec2 K) (a b : Edge K) (h : a.isUp = !b.isUp) :
    a.controls s = b.controls (s.reverse frm) := by
  cases s with
  | line t => rfl
  | cubic c1 c2 t =>
    rw [Edge.controls, Seg.reverse, Edge.controls, h]
    cases b.isUp <;> rfl

end

section exact
variable {R : Type} [Field R] [FNum R] [LinearOrder R] [LawfulOrd R]

/-- **C43**, soundness, where it holds: straight edges, and curves whose control points agree in order, trace the same
points. Missing for the full property: `is_same` also accepts curves whose control points agree in the wrong order
(`isSame_false_positive`). -/
theorem isSame_sound_partial (rings : List (Ring R)) (a b : Edge R) (sa sb : Seg R) (fa fb : Vec2 R)
    (ha : getSeg rings a = some (sa, fa)) (hb : getSeg rings b = some (sb, fb)) (hta : Attached rings a) (htb : Attached rings b)
    (h : isSame rings a b = true) (hord : sa.isCubic = true → a.controls sa = b.controls sb) (t : R) :
    a.rise sa t = b.rise sb t := by
  obtain ⟨h1, h2, _, h4⟩ := (isSame_iff rings a b sa sb fa fb ha hb).1 h
  obtain ⟨s, f, hs, hA⟩ := hta
  rw [ha] at hs
  simp only [Option.some.injEq, Prod.mk.injEq] at hs
  obtain ⟨rfl, rfl⟩ := hs
  obtain ⟨s, f, hs, hB⟩ := htb
  rw [hb] at hs
  simp only [Option.some.injEq, Prod.mk.injEq] at hs
  obtain ⟨rfl, rfl⟩ := hs
  cases sa with
  | line ta =>
    cases sb with
    | cubic d1 d2 tb => simp [Seg.isCubic] at h4
    | line tb =>
      simp only [Edge.rise, Seg.trace, Seg.target] at *
      cases hu : a.isUp <;> cases hv : b.isUp <;> simp only [hu, hv, Bool.false_eq_true, if_true, if_false] at *
      all_goals
        rw [hA.2, hB.2, h1, h2]
        try (ext <;> simp [lerp] <;> ring)
  | cubic c1 c2 ta =>
    cases sb with
    | line tb => simp [Seg.isCubic] at h4
    | cubic d1 d2 tb =>
      have hc := hord rfl
      simp only [Edge.rise, Seg.trace, Seg.target, Edge.controls] at *
      cases hu : a.isUp <;> cases hv : b.isUp <;> simp only [hu, hv, Bool.false_eq_true, if_true, if_false] at *
      all_goals
        simp only [List.cons.injEq, and_true] at hc
        rw [hA.2, hB.2, hc.1, hc.2, h1, h2]
        try (ext <;> simp [Cubic.eval, bern] <;> ring)

end exact

/-- A ring with one ascending curve and a closing line. -/
def bulge (c1 c2 : Vec2 ℚ) : Ring ℚ := ⟨[⟨⟨0, 0⟩, .cubic c1 c2 ⟨0, 3⟩, true, false⟩, ⟨⟨0, 3⟩, .line ⟨0, 0⟩, false, true⟩], .subject⟩

/-- **C43 is false**: two ascending curves from `(0,0)` to `(0,3)`, both with growing ordinates, are taken for the same edge
although they trace different points. -/
theorem isSame_false_positive :
    let rings := [bulge ⟨1, 1⟩ ⟨0, 2⟩, bulge ⟨0, 2⟩ ⟨1, 1⟩]
    let e : Nat → Edge ℚ := fun i => { eid := i, bot := ⟨0, 0⟩, top := ⟨0, 3⟩, currX := 0, windDx := -1, ring := i, vtop := 1, ptype := .subject }
    Attached rings (e 0) ∧ Attached rings (e 1) ∧ isSame rings (e 0) (e 1) = true ∧
      (e 0).rise (.cubic ⟨1, 1⟩ ⟨0, 2⟩ ⟨0, 3⟩) (1 / 3) ≠ (e 1).rise (.cubic ⟨0, 2⟩ ⟨1, 1⟩ ⟨0, 3⟩) (1 / 3) ∧
      (∀ s t : ℚ, s < t → ((e 0).rise (.cubic ⟨1, 1⟩ ⟨0, 2⟩ ⟨0, 3⟩) s).y < ((e 0).rise (.cubic ⟨1, 1⟩ ⟨0, 2⟩ ⟨0, 3⟩) t).y ∧
        ((e 1).rise (.cubic ⟨0, 2⟩ ⟨1, 1⟩ ⟨0, 3⟩) s).y < ((e 1).rise (.cubic ⟨0, 2⟩ ⟨1, 1⟩ ⟨0, 3⟩) t).y) := by
  refine ⟨⟨_, _, rfl, by decide⟩, ⟨_, _, rfl, by decide⟩, by decide, ?_, ?_⟩
  · intro h
    have := congrArg Vec2.x h
    simp [Edge.rise, Edge.isUp, Seg.trace, Cubic.eval, bern] at this
    norm_num at this
  · intro s t hst
    simp only [Edge.rise, Edge.isUp, Seg.trace, Cubic.eval, bern]
    norm_num
    constructor
    · nlinarith [sq_nonneg (s - t), sq_nonneg (s + t)]
    · nlinarith [sq_nonneg (s - t), sq_nonneg (s + t - 1), mul_pos (sub_pos.2 hst) (sub_pos.2 hst), sq_nonneg (s - 1/2), sq_nonneg (t - 1/2)]

/-- C43: an edge and the same curve drawn downwards are recognised as the same edge. -/
example :
    let rings : List (Ring ℚ) := [bulge ⟨1, 1⟩ ⟨0, 2⟩,
      ⟨[⟨⟨0, 3⟩, .cubic ⟨0, 2⟩ ⟨1, 1⟩ ⟨0, 0⟩, false, true⟩, ⟨⟨0, 0⟩, .line ⟨0, 3⟩, true, false⟩], .clip⟩]
    isSame rings
      { eid := 0, bot := ⟨0, 0⟩, top := ⟨0, 3⟩, currX := 0, windDx := -1, ring := 0, vtop := 1, ptype := .subject }
      { eid := 1, bot := ⟨0, 0⟩, top := ⟨0, 3⟩, currX := 0, windDx := 1, ring := 1, vtop := 0, ptype := .clip } = true := by
  decide

end River
