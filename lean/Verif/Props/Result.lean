import Verif.Lemmas.Emit
import Verif.Props.Terminate

/-! # C56: for contours in general position `process` delivers the boundary of the result -/

namespace River
variable {K : Type}

/-- The callback that draws a side. -/
def Side.event (s : Side K) : Event K := ⟨s.frm, s.seg.cmd⟩

/-- The callback that draws a piece given by its first point and its segment. -/
def pieceEvent (p : Vec2 K × Seg K) : Event K := ⟨p.1, p.2.cmd⟩

/-- The callbacks that draw something. -/
def drawn (es : List (Event K)) : List (Event K) := es.filter (fun e => e.cmd.draws)

section
variable [FTrans K] [LinearOrder K] [Absc K] [LawfulOrd K] {rings : List (Ring K)}

omit [FTrans K] [LinearOrder K] [Absc K] [LawfulOrd K] in
theorem drawn_append (a b : List (Event K)) : drawn (a ++ b) = drawn a ++ drawn b := List.filter_append ..

omit [LinearOrder K] [LawfulOrd K] in
/-- The callbacks for a finished polygon. -/
theorem poly_events {o : Outs K} {tip : Nat → Vec2 K} {g : Ghost K} {k : Nat} {p : Poly K} (h : PolyOk o ∅ tip g k p) :
    eventsFrom zeroPt p.cmds = ⟨zeroPt, .moveto p.origin⟩ :: (g.1 ++ g.2.reverse).map (fun a => ⟨a.1, a.2.cmd⟩) ∧
      ClosedContour (eventsFrom zeroPt p.cmds) ∧ (p.written = false → g.1 = [] ∧ g.2 = []) := by
  have hc : p.complete = true := by
    cases hh : p.complete with
    | true => rfl
    | false =>
      obtain ⟨u, d, bu, bd, _, _, hu, _⟩ := h.bounds hh
      exact absurd hu (Set.notMem_empty u)
  obtain ⟨e1, e2⟩ := pchain_events (h.done hc)
  have hcmds : p.cmds = .moveto p.origin :: (g.1 ++ g.2.reverse).map (fun a => a.2.cmd) := by
    rw [Poly.cmds, h.up, h.down, ← List.map_reverse, ← List.map_append, List.map_map]
    rfl
  have hev : eventsFrom zeroPt p.cmds = ⟨zeroPt, .moveto p.origin⟩ :: eventsFrom p.origin ((g.1 ++ g.2.reverse).map (fun a => a.2.cmd)) := by
    rw [hcmds]; rfl
  refine ⟨by rw [hev, e1], ⟨p.origin, by rw [hev]; rfl, ?_⟩, ?_⟩
  · rw [hev, endPoint, List.getLast?_cons]
    rw [endPoint] at e2
    cases hl : (eventsFrom p.origin ((g.1 ++ g.2.reverse).map (fun a => a.2.cmd))).getLast? with
    | none => rfl
    | some e => rw [hl] at e2; exact e2
  · intro hw
    rw [Poly.written, hc, h.up, h.down] at hw
    simp at hw
    exact hw

omit [LinearOrder K] [LawfulOrd K] in
theorem contours_pieces {o : Outs K} {tip : Nat → Vec2 K} (G : Nat → Ghost K) (polys : List (Poly K))
    (h : ∀ k p, polys[k]? = some p → PolyOk o ∅ tip (G k) k p) :
    ((drawn (contours polys).flatten : List (Event K)) : Multiset (Event K)) =
      (∑ k ∈ Finset.range polys.length, (G k).all).map (fun a => ⟨a.1, a.2.cmd⟩) := by
  induction polys using List.reverseRecOn with
  | nil => rfl
  | append_singleton l p ih =>
    have hl : ∀ k q, l[k]? = some q → PolyOk o ∅ tip (G k) k q := by
      intro k q hk
      refine h k q ?_
      rw [List.getElem?_append_left (List.getElem?_eq_some_iff.1 hk).1]; exact hk
    have hp := h l.length p (by simp)
    obtain ⟨p1, p2, p3⟩ := poly_events hp
    rw [List.length_append, List.length_singleton, Finset.sum_range_succ, Multiset.map_add, ← ih hl]
    have hcont : contours (l ++ [p]) = contours l ++ contours [p] := by simp [contours]
    rw [hcont, List.flatten_append, drawn_append, ← Multiset.coe_add]
    congr 1
    by_cases hw : p.written = true
    · have hd : ∀ l : List (Piece K), drawn (l.map (fun a => (⟨a.1, a.2.cmd⟩ : Event K))) = l.map (fun a => ⟨a.1, a.2.cmd⟩) := by
        intro l
        rw [drawn, List.filter_eq_self]
        intro e he
        obtain ⟨a, _, rfl⟩ := List.mem_map.1 he
        cases ha : a.2 <;> rfl
      have h1 : (contours [p]).flatten = eventsFrom zeroPt p.cmds := by simp [contours, hw]
      rw [h1, p1]
      have h2 : drawn (⟨zeroPt, .moveto p.origin⟩ :: (((G l.length).1 ++ (G l.length).2.reverse).map (fun a => (⟨a.1, a.2.cmd⟩ : Event K)))) =
          ((G l.length).1 ++ (G l.length).2.reverse).map (fun a => (⟨a.1, a.2.cmd⟩ : Event K)) := by
        rw [drawn, List.filter_cons_of_neg (by simp [Cmd.draws])]; exact hd _
      rw [h2, Ghost.all, Multiset.map_coe, Multiset.coe_eq_coe]
      exact (List.Perm.append_left _ (List.reverse_perm _)).map _
    · obtain ⟨g1, g2⟩ := p3 (by simpa using hw)
      have h1 : (contours [p]).flatten = [] := by simp [contours, hw]
      rw [h1, Ghost.all, g1, g2]
      rfl

/-- **C56.** Let the processor hold any paths, not processed before. If the contours `rings` that remain after breaking the
paths at their intersections are in general position (`Arranged`), and the boundary of the result is consistently directed
(`Directed`), then `process` terminates without undefined behaviour, and the callbacks made are a sequence of closed
contours which draw exactly the sides that separate the inside of the result from its outside, each of them once and in its own
direction, of sides that coincide exactly one (`Outline`), and horizontal pieces `H` exactly where the result is on one side of a horizontal line and not on the other
(`HBoundary`). -/
theorem process_boundary (env : Env K) (hok : env.Ok) (msort : List (LocMin K) → List (LocMin K)) (hm : MinSort msort) (c : Clipper K)
    (hc : c.Reach env) (hnew : c.out.polys = []) (hp : processIntersect env c.rings = some rings) (A : Arranged rings)
    (ct : ClipType) (fr : FillRule) (σ : Int) (hσ : σ = 1 ∨ σ = -1) (D : Directed rings ct fr σ) :
    ∃ n, ∀ fuel, n ≤ fuel → ∃ (c' : Clipper K) (es : List (List (Event K))),
      c.process env msort fuel ct fr Path.recorder [] = some (some (c', es.flatten)) ∧
      (∀ x ∈ es, IsContour zeroPt x ∧ ClosedContour x) ∧
      ∃ (B : List (Side K)) (H : List (Vec2 K × Seg K)), Outline rings ct fr σ B ∧ HBoundary rings ct fr (H : Multiset (Vec2 K × Seg K)) ∧
        (drawn es.flatten).Perm (B.map Side.event ++ H.map pieceEvent) := by
  obtain ⟨hr, hsc⟩ := reach_ok env hok c hc
  refine ⟨roundBound rings, fun fuel hf => ?_⟩
  have hterm := process_rounds_of_ok env msort (fun l => (hm l).1) fuel c rings hp (processIntersect_ok env hok _ _ hr hp) ct fr
    (Path.recorder (K := K)) [] (by simp [hsc, hf])
  rw [Clipper.process, hp, hsc] at hterm ⊢
  simp only [Option.bind_some] at hterm ⊢
  cases hq : popScan (FNum.neg FNum.maxNum) (resetSt msort rings c.out c.changes []).scan with
  | none =>
    have := reset_none A hm c.out c.changes hq
    refine ⟨_, [], rfl, by simp, [], [], ⟨by simp, List.Pairwise.nil, by rw [this]; simp, by simp⟩, ⟨by simp, fun y X => ?_⟩, List.Perm.nil⟩
    rw [if_pos (same_of_sides ct fr (by rw [this]; simp) X)]
    rfl
  | some ys =>
    obtain ⟨y, sc⟩ := ys
    simp only [hq] at hterm ⊢
    have P : PolyInv c.out ∅ (fun _ => zeroPt) (0 : Multiset (Piece K)) :=
      ⟨⟨fun _ => ([], []), by rw [hnew]; simp, by rw [hnew]; rfl⟩, by simp⟩
    obtain ⟨r, h1, h2⟩ := sweep_all A hm hσ D P c.changes fuel hq
    rw [h1] at hterm ⊢
    simp only [Option.bind_some] at hterm ⊢
    cases r with
    | none => exact absurd rfl hterm
    | some st' =>
      obtain ⟨tip', B, H, hB, hH, ⟨G, hG, hsum⟩, _⟩ := h2 st' rfl
      simp only [buildOutput_recorder, List.nil_append, Option.map_some]
      refine ⟨_, contours st'.out.polys, rfl, ?_, B, H.toList, hB, by rw [Multiset.coe_toList]; exact hH, ?_⟩
      · intro x hx
        obtain ⟨p, hp', rfl⟩ := List.mem_map.1 hx
        obtain ⟨hp1, hp2⟩ := List.mem_filter.1 hp'
        obtain ⟨k, hk⟩ := List.getElem?_of_mem hp1
        exact ⟨poly_contour p hp2, (poly_events (hG k p hk)).2.1⟩
      · rw [← Multiset.coe_eq_coe, contours_pieces G _ hG, hsum, zero_add, piecesOf, Multiset.map_add, Multiset.map_coe, List.map_map,
          ← Multiset.coe_add, ← Multiset.map_coe pieceEvent, Multiset.coe_toList]
        rfl

omit [LawfulOrd K] in
/-- If the result is nowhere different just above and just below a horizontal line, there are no horizontal pieces. -/
theorem hboundary_none {ct : ClipType} {fr : FillRule} {H : Multiset (Vec2 K × Seg K)} (h : HBoundary rings ct fr H)
    (hs : ∀ y X, InBelow rings ct fr y X ↔ InAbove rings ct fr y X) : H = 0 := by
  rw [Multiset.eq_zero_iff_forall_notMem]
  intro p hp
  obtain ⟨y, a, b, hab, rfl⟩ := h.level p hp
  have := h.once y (max a b)
  rw [if_pos (hs y _), Multiset.countP_eq_zero] at this
  refine this _ hp ⟨rfl, fun hc => ?_⟩
  simp only [Seg.target] at hc
  rcases lt_or_gt_of_ne hab with h1 | h1
  · rw [max_eq_right h1.le] at hc; exact lt_irrefl _ (hc.1 h1)
  · rw [max_eq_left h1.le] at hc; exact lt_irrefl _ (hc.2 h1)

/-- **C56** for contours without horizontal sides: the output consists of the boundary sides only. -/
theorem process_boundary_steep (env : Env K) (hok : env.Ok) (msort : List (LocMin K) → List (LocMin K)) (hm : MinSort msort) (c : Clipper K)
    (hc : c.Reach env) (hnew : c.out.polys = []) (hp : processIntersect env c.rings = some rings) (A : Arranged rings)
    (hst : ∀ s ∈ sides rings, ¬ s.Flat)
    (ct : ClipType) (fr : FillRule) (σ : Int) (hσ : σ = 1 ∨ σ = -1) (D : Directed rings ct fr σ) :
    ∃ n, ∀ fuel, n ≤ fuel → ∃ (c' : Clipper K) (es : List (List (Event K))),
      c.process env msort fuel ct fr Path.recorder [] = some (some (c', es.flatten)) ∧
      (∀ x ∈ es, IsContour zeroPt x ∧ ClosedContour x) ∧
      ∃ B : List (Side K), Outline rings ct fr σ B ∧ (drawn es.flatten).Perm (B.map Side.event) := by
  obtain ⟨n, hn⟩ := process_boundary env hok msort hm c hc hnew hp A ct fr σ hσ D
  refine ⟨n, fun fuel hf => ?_⟩
  obtain ⟨c', es, h1, h2, B, H, hB, h3, h4⟩ := hn fuel hf
  refine ⟨c', es, h1, h2, B, hB, ?_⟩
  have h0 := hboundary_none h3 (fun y X => A.same_result ct fr (fun f hf hfl => absurd hfl (hst f hf)))
  rw [Multiset.coe_eq_zero] at h0
  rw [h0, List.map_nil, List.append_nil] at h4
  exact h4

/-! ## when the boundary is consistently directed -/

/-- Union and intersection under the positive and the negative fill rule. -/
theorem directed_positive (rings : List (Ring K)) (ct : ClipType) (hct : ct = .union ∨ ct = .intersection) :
    Directed rings ct .positive 1 := by
  intro s _ y _ C E _ hb
  generalize leftSides rings s y ++ C = l at hb ⊢
  have hw : ∀ t, wnS t (l ++ [s]) = wnS t l + if s.ptype = t then s.dx else 0 := by
    intro t
    unfold wnS
    rw [List.filter_append, List.map_append, List.sum_append]
    congr 1
    by_cases h : s.ptype = t <;> simp [h]
  have hd : s.dx = 1 ∨ s.dx = -1 := by unfold Side.dx; split <;> simp
  unfold inResultS at hb ⊢
  rw [hw, hw] at hb
  rcases hct with rfl | rfl <;> cases hp : s.ptype <;> rcases hd with h | h <;>
    simp [hp, h, ClipType.op, FillRule.inside] at hb ⊢ <;> omega

theorem directed_negative (rings : List (Ring K)) (ct : ClipType) (hct : ct = .union ∨ ct = .intersection) :
    Directed rings ct .negative (-1) := by
  intro s _ y _ C E _ hb
  generalize leftSides rings s y ++ C = l at hb ⊢
  have hw : ∀ t, wnS t (l ++ [s]) = wnS t l + if s.ptype = t then s.dx else 0 := by
    intro t
    unfold wnS
    rw [List.filter_append, List.map_append, List.sum_append]
    congr 1
    by_cases h : s.ptype = t <;> simp [h]
  have hd : s.dx = 1 ∨ s.dx = -1 := by unfold Side.dx; split <;> simp
  unfold inResultS at hb ⊢
  rw [hw, hw] at hb
  rcases hct with rfl | rfl <;> cases hp : s.ptype <;> rcases hd with h | h <;>
    simp [hp, h, ClipType.op, FillRule.inside] at hb ⊢ <;> omega

end
end River
