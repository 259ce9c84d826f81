import Verif.Props.Ieee
import Verif.Props.IeeeDemo
import Verif.Props.Presentation
import Verif.Props.Equivariant
import Verif.Props.Area
import Verif.Props.Direction

/-! # C61, C70, C71 and C76 with IEEE 754 doubles: direction, presentation, moving, areas -/

namespace River
attribute [local instance 10000] FTrans.toFNum

variable {e : ℤ}

theorem CrossPolygons.same {Ps Qs : List (List (Vec2 ℚ))} (G : CrossPolygons Ps) (h : SamePolygons Ps Qs) : CrossPolygons Qs := by
  refine ⟨G.general.same h, fun Q hQ q hq => ?_, h.sides.pairwise G.meets ?_⟩
  · obtain ⟨P, hP, hr⟩ := h.mem hQ
    exact G.grid P hP q (hr.mem_iff.2 hq)
  · rintro s t (h | h)
    · exact Or.inl (fun p h1 h2 => (h p h2 h1).symm)
    · exact Or.inr h.symm

/-- **C70 with IEEE doubles.** Polygons as in C92, given with their corners in any representation: the order in which they are added, the corner each of them
begins at, the signs of the zeros, the results of the sorts, and for the symmetric operations also which of the two sets is the subject, make no difference to the
points enclosed by the values delivered. -/
theorem presentation_ieee (he : -100 ≤ e ∧ e ≤ 100) (env env' : Env Dbl) (hok : env.Ok) (hok' : env'.Ok)
    (msort msort' : List (LocMin Dbl) → List (LocMin Dbl)) (hm : MinSort msort) (hm' : MinSort msort')
    (subject clip subject' clip' : List (List (Vec2 Dbl))) (S C S' C' : List (List (Vec2 ℚ)))
    (hS : List.Forall₂ (List.Forall₂ Vec2.Is) subject (timesAll (2 ^ e) S)) (hC : List.Forall₂ (List.Forall₂ Vec2.Is) clip (timesAll (2 ^ e) C))
    (hS' : List.Forall₂ (List.Forall₂ Vec2.Is) subject' (timesAll (2 ^ e) S')) (hC' : List.Forall₂ (List.Forall₂ Vec2.Is) clip' (timesAll (2 ^ e) C'))
    (G : CrossPolygons (S ++ C)) (ct : ClipType) (fr : FillRule) (σ : Int) (hσ : σ = 1 ∨ σ = -1) (hO : Consistent S C ct fr σ)
    (hsame : (SamePolygons S S' ∧ SamePolygons C C') ∨
      (SamePolygons S C' ∧ SamePolygons C S' ∧ (ct = .union ∨ ct = .intersection ∨ ct = .xor))) :
    ∃ n, ∀ fuel, n ≤ fuel → ∃ c1 c2 c3 c4 c' c'' : Clipper Dbl, ∃ (es es' : List (Event Dbl)) (out out' : List (List (Vec2 ℚ))),
      (Clipper.new (K := Dbl)).addPath (subject.map (fun P => Path.build (polyCmds P))) .subject = some c1 ∧
      c1.addPath (clip.map (fun P => Path.build (polyCmds P))) .clip = some c2 ∧
      (Clipper.new (K := Dbl)).addPath (subject'.map (fun P => Path.build (polyCmds P))) .subject = some c3 ∧
      c3.addPath (clip'.map (fun P => Path.build (polyCmds P))) .clip = some c4 ∧
      c2.process env msort fuel ct fr Path.recorder [] = some (some (c', es)) ∧
      c4.process env' msort' fuel ct fr Path.recorder [] = some (some (c'', es')) ∧
      List.Forall₂ Event.Is es (out.flatMap (fun Q => eventsFrom ⟨0, 0⟩ (closedCmds Q))) ∧
      List.Forall₂ Event.Is es' (out'.flatMap (fun Q => eventsFrom ⟨0, 0⟩ (closedCmds Q))) ∧
      ∀ X y, polyWinding out X y = polyWinding out' X y := by
  classical
  have key : CrossPolygons (S' ++ C') ∧ Consistent S' C' ct fr σ ∧ ∀ X y, InResult S C ct fr X y ↔ InResult S' C' ct fr X y := by
    rcases hsame with ⟨h1, h2⟩ | ⟨h1, h2, h3⟩
    · refine ⟨G.same (h1.append h2), hO.same h1 h2, fun X y => ?_⟩
      unfold InResult
      rw [h1.winding, h2.winding]
    · have hct : ∀ a b, ct.op a b ↔ ct.op b a := by
        intro a b
        rcases h3 with rfl | rfl | rfl <;> simp only [ClipType.op] <;> tauto
      refine ⟨(G.same (SamePolygons.of_perm List.perm_append_comm)).same (h2.append h1), (hO.swap hct).same h2 h1, fun X y => ?_⟩
      unfold InResult
      rw [hct, h1.winding, h2.winding]
  obtain ⟨G', hO', hin⟩ := key
  obtain ⟨c1, c2, e1, e2, n, hn⟩ := process_ieee_crossing_scaled he env hok msort hm subject clip S C hS hC G ct fr σ hσ hO
  obtain ⟨c3, c4, e3, e4, n', hn'⟩ := process_ieee_crossing_scaled he env' hok' msort' hm' subject' clip' S' C' hS' hC' G' ct fr σ hσ hO'
  refine ⟨max n n', fun fuel hf => ?_⟩
  obtain ⟨c', es, out, p1, p2, p3, _⟩ := hn fuel ((le_max_left _ _).trans hf)
  obtain ⟨c'', es', out', q1, q2, q3, _⟩ := hn' fuel ((le_max_right _ _).trans hf)
  refine ⟨c1, c2, c3, c4, c', c'', es, es', out, out', e1, e2, e3, e4, p1, q1, p2, q2, fun X y => ?_⟩
  have hp : (0 : ℚ) < 2 ^ e := by positivity
  rw [p3, q3]
  simp only [inResult_times hp, hin]

/-! ## moving -/

/-- The point moved by whole numbers. -/
def Vec2.moved (m k : ℤ) (p : Vec2 ℚ) : Vec2 ℚ := ⟨p.x + m, p.y + k⟩

/-- Polygons moved. -/
def movedAll (m k : ℤ) (Ps : List (List (Vec2 ℚ))) : List (List (Vec2 ℚ)) := Ps.map (fun P => P.map (Vec2.moved m k))

/-- As a special case of stretching. -/
def moveBy (m k : ℤ) : Stretch ℚ := ⟨1, 1, m, k, one_pos, one_pos⟩

theorem moveBy_pt (m k : ℤ) : (moveBy m k).pt = Vec2.moved m k := by
  funext p
  simp [Stretch.pt, moveBy, Vec2.moved]

theorem moveBy_polys (m k : ℤ) (Ps : List (List (Vec2 ℚ))) : (moveBy m k).polys Ps = movedAll m k Ps := by
  unfold Stretch.polys movedAll
  rw [moveBy_pt]

theorem OnSeg.onGrid {p a b : Vec2 ℚ} (h : OnSeg p a b) (ha : OnGrid a) (hb : OnGrid b) {x y : ℤ} (hp : p = ⟨x, y⟩) : OnGrid p := by
  obtain ⟨t, t0, t1, e⟩ := h
  obtain ⟨a1, a2, ha1, ha2, rfl⟩ := ha
  obtain ⟨b1, b2, hb1, hb2, rfl⟩ := hb
  have key : ∀ {u v w : ℤ}, |u| ≤ 2 ^ 15 → |v| ≤ 2 ^ 15 → (w : ℚ) = u + t * (v - u) → |w| ≤ 2 ^ 15 := by
    intro u v w hu hv hw
    rw [abs_le] at hu hv ⊢
    obtain ⟨u1, u2⟩ := hu
    obtain ⟨v1, v2⟩ := hv
    have u1' : (-2 ^ 15 : ℚ) ≤ u := by exact_mod_cast u1
    have u2' : (u : ℚ) ≤ 2 ^ 15 := by exact_mod_cast u2
    have v1' : (-2 ^ 15 : ℚ) ≤ v := by exact_mod_cast v1
    have v2' : (v : ℚ) ≤ 2 ^ 15 := by exact_mod_cast v2
    have hw' : (w : ℚ) = (1 - t) * u + t * v := by rw [hw]; ring
    have s0 : 0 ≤ 1 - t := by linarith
    constructor
    · have : (-2 ^ 15 : ℚ) ≤ w := by
        rw [hw']
        nlinarith [mul_le_mul_of_nonneg_left u1' s0, mul_le_mul_of_nonneg_left v1' t0]
      exact_mod_cast this
    · have : (w : ℚ) ≤ 2 ^ 15 := by
        rw [hw']
        nlinarith [mul_le_mul_of_nonneg_left u2' s0, mul_le_mul_of_nonneg_left v2' t0]
      exact_mod_cast this
  rw [hp] at e
  have e1 := congrArg Vec2.x e
  have e2 := congrArg Vec2.y e
  simp only [lerp] at e1 e2
  exact ⟨x, y, key ha1 hb1 e1, key ha2 hb2 e2, hp⟩

theorem side_ends {K : Type} {P : List (Vec2 K)} {s : Vec2 K × Vec2 K} (h : s ∈ polySides P) : s.1 ∈ P ∧ s.2 ∈ P := by
  unfold polySides at h
  exact ⟨(List.of_mem_zip h).1, List.mem_rotate.1 (List.of_mem_zip h).2⟩

theorem CrossPolygons.moved {Ps : List (List (Vec2 ℚ))} (G : CrossPolygons Ps) {m k : ℤ} (hg : ∀ P ∈ movedAll m k Ps, ∀ p ∈ P, OnGrid p) :
    CrossPolygons (movedAll m k Ps) := by
  have hr : ∀ P ∈ (moveBy m k).polys Ps, ∀ p ∈ P, -(dblMax : ℚ) ≤ p.x ∧ p.x ≤ dblMax ∧ -(dblMax : ℚ) < p.y ∧ p.y ≤ dblMax := by
    intro P hP p hp
    rw [moveBy_polys] at hP
    obtain ⟨a, b, ha, hb, rfl⟩ := hg P hP p hp
    have big : (2 ^ 15 : ℚ) < dblMax := (by norm_num : (2 ^ 15 : ℚ) < 2 ^ 200).trans max_mid
    rw [abs_le] at ha hb
    have a1 : (-2 ^ 15 : ℚ) ≤ a := by exact_mod_cast ha.1
    have a2 : (a : ℚ) ≤ 2 ^ 15 := by exact_mod_cast ha.2
    have b1 : (-2 ^ 15 : ℚ) ≤ b := by exact_mod_cast hb.1
    have b2 : (b : ℚ) ≤ 2 ^ 15 := by exact_mod_cast hb.2
    exact ⟨(neg_lt_neg big).le.trans a1, a2.trans big.le, (neg_lt_neg big).trans_le b1, b2.trans big.le⟩
  have hgen := G.general.stretch (moveBy m k) hr
  rw [moveBy_polys] at hgen
  refine ⟨hgen, hg, ?_⟩
  have hside : ∀ s ∈ (movedAll m k Ps).flatMap polySides, OnGrid s.1 ∧ OnGrid s.2 := by
    intro s hs
    obtain ⟨P, hP, hs⟩ := List.mem_flatMap.1 hs
    exact ⟨hg P hP _ (side_ends hs).1, hg P hP _ (side_ends hs).2⟩
  rw [← moveBy_polys, (moveBy m k).flatSides] at hside ⊢
  rw [List.pairwise_map]
  refine G.meets.imp_of_mem ?_
  rintro s t hs ht (h | h)
  · refine Or.inl (fun p h1 h2 => ?_)
    obtain ⟨p0, rfl, g1⟩ := (moveBy m k).onSeg h1
    have g2 := (moveBy m k).onSeg_iff.1 h2
    obtain ⟨i1, i2⟩ := h p0 g1 g2
    exact ⟨i1.imp (congrArg _) (congrArg _), i2.imp (congrArg _) (congrArg _)⟩
  · have d : ∀ s : Vec2 ℚ × Vec2 ℚ, segDir (Prod.map (moveBy m k).pt (moveBy m k).pt s) = segDir s := by
      intro s
      refine Vec2.ext ?_ ?_ <;> simp [segDir, Stretch.pt, moveBy]
    have n : ∀ s t : Vec2 ℚ × Vec2 ℚ, meetNum (Prod.map (moveBy m k).pt (moveBy m k).pt s) (Prod.map (moveBy m k).pt (moveBy m k).pt t) = meetNum s t := by
      intro s t
      unfold meetNum
      rw [d]
      congr 1
      refine Vec2.ext ?_ ?_ <;> simp [Stretch.pt, moveBy]
    refine Or.inr ⟨by rw [d, d]; exact h.steep, by rw [d, d, n]; exact h.left, by rw [d, d, n]; exact h.right, fun p h1 h2 => ?_⟩
    obtain ⟨p0, rfl, g1⟩ := (moveBy m k).onSeg h1
    obtain ⟨a, b, _, _, rfl⟩ := h.grid p0 g1 ((moveBy m k).onSeg_iff.1 h2)
    have hs' := hside _ (List.mem_map_of_mem hs)
    exact OnSeg.onGrid h1 hs'.1 hs'.2 (x := a + m) (y := b + k) (by rw [moveBy_pt]; simp [Vec2.moved])

theorem moved_winding (m k : ℤ) (Ps : List (List (Vec2 ℚ))) (X y : ℚ) : polyWinding (movedAll m k Ps) (X + m) (y + k) = polyWinding Ps X y := by
  have := (moveBy m k).winding Ps X y
  rw [moveBy_polys] at this
  simpa [moveBy] using this

/-- **C71 with IEEE doubles.** Polygons as in C92, moved by `2 ^ e` times whole numbers such that they stay on the grid: the points enclosed by the result
are moved likewise. -/
theorem process_ieee_moved (he : -100 ≤ e ∧ e ≤ 100) (env env' : Env Dbl) (hok : env.Ok) (hok' : env'.Ok)
    (msort msort' : List (LocMin Dbl) → List (LocMin Dbl)) (hm : MinSort msort) (hm' : MinSort msort')
    (subject clip subject' clip' : List (List (Vec2 Dbl))) (S C : List (List (Vec2 ℚ))) (m k : ℤ)
    (hS : List.Forall₂ (List.Forall₂ Vec2.Is) subject (timesAll (2 ^ e) S)) (hC : List.Forall₂ (List.Forall₂ Vec2.Is) clip (timesAll (2 ^ e) C))
    (hS' : List.Forall₂ (List.Forall₂ Vec2.Is) subject' (timesAll (2 ^ e) (movedAll m k S)))
    (hC' : List.Forall₂ (List.Forall₂ Vec2.Is) clip' (timesAll (2 ^ e) (movedAll m k C)))
    (G : CrossPolygons (S ++ C)) (hg : ∀ P ∈ movedAll m k (S ++ C), ∀ p ∈ P, OnGrid p)
    (ct : ClipType) (fr : FillRule) (σ : Int) (hσ : σ = 1 ∨ σ = -1) (hO : Consistent S C ct fr σ) :
    ∃ n, ∀ fuel, n ≤ fuel → ∃ c1 c2 c3 c4 c' c'' : Clipper Dbl, ∃ (es es' : List (Event Dbl)) (out out' : List (List (Vec2 ℚ))),
      (Clipper.new (K := Dbl)).addPath (subject.map (fun P => Path.build (polyCmds P))) .subject = some c1 ∧
      c1.addPath (clip.map (fun P => Path.build (polyCmds P))) .clip = some c2 ∧
      (Clipper.new (K := Dbl)).addPath (subject'.map (fun P => Path.build (polyCmds P))) .subject = some c3 ∧
      c3.addPath (clip'.map (fun P => Path.build (polyCmds P))) .clip = some c4 ∧
      c2.process env msort fuel ct fr Path.recorder [] = some (some (c', es)) ∧
      c4.process env' msort' fuel ct fr Path.recorder [] = some (some (c'', es')) ∧
      List.Forall₂ Event.Is es (out.flatMap (fun Q => eventsFrom ⟨0, 0⟩ (closedCmds Q))) ∧
      List.Forall₂ Event.Is es' (out'.flatMap (fun Q => eventsFrom ⟨0, 0⟩ (closedCmds Q))) ∧
      ∀ X y, polyWinding out' (X + 2 ^ e * m) (y + 2 ^ e * k) = polyWinding out X y := by
  classical
  have hap : movedAll m k S ++ movedAll m k C = movedAll m k (S ++ C) := by unfold movedAll; rw [List.map_append]
  have hO' := hO.stretch (moveBy m k)
  rw [moveBy_polys, moveBy_polys] at hO'
  obtain ⟨c1, c2, e1, e2, n, hn⟩ := process_ieee_crossing_scaled he env hok msort hm subject clip S C hS hC G ct fr σ hσ hO
  obtain ⟨c3, c4, e3, e4, n', hn'⟩ := process_ieee_crossing_scaled he env' hok' msort' hm' subject' clip' _ _ hS' hC' (hap ▸ G.moved hg) ct fr σ hσ hO'
  refine ⟨max n n', fun fuel hf => ?_⟩
  obtain ⟨c', es, out, p1, p2, p3, _⟩ := hn fuel ((le_max_left _ _).trans hf)
  obtain ⟨c'', es', out', q1, q2, q3, _⟩ := hn' fuel ((le_max_right _ _).trans hf)
  refine ⟨c1, c2, c3, c4, c', c'', es, es', out, out', e1, e2, e3, e4, p1, q1, p2, q2, fun X y => ?_⟩
  have hp : (0 : ℚ) < 2 ^ e := by positivity
  rw [p3, q3]
  refine if_congr ?_ rfl rfl
  rw [inResult_times hp, inResult_times hp, add_div, add_div, mul_div_cancel_left₀ _ hp.ne', mul_div_cancel_left₀ _ hp.ne']
  unfold InResult
  rw [moved_winding, moved_winding]

/-! ## direction -/

/-- **C61 with IEEE doubles**, for union and intersection of polygons as in C92 that wind one way, with the non-zero rule: drawn
backwards they yield polygons that run the other way round and enclose the same points. -/
theorem direction_ieee_partial (he : -100 ≤ e ∧ e ≤ 100) (env env' : Env Dbl) (hok : env.Ok) (hok' : env'.Ok)
    (msort msort' : List (LocMin Dbl) → List (LocMin Dbl)) (hm : MinSort msort) (hm' : MinSort msort')
    (subject clip subject' clip' : List (List (Vec2 Dbl))) (S C : List (List (Vec2 ℚ)))
    (hS : List.Forall₂ (List.Forall₂ Vec2.Is) subject (timesAll (2 ^ e) S)) (hC : List.Forall₂ (List.Forall₂ Vec2.Is) clip (timesAll (2 ^ e) C))
    (hS' : List.Forall₂ (List.Forall₂ Vec2.Is) subject' (timesAll (2 ^ e) (reverseAll S)))
    (hC' : List.Forall₂ (List.Forall₂ Vec2.Is) clip' (timesAll (2 ^ e) (reverseAll C)))
    (G : CrossPolygons (S ++ C)) (G' : CrossPolygons (reverseAll S ++ reverseAll C))
    (ct : ClipType) (hct : ct = .union ∨ ct = .intersection) (hw : OneWay S C) :
    ∃ n, ∀ fuel, n ≤ fuel → ∃ c1 c2 c3 c4 c' c'' : Clipper Dbl, ∃ (es es' : List (Event Dbl)) (out out' : List (List (Vec2 ℚ))),
      (Clipper.new (K := Dbl)).addPath (subject.map (fun P => Path.build (polyCmds P))) .subject = some c1 ∧
      c1.addPath (clip.map (fun P => Path.build (polyCmds P))) .clip = some c2 ∧
      (Clipper.new (K := Dbl)).addPath (subject'.map (fun P => Path.build (polyCmds P))) .subject = some c3 ∧
      c3.addPath (clip'.map (fun P => Path.build (polyCmds P))) .clip = some c4 ∧
      c2.process env msort fuel ct .nonZero Path.recorder [] = some (some (c', es)) ∧
      c4.process env' msort' fuel ct .nonZero Path.recorder [] = some (some (c'', es')) ∧
      List.Forall₂ Event.Is es (out.flatMap (fun Q => eventsFrom ⟨0, 0⟩ (closedCmds Q))) ∧
      List.Forall₂ Event.Is es' (out'.flatMap (fun Q => eventsFrom ⟨0, 0⟩ (closedCmds Q))) ∧
      ∀ X y, polyWinding out' X y = - polyWinding out X y := by
  classical
  obtain ⟨hO, hO'⟩ := hw.consistent hct
  obtain ⟨c1, c2, e1, e2, n, hn⟩ := process_ieee_crossing_scaled he env hok msort hm subject clip S C hS hC G ct .nonZero 1 (Or.inl rfl) hO
  obtain ⟨c3, c4, e3, e4, n', hn'⟩ := process_ieee_crossing_scaled he env' hok' msort' hm' subject' clip' _ _ hS' hC' G' ct .nonZero (-1) (Or.inr rfl) hO'
  refine ⟨max n n', fun fuel hf => ?_⟩
  obtain ⟨c', es, out, p1, p2, p3, _⟩ := hn fuel ((le_max_left _ _).trans hf)
  obtain ⟨c'', es', out', q1, q2, q3, _⟩ := hn' fuel ((le_max_right _ _).trans hf)
  refine ⟨c1, c2, c3, c4, c', c'', es, es', out, out', e1, e2, e3, e4, p1, q1, p2, q2, fun X y => ?_⟩
  have hp : (0 : ℚ) < 2 ^ e := by positivity
  rw [p3, q3]
  simp only [inResult_times hp, inResult_reverse S C ct .nonZero (Or.inl rfl)]
  split <;> rfl

/-! ## areas -/

open Classical in
/-- **C76 with IEEE doubles.** The area of the values delivered is that of the region: whatever polygons wind exactly once around the points of
the result and not around the others, they have the area of the polygons delivered (with the sign `σ`). -/
theorem process_ieee_area (he : -100 ≤ e ∧ e ≤ 100) (env : Env Dbl) (hok : env.Ok) (msort : List (LocMin Dbl) → List (LocMin Dbl)) (hm : MinSort msort)
    (subject clip : List (List (Vec2 Dbl))) (S C : List (List (Vec2 ℚ))) (hS : List.Forall₂ (List.Forall₂ Vec2.Is) subject (timesAll (2 ^ e) S))
    (hC : List.Forall₂ (List.Forall₂ Vec2.Is) clip (timesAll (2 ^ e) C)) (G : CrossPolygons (S ++ C))
    (ct : ClipType) (fr : FillRule) (σ : Int) (hσ : σ = 1 ∨ σ = -1) (hO : Consistent S C ct fr σ) :
    ∃ c1 c2 : Clipper Dbl, (Clipper.new (K := Dbl)).addPath (subject.map (fun P => Path.build (polyCmds P))) .subject = some c1 ∧
      c1.addPath (clip.map (fun P => Path.build (polyCmds P))) .clip = some c2 ∧
      ∃ n, ∀ fuel, n ≤ fuel → ∃ (c' : Clipper Dbl) (es : List (Event Dbl)) (out : List (List (Vec2 ℚ))),
        c2.process env msort fuel ct fr Path.recorder [] = some (some (c', es)) ∧
        List.Forall₂ Event.Is es (out.flatMap (fun Q => eventsFrom ⟨0, 0⟩ (closedCmds Q))) ∧
        ∀ Qs : List (List (Vec2 ℚ)), (∀ X y, polyWinding Qs X y = if InResult (timesAll (2 ^ e) S) (timesAll (2 ^ e) C) ct fr X y then σ else 0) →
          area2 out = area2 Qs := by
  obtain ⟨c1, c2, h1, h2, n, hn⟩ := process_ieee_crossing_scaled he env hok msort hm subject clip S C hS hC G ct fr σ hσ hO
  refine ⟨c1, c2, h1, h2, n, fun fuel hf => ?_⟩
  obtain ⟨c', es, out, h3, h4, h5, _⟩ := hn fuel hf
  exact ⟨c', es, out, h3, h4, fun Qs hQ => area_eq (fun X y => by rw [h5, hQ])⟩

/-- **C76 with IEEE doubles.** Union and intersection together have exactly the area of subject and clip together, if subject and clip wind around
every point once or not at all. -/
theorem process_ieee_areas (he : -100 ≤ e ∧ e ≤ 100) (env : Env Dbl) (hok : env.Ok) (msort : List (LocMin Dbl) → List (LocMin Dbl)) (hm : MinSort msort)
    (subject clip : List (List (Vec2 Dbl))) (S C : List (List (Vec2 ℚ))) (hS : List.Forall₂ (List.Forall₂ Vec2.Is) subject (timesAll (2 ^ e) S))
    (hC : List.Forall₂ (List.Forall₂ Vec2.Is) clip (timesAll (2 ^ e) C)) (G : CrossPolygons (S ++ C))
    (hs : ∀ X y, polyWinding S X y = 0 ∨ polyWinding S X y = 1) (hc : ∀ X y, polyWinding C X y = 0 ∨ polyWinding C X y = 1) :
    ∃ c1 c2 : Clipper Dbl, (Clipper.new (K := Dbl)).addPath (subject.map (fun P => Path.build (polyCmds P))) .subject = some c1 ∧
      c1.addPath (clip.map (fun P => Path.build (polyCmds P))) .clip = some c2 ∧
      ∃ n, ∀ fuel, n ≤ fuel → ∃ (cu ci : Clipper Dbl) (eu ei : List (Event Dbl)) (union inter : List (List (Vec2 ℚ))),
        c2.process env msort fuel .union .positive Path.recorder [] = some (some (cu, eu)) ∧
        c2.process env msort fuel .intersection .positive Path.recorder [] = some (some (ci, ei)) ∧
        List.Forall₂ Event.Is eu (union.flatMap (fun Q => eventsFrom ⟨0, 0⟩ (closedCmds Q))) ∧
        List.Forall₂ Event.Is ei (inter.flatMap (fun Q => eventsFrom ⟨0, 0⟩ (closedCmds Q))) ∧
        area2 union + area2 inter = area2 (timesAll (2 ^ e) S) + area2 (timesAll (2 ^ e) C) ∧ 0 ≤ area2 inter ∧
        area2 inter ≤ area2 (timesAll (2 ^ e) S) ∧ area2 inter ≤ area2 (timesAll (2 ^ e) C) ∧
        area2 (timesAll (2 ^ e) S) ≤ area2 union ∧ area2 (timesAll (2 ^ e) C) ≤ area2 union := by
  classical
  obtain ⟨c1, c2, h1, h2, n, hn⟩ := process_ieee_crossing_scaled he env hok msort hm subject clip S C hS hC G .union .positive 1 (Or.inl rfl)
    (consistent_positive _ _ _ (Or.inl rfl))
  obtain ⟨d1, d2, g1, g2, m, hm'⟩ := process_ieee_crossing_scaled he env hok msort hm subject clip S C hS hC G .intersection .positive 1 (Or.inl rfl)
    (consistent_positive _ _ _ (Or.inr rfl))
  obtain rfl : c1 = d1 := Option.some.inj (h1.symm.trans g1)
  obtain rfl : c2 = d2 := Option.some.inj (h2.symm.trans g2)
  refine ⟨c1, c2, h1, h2, max n m, fun fuel hf => ?_⟩
  obtain ⟨cu, eu, union, h3, h3', h4, _⟩ := hn fuel ((le_max_left _ _).trans hf)
  obtain ⟨ci, ei, inter, h5, h5', h6, _⟩ := hm' fuel ((le_max_right _ _).trans hf)
  have hp : (0 : ℚ) < 2 ^ e := by positivity
  have u : ∀ X y, polyWinding union X y = if 0 < polyWinding (timesAll (2 ^ e) S) X y ∨ 0 < polyWinding (timesAll (2 ^ e) C) X y then 1 else 0 :=
    fun X y => (h4 X y).trans (if_congr Iff.rfl rfl rfl)
  have i : ∀ X y, polyWinding inter X y = if 0 < polyWinding (timesAll (2 ^ e) S) X y ∧ 0 < polyWinding (timesAll (2 ^ e) C) X y then 1 else 0 :=
    fun X y => (h6 X y).trans (if_congr Iff.rfl rfl rfl)
  have hs' : ∀ X y, polyWinding (timesAll (2 ^ e) S) X y = 0 ∨ polyWinding (timesAll (2 ^ e) S) X y = 1 := fun X y => by
    rw [polyWinding_times' hp]; exact hs _ _
  have hc' : ∀ X y, polyWinding (timesAll (2 ^ e) C) X y = 0 ∨ polyWinding (timesAll (2 ^ e) C) X y = 1 := fun X y => by
    rw [polyWinding_times' hp]; exact hc _ _
  have e0 : area2 ([] : List (List (Vec2 ℚ))) = 0 := rfl
  refine ⟨cu, ci, eu, ei, union, inter, h3, h5, h3', h5', ?_, ?_, ?_, ?_, ?_, ?_⟩
  · rw [← area2_append, ← area2_append]
    refine area_eq (fun X y => ?_)
    rw [polyWinding_add, polyWinding_add, u, i]
    rcases hs' X y with h | h <;> rcases hc' X y with h' | h' <;> rw [h, h'] <;> simp
  · rw [← e0]
    refine area_mono (fun X y => ?_)
    rw [i, show polyWinding ([] : List (List (Vec2 ℚ))) X y = 0 from rfl]
    split <;> simp
  all_goals
    refine area_mono (fun X y => ?_)
    simp only [u, i]
    rcases hs' X y with h | h <;> rcases hc' X y with h' | h' <;> rw [h, h'] <;> simp

end River
