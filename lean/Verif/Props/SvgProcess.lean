import Verif.Props.Svg
import Verif.Props.PolygonsDemo

/-! # C81: what the test program draws -/

namespace River

section
variable {K : Type} [FTrans K]
attribute [local instance 10000] FTrans.toFNum

/-- Adding several paths through one reader stores the same as adding them one after the other, if every contour begins with a `moveto`. -/
theorem addInput_eq (c : Clipper K) (pt : PathType) (dss : List (List (Drawn K))) (hd : ∀ ds ∈ dss, ∀ d ∈ ds, d.Ok) :
    c.addInput (dss.map (fun ds => Path.build (ds.flatMap Drawn.cmds))) pt = c.addPath (dss.map (fun ds => Path.build (ds.flatMap Drawn.cmds))) pt := by
  have key : ∀ (dss : List (List (Drawn K))), (∀ ds ∈ dss, ∀ d ∈ ds, d.Ok) → ∀ d0 : Intake K,
      ∃ d1, readInput (intakeFuncs pt) (dss.map (fun ds => Path.build (ds.flatMap Drawn.cmds))) (some d0) = some (some d1) ∧
        (d1.finish pt).rings = (d0.finish pt).rings ++ dss.flatten.filterMap (fun d => insertVertexList d.contour pt) := by
    intro dss
    induction dss with
    | nil => intro _ d0; exact ⟨d0, rfl, by simp⟩
    | cons ds dss ih =>
      intro hd d0
      obtain ⟨d1, e1, h1⟩ := deliver_all pt ds (hd ds List.mem_cons_self) ⟨FNum.lit 0, FNum.lit 0⟩ d0
      obtain ⟨d2, e2, h2⟩ := ih (fun d h => hd d (List.mem_cons_of_mem _ h)) d1
      refine ⟨d2, ?_, by rw [h2, h1]; simp⟩
      rw [readInput, List.map_cons, List.foldlM_cons, Path.traverse, Path.traverse_build, e1]
      exact e2
  obtain ⟨d1, e1, h1⟩ := key dss hd ⟨c.rings, none⟩
  unfold Clipper.addInput Clipper.addPath
  rw [e1, addPaths_spec pt c.rings dss hd]
  simp only [Option.bind_some, Option.map_some, h1]
  rfl

/-- What `process` delivers are contours. -/
theorem output_drawn (env : Env K) (msort : List (LocMin K) → List (LocMin K)) (fuel : Nat) (c c' : Clipper K) (ct : ClipType) (fr : FillRule) (es : List (Event K))
    (h : c.process env msort fuel ct fr Path.recorder [] = some (some (c', es))) :
    ∃ outs : List (Drawn K), (∀ d ∈ outs, d.Ok) ∧ es = outs.flatMap (fun d => eventsFrom zeroPt d.cmds) := by
  obtain ⟨cs, rfl, hc⟩ := process_wellformed env msort fuel c c' ct fr es h
  clear h
  induction cs with
  | nil => exact ⟨[], by simp, rfl⟩
  | cons x cs ih =>
    obtain ⟨outs, h1, h2⟩ := ih (fun y hy => hc y (List.mem_cons_of_mem _ hy))
    obtain ⟨start, body, rfl, _, hb⟩ := hc x List.mem_cons_self
    refine ⟨⟨start, body⟩ :: outs, ?_, by rw [List.flatten_cons, h2]; rfl⟩
    intro d hd
    rcases List.mem_cons.1 hd with rfl | hd
    · intro c hc' p e
      have := hb c hc'
      rw [e] at this
      cases this
    · exact h1 d hd

/-- **C81**: if `process` delivers contours, the program draws the subject, the clip and these contours, each in its own style, in a view box that
is the bounding box of all points named. Any arithmetic. -/
theorem svg_shows (env : Env K) (msort : List (LocMin K) → List (LocMin K)) (fuel : Nat) (subject clip : List (List (Drawn K))) (outs : List (Drawn K))
    (h1 : ∀ ds ∈ subject, ∀ d ∈ ds, d.Ok) (h2 : ∀ ds ∈ clip, ∀ d ∈ ds, d.Ok) (h3 : ∀ d ∈ outs, d.Ok) {c1 c2 c' : Clipper K} (ct : ClipType) (fr : FillRule)
    (a1 : (Clipper.new (K := K)).addPath (subject.map (fun ds => Path.build (ds.flatMap Drawn.cmds))) .subject = some c1)
    (a2 : c1.addPath (clip.map (fun ds => Path.build (ds.flatMap Drawn.cmds))) .clip = some c2)
    (hp : c2.process env msort fuel ct fr Path.recorder [] = some (some (c', outs.flatMap (fun d => eventsFrom zeroPt d.cmds)))) :
    ∃ (D : Drawing K) (L : List (SvgKind × Drawn K)),
      svgProcess env msort fuel (subject.map (fun ds => Path.build (ds.flatMap Drawn.cmds))) (clip.map (fun ds => Path.build (ds.flatMap Drawn.cmds))) ct fr = some (some D) ∧
      L = subject.flatten.map (fun d => (.subject, d)) ++ clip.flatten.map (fun d => (.clip, d)) ++ outs.map (fun d => (.output, d)) ∧ D.Shows L ∧
      D.view = ((Rect.of (L.flatMap (fun x => x.2.points))).min, (Rect.of (L.flatMap (fun x => x.2.points))).width, (Rect.of (L.flatMap (fun x => x.2.points))).height) ∧
      D.trans = (FNum.lit 1, FNum.neg (FNum.lit 1), FNum.neg ((Rect.of (L.flatMap (fun x => x.2.points))).center.y *. FNum.lit 2)) := by
  obtain ⟨s1, e1, k1, t1⟩ := readInput_holds subject h1 (Svg.new_holds (K := K) .subject)
  have k1' : ({ s1 with cur := .clip } : Svg K).Holds _ := ⟨k1.paths, k1.types, k1.rect, k1.nodes, k1.hints⟩
  obtain ⟨s2, e2, k2, t2⟩ := readInput_holds clip h2 k1'
  have k2' : ({ s2 with cur := .output } : Svg K).Holds _ := ⟨k2.paths, k2.types, k2.rect, k2.nodes, k2.hints⟩
  have hout : ∀ (outs : List (Drawn K)), (∀ d ∈ outs, d.Ok) → ∀ (s : Svg K) (L : List (SvgKind × Drawn K)), s.Holds L →
      ∃ s', (outs.flatMap (fun d => eventsFrom zeroPt d.cmds)).foldl (Path.deliver svgFuncs) (some s) = some s' ∧ s'.Holds (L ++ outs.map (fun d => (s.cur, d))) := by
    intro outs
    induction outs with
    | nil => intro _ s L h; exact ⟨s, rfl, by simpa using h⟩
    | cons d outs ih =>
      intro hd s L h
      obtain ⟨s1, e1, k1, t1⟩ := svgContour_holds h d (hd d List.mem_cons_self) zeroPt
      obtain ⟨s2, e2, k2⟩ := ih (fun d h => hd d (List.mem_cons_of_mem _ h)) s1 _ k1
      refine ⟨s2, ?_, by rw [t1] at k2; simpa using k2⟩
      rw [List.flatMap_cons, List.foldl_append, e1]
      exact e2
  obtain ⟨s3, e3, k3⟩ := hout outs h3 _ _ k2'
  have hproc : c2.process env msort fuel ct fr svgFuncs (some { s2 with cur := .output }) = some (some (c', some s3)) := by
    rcases process_cases env msort fuel c2 ct fr with q | q | ⟨c3, polys, q⟩
    · rw [q] at hp; cases hp
    · rw [q] at hp; cases hp
    · rw [q, buildOutput_recorder] at hp
      simp only [List.nil_append, Option.map_some, Option.some.injEq, Prod.mk.injEq] at hp
      rw [q, buildOutput_eq, foldlM_strict_iff, if_pos, hp.2, e3, hp.1]
      · rfl
      · intro e _
        cases e.cmd <;> rfl
  obtain ⟨D, eD, hD, hv, ht⟩ := k3.get
  refine ⟨D, _, ?_, ?_, hD, hv, ht⟩
  · unfold svgProcess
    rw [e1]
    simp only [Option.bind_eq_bind, Option.bind_some]
    rw [addInput_eq _ _ _ h1, a1]
    simp only [Option.bind_some]
    rw [e2]
    simp only [Option.bind_some]
    rw [addInput_eq _ _ _ h2, a2]
    simp only [Option.bind_some]
    rw [hproc]
    simp only [Option.bind_some]
    rw [eD]
    rfl
  · simp [t1]

end

section
variable {K : Type} [Field K] [LinearOrder K] [IsStrictOrderedRing K] [FTrans K] [LawfulOrd K] [Exact K]
attribute [local instance 10000] FTrans.toFNum

/-- **C81**, where it is seen: every point named is shown inside the view box, upside down. Exact arithmetic. -/
theorem svg_inside (D : Drawing K) (L : List (SvgKind × Drawn K))
    (hv : D.view = ((Rect.of (L.flatMap (fun x => x.2.points))).min, (Rect.of (L.flatMap (fun x => x.2.points))).width, (Rect.of (L.flatMap (fun x => x.2.points))).height))
    (ht : D.trans = (FNum.lit 1, FNum.neg (FNum.lit 1), FNum.neg ((Rect.of (L.flatMap (fun x => x.2.points))).center.y *. FNum.lit 2)))
    {x : SvgKind × Drawn K} (hx : x ∈ L) {p : Vec2 K} (hp : p ∈ x.2.points) :
    D.view.1.x ≤ (D.place p).x ∧ (D.place p).x ≤ D.view.1.x + D.view.2.1 ∧ D.view.1.y ≤ (D.place p).y ∧ (D.place p).y ≤ D.view.1.y + D.view.2.2 ∧
      (D.place p).x = p.x ∧ (D.place p).y = D.view.1.y + D.view.2.2 - (p.y - D.view.1.y) := by
  obtain ⟨-, -, -, -, hm, -⟩ := Rect.foldl_extend (L.flatMap (fun x => x.2.points)) Rect.start
  obtain ⟨m1, m2, m3, m4⟩ := hm p (List.mem_flatMap.2 ⟨x, hx, hp⟩)
  change (Rect.of (L.flatMap (fun x => x.2.points))).min.x ≤ p.x at m1
  change p.x ≤ (Rect.of (L.flatMap (fun x => x.2.points))).max.x at m2
  change (Rect.of (L.flatMap (fun x => x.2.points))).min.y ≤ p.y at m3
  change p.y ≤ (Rect.of (L.flatMap (fun x => x.2.points))).max.y at m4
  generalize Rect.of (L.flatMap (fun x => x.2.points)) = r at *
  have hc : r.center.y * 2 = r.max.y + r.min.y := by
    unfold Rect.center Vec2.sdiv Vec2.add
    simp only [Exact.add_eq, Exact.div_eq, Exact.lit_eq]
    push_cast
    field_simp
  unfold Drawing.place
  rw [hv, ht]
  simp only [Rect.width, Rect.height, Exact.sub_eq, Exact.lit_eq, Exact.neg_eq, Exact.mul_eq]
  push_cast
  rw [hc]
  refine ⟨by linarith, by linarith, by linarith, by linarith, by ring, by ring⟩

/-- The picture keeps the proportions of the view box, apart from the rim of ten pixels; in it a line is one pixel wide and a mark four. -/
theorem svg_scale {D : Drawing K} {L : List (SvgKind × Drawn K)} (h : D.Shows L) (hh : D.view.2.2 ≠ 0) :
    D.size.2 = 410 ∧ (D.size.1 - 10) * D.view.2.2 = (D.size.2 - 10) * D.view.2.1 ∧
    D.stroke * (400 / D.view.2.2) = 1 ∧ ∀ m ∈ D.marks, m.2.1 * (400 / D.view.2.2) = 4 ∧ m.2.2 * (400 / D.view.2.2) = 4 := by
  obtain ⟨w, hw⟩ : ∃ w, w = D.view.2.1 := ⟨_, rfl⟩
  obtain ⟨v, hv⟩ : ∃ v, v = D.view.2.2 := ⟨_, rfl⟩
  have hs : D.scale = 400 / v := by
    unfold Drawing.scale
    rw [Exact.div_eq, Exact.lit_eq, hv]
    norm_num
  rw [h.size, h.stroke, ← hw, ← hv, hs]
  rw [← hv] at hh
  simp only [Exact.add_eq, Exact.mul_eq, Exact.div_eq, Exact.lit_eq]
  push_cast
  refine ⟨by norm_num, by field_simp; ring, by field_simp, fun m hm => ?_⟩
  rw [h.marks] at hm
  obtain ⟨p, -, rfl⟩ := List.mem_map.1 hm
  rw [hs]
  simp only [Rect.around, Rect.width, Rect.height, Vec2.subS, Vec2.addS, Exact.add_eq, Exact.sub_eq, Exact.div_eq, Exact.lit_eq]
  push_cast
  constructor <;> (field_simp; ring)

omit [Field K] [LinearOrder K] [IsStrictOrderedRing K] [FTrans K] [LawfulOrd K] [Exact K] in
theorem drawn_of_polys (Ps : List (List (Vec2 K))) (hne : ∀ P ∈ Ps, P ≠ []) :
    ∃ ds : List (Drawn K), (∀ d ∈ ds, d.Ok) ∧ ds.map Drawn.cmds = Ps.map polyCmds ∧
      Ps.map (fun P => Path.build (polyCmds P)) = (ds.map (fun d => [d])).map (fun ds => Path.build (ds.flatMap Drawn.cmds)) := by
  induction Ps with
  | nil => exact ⟨[], by simp, rfl, rfl⟩
  | cons P Ps ih =>
    obtain ⟨ds, h1, h2, h3⟩ := ih (fun Q hQ => hne Q (List.mem_cons_of_mem _ hQ))
    obtain ⟨p, qs, rfl⟩ := List.exists_cons_of_ne_nil (hne P List.mem_cons_self)
    refine ⟨⟨p, qs.map .lineto⟩ :: ds, ?_, ?_, ?_⟩
    · intro d hd
      rcases List.mem_cons.1 hd with rfl | hd
      · intro c hc q
        obtain ⟨x, _, rfl⟩ := List.mem_map.1 hc
        simp
      · exact h1 d hd
    · rw [List.map_cons, List.map_cons, h2]; rfl
    · rw [List.map_cons, List.map_cons, List.map_cons, h3]
      simp [Drawn.cmds, polyCmds]

theorem drawn_of_closed (Ps : List (List (Vec2 K))) (hne : ∀ P ∈ Ps, P ≠ []) :
    ∃ ds : List (Drawn K), (∀ d ∈ ds, d.Ok) ∧ ds.map Drawn.cmds = Ps.map closedCmds ∧
      Ps.flatMap (fun Q => eventsFrom zeroPt (closedCmds Q)) = ds.flatMap (fun d => eventsFrom zeroPt d.cmds) := by
  induction Ps with
  | nil => exact ⟨[], by simp, rfl, rfl⟩
  | cons P Ps ih =>
    obtain ⟨ds, h1, h2, h3⟩ := ih (fun Q hQ => hne Q (List.mem_cons_of_mem _ hQ))
    obtain ⟨p, qs, rfl⟩ := List.exists_cons_of_ne_nil (hne P List.mem_cons_self)
    refine ⟨⟨p, (qs ++ [p]).map .lineto⟩ :: ds, ?_, ?_, ?_⟩
    · intro d hd
      rcases List.mem_cons.1 hd with rfl | hd
      · intro c hc q
        obtain ⟨x, _, rfl⟩ := List.mem_map.1 hc
        simp
      · exact h1 d hd
    · rw [List.map_cons, List.map_cons, h2]; rfl
    · rw [List.flatMap_cons, List.flatMap_cons, h3]; rfl

open Classical in
/-- **C81** for polygons in general position: the program draws the polygons of the subject, those of the clip and polygons that enclose exactly the
result, all of it inside the view box. Exact arithmetic. -/
theorem svg_polygons (env : Env K) (hok : env.Ok) (msort : List (LocMin K) → List (LocMin K)) (hm : MinSort msort)
    (subject clip : List (List (Vec2 K))) (G : GeneralPolygons (subject ++ clip))
    (ct : ClipType) (fr : FillRule) (σ : Int) (hσ : σ = 1 ∨ σ = -1) (hO : Consistent subject clip ct fr σ) :
    ∃ n, ∀ fuel, n ≤ fuel → ∃ (D : Drawing K) (S C O : List (Drawn K)) (out : List (List (Vec2 K))),
      svgProcess env msort fuel (subject.map (fun P => Path.build (polyCmds P))) (clip.map (fun P => Path.build (polyCmds P))) ct fr = some (some D) ∧
      S.map Drawn.cmds = subject.map polyCmds ∧ C.map Drawn.cmds = clip.map polyCmds ∧ O.map Drawn.cmds = out.map closedCmds ∧
      D.Shows (S.map (fun d => (.subject, d)) ++ C.map (fun d => (.clip, d)) ++ O.map (fun d => (.output, d))) ∧
      (∀ X y, polyWinding out X y = if InResult subject clip ct fr X y then σ else 0) ∧
      ∀ d ∈ S ++ C ++ O, ∀ p ∈ d.points, D.view.1.x ≤ (D.place p).x ∧ (D.place p).x ≤ D.view.1.x + D.view.2.1 ∧
        D.view.1.y ≤ (D.place p).y ∧ (D.place p).y ≤ D.view.1.y + D.view.2.2 := by
  obtain ⟨c1, c2, a1, a2, n, hn⟩ := process_polygons env hok msort hm subject clip G ct fr σ hσ hO
  have hne : ∀ P ∈ subject ++ clip, P ≠ [] := by
    rintro P hP rfl
    obtain ⟨p, hp, _⟩ := G.turn [] hP
    exact absurd hp (by simp)
  obtain ⟨S, oS, kS, pS⟩ := drawn_of_polys subject (fun P hP => hne P (List.mem_append_left _ hP))
  obtain ⟨C, oC, kC, pC⟩ := drawn_of_polys clip (fun P hP => hne P (List.mem_append_right _ hP))
  refine ⟨n, fun fuel hf => ?_⟩
  obtain ⟨c', out, hp, hw⟩ := hn fuel hf
  obtain ⟨out', ho, he, hw'⟩ : ∃ out' : List (List (Vec2 K)), (∀ P ∈ out', P ≠ []) ∧
      out'.flatMap (fun Q => eventsFrom zeroPt (closedCmds Q)) = out.flatMap (fun Q => eventsFrom zeroPt (closedCmds Q)) ∧
      out'.flatMap polySides = out.flatMap polySides := by
    clear hp hw
    induction out with
    | nil => exact ⟨[], by simp, rfl, rfl⟩
    | cons Q out ih =>
      obtain ⟨o, i1, i2, i3⟩ := ih
      cases Q with
      | nil => exact ⟨o, i1, by rw [List.flatMap_cons, ← i2]; rfl, by rw [List.flatMap_cons, ← i3]; simp [polySides]⟩
      | cons q Q =>
        refine ⟨(q :: Q) :: o, ?_, by rw [List.flatMap_cons, List.flatMap_cons, i2], by rw [List.flatMap_cons, List.flatMap_cons, i3]⟩
        intro P hP
        rcases List.mem_cons.1 hP with rfl | hP
        · simp
        · exact i1 P hP
  obtain ⟨O, oO, kO, eO⟩ := drawn_of_closed out' ho
  rw [← he, eO] at hp
  rw [pS] at a1
  rw [pC] at a2
  have hs : ∀ (l : List (Drawn K)), (∀ d ∈ l, d.Ok) → ∀ ds ∈ l.map (fun d => [d]), ∀ d ∈ ds, d.Ok := by
    intro l hl ds hds d hd
    obtain ⟨e, he, rfl⟩ := List.mem_map.1 hds
    rw [List.mem_singleton.1 hd]; exact hl e he
  obtain ⟨D, L, hD, hL, hS, hv, ht⟩ := svg_shows env msort fuel _ _ O (hs S oS) (hs C oC) oO ct fr a1 a2 hp
  rw [flatten_singletons, flatten_singletons] at hL
  refine ⟨D, S, C, O, out', by rw [pS, pC]; exact hD, kS, kC, kO, hL ▸ hS, fun X y => ?_, ?_⟩
  · rw [← hw X y]
    unfold polyWinding
    rw [hw']
  · intro d hd p hp
    obtain ⟨k, hk⟩ : ∃ k, (k, d) ∈ L := by
      rw [hL]
      simp only [List.mem_append, List.mem_map, Prod.mk.injEq] at hd ⊢
      rcases hd with (hd | hd) | hd
      · exact ⟨.subject, Or.inl (Or.inl ⟨d, hd, rfl, rfl⟩)⟩
      · exact ⟨.clip, Or.inl (Or.inr ⟨d, hd, rfl, rfl⟩)⟩
      · exact ⟨.output, Or.inr ⟨d, hd, rfl, rfl⟩⟩
    obtain ⟨i1, i2, i3, i4, -⟩ := svg_inside D L hv ht hk hp
    exact ⟨i1, i2, i3, i4⟩

end

/-! ## cases -/

/-- The two rectangles of `rects_intersection` and their intersection are drawn. -/
theorem svg_rects : ∃ n, ∀ fuel, n ≤ fuel → ∃ D : Drawing ℚ,
    svgProcess demoEnv minsort fuel ([rectA].map (fun P => Path.build (polyCmds P))) ([rectB].map (fun P => Path.build (polyCmds P))) .intersection .positive = some (some D) := by
  obtain ⟨n, hn⟩ := svg_polygons demoEnv demoEnv_ok minsort minsort_ok [rectA] [rectB] rects_general .intersection .positive 1
    (Or.inl rfl) (consistent_positive _ _ _ (Or.inr rfl))
  refine ⟨n, fun fuel hf => ?_⟩
  obtain ⟨D, _, _, _, _, h, _⟩ := hn fuel hf
  exact ⟨D, h⟩

/-- The last contour stays open in the text; a path that does not begin with a `moveto` goes on with the contour before it. -/
theorem svg_stray : (readInput svgFuncs [Path.build ([.moveto ⟨0, 0⟩, .lineto ⟨4, 0⟩, .lineto ⟨0, 3⟩] : List (Cmd ℚ)), Path.build [.lineto ⟨7, 7⟩]]
      (some { Svg.new with cur := .subject })).map (Option.map (fun s => (s.paths, s.types))) =
    some (some ([[.m ⟨0, 0⟩, .l ⟨4, 0⟩, .l ⟨0, 3⟩, .l ⟨7, 7⟩]], [.subject])) := by
  decide +kernel

end River
