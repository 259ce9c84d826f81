import Verif.Props.Chain
import Verif.Props.Needed
import Verif.Props.Area
import Verif.Props.Presentation

/-! # Superfluous commands, chained calls: consequences

C70 and C76 for polygons with superfluous commands, and laws of the operations across several calls. -/

namespace River
variable {K : Type} [Field K] [LinearOrder K]

attribute [local instance 10000] FTrans.toFNum
variable [IsStrictOrderedRing K] [FTrans K] [LawfulOrd K] [Exact K]

/-- **C70** and C90: two presentations of the same polygons, both with superfluous commands of any kind. Both calls succeed, and the delivered polygons enclose the
same points, the same number of times, and have the same area. -/
theorem presentation_untidy (env env' : Env K) (hok : env.Ok) (hok' : env'.Ok) (msort msort' : List (LocMin K) → List (LocMin K))
    (hm : MinSort msort) (hm' : MinSort msort') (subject clip subject' clip' s c s' c' : List (List (Vec2 K)))
    (ts : Tidies subject s) (tc : Tidies clip c) (ts' : Tidies subject' s') (tc' : Tidies clip' c') (G : GeneralPolygons (s ++ c))
    (ct : ClipType) (fr : FillRule) (σ : Int) (hσ : σ = 1 ∨ σ = -1) (hO : Consistent s c ct fr σ) (h1 : SamePolygons s s') (h2 : SamePolygons c c') :
    ∃ n, ∀ fuel, n ≤ fuel → ∃ c1 c2 c3 c4 c5 c6 : Clipper K, ∃ out out' : List (List (Vec2 K)),
      (Clipper.new (K := K)).addPath (subject.map (fun P => Path.build (polyCmds P))) .subject = some c1 ∧
      c1.addPath (clip.map (fun P => Path.build (polyCmds P))) .clip = some c2 ∧
      (Clipper.new (K := K)).addPath (subject'.map (fun P => Path.build (polyCmds P))) .subject = some c3 ∧
      c3.addPath (clip'.map (fun P => Path.build (polyCmds P))) .clip = some c4 ∧
      c2.process env msort fuel ct fr Path.recorder [] = some (some (c5, out.flatMap (fun Q => eventsFrom zeroPt (closedCmds Q)))) ∧
      c4.process env' msort' fuel ct fr Path.recorder [] = some (some (c6, out'.flatMap (fun Q => eventsFrom zeroPt (closedCmds Q)))) ∧
      (∀ X y, polyWinding out X y = polyWinding out' X y) ∧ area2 out = area2 out' := by
  classical
  obtain ⟨c1, c2, e1, e2, n, hn⟩ := process_untidy env hok msort hm subject clip s c ts tc G ct fr σ hσ hO
  obtain ⟨c3, c4, e3, e4, n', hn'⟩ := process_untidy env' hok' msort' hm' subject' clip' s' c' ts' tc' (G.same (h1.append h2)) ct fr σ hσ (hO.same h1 h2)
  refine ⟨max n n', fun fuel hf => ?_⟩
  obtain ⟨c5, out, k1, k2, _⟩ := hn fuel ((le_max_left _ _).trans hf)
  obtain ⟨c6, out', l1, l2, _⟩ := hn' fuel ((le_max_right _ _).trans hf)
  have hw : ∀ X y, polyWinding out X y = polyWinding out' X y := by
    intro X y
    rw [k2, l2]
    have : InResult subject clip ct fr X y ↔ InResult subject' clip' ct fr X y := by
      unfold InResult
      rw [tidies_winding ts, tidies_winding tc, tidies_winding ts', tidies_winding tc', h1.winding, h2.winding]
    simp only [this]
  exact ⟨c1, c2, c3, c4, c5, c6, out, out', e1, e2, e3, e4, k1, l1, hw, area_eq hw⟩

/-! ## two calls -/

omit [Field K] [LinearOrder K] [IsStrictOrderedRing K] [FTrans K] [LawfulOrd K] [Exact K] in
/-- Polygons are determined by the paths they are written as. -/
theorem written_inj {Ps Qs : List (List (Vec2 K))} (h : Ps.map (fun Q => Path.build (closedCmds Q)) = Qs.map (fun Q => Path.build (closedCmds Q))) : Ps = Qs := by
  refine List.map_injective_iff.2 ?_ h
  intro P Q e
  have e : Path.build (closedCmds P) = Path.build (closedCmds Q) := e
  rw [Path.build_eq, Path.build_eq, Path.mk.injEq] at e
  have key : closedCmds P = closedCmds Q := by
    obtain ⟨e1, e2⟩ := e
    generalize closedCmds P = a at e1 e2
    generalize closedCmds Q = b at e1 e2
    induction a generalizing b with
    | nil =>
      cases b with
      | nil => rfl
      | cons y b => simp at e2
    | cons x a ih =>
      cases b with
      | nil => simp at e2
      | cons y b =>
        rw [List.map_cons, List.map_cons, List.cons.injEq] at e2
        cases x <;> cases y <;> simp only [Path.tag] at e2 <;> first
          | (exfalso; revert e2; decide)
          | (simp only [List.flatMap_cons, Path.coords, List.cons_append, List.nil_append, List.cons.injEq] at e1
             have := ih b (by tauto) e2.2
             rw [this]
             congr 1
             simp_all [Vec2.ext_iff])
  cases P with
  | nil => cases Q with
    | nil => rfl
    | cons q Q => cases key
  | cons p P => cases Q with
    | nil => cases key
    | cons q Q =>
      simp only [closedCmds, List.cons.injEq, Cmd.moveto.injEq, List.map_append, List.map_cons, List.map_nil] at key
      obtain ⟨rfl, k⟩ := key
      have k := List.append_cancel_right k
      rw [List.map_injective_iff.2 (fun a b (h : Cmd.lineto a = Cmd.lineto b) => by cases h; rfl) k]

/-- A call of `process` with the rule `positive` on a new processor that holds the polygons `first` and `second` writes the polygons `out`. -/
def Writes (env : Env K) (msort : List (LocMin K) → List (LocMin K)) (ct : ClipType) (first second out : List (List (Vec2 K))) : Prop :=
  ∃ c1 c2 c' : Clipper K, ∃ fuel,
    (Clipper.new (K := K)).addPath (first.map (fun P => Path.build (polyCmds P))) .subject = some c1 ∧
    c1.addPath (second.map (fun P => Path.build (polyCmds P))) .clip = some c2 ∧
    c2.processPaths env msort fuel ct .positive [] = some (some (c', out.map (fun Q => Path.build (closedCmds Q))))

/-- A call of `process` with the rule `positive` on a new processor that holds the paths written for `first` and the polygons `second` delivers the polygons `out`. -/
def Goes (env : Env K) (msort : List (LocMin K) → List (LocMin K)) (ct : ClipType) (first second out : List (List (Vec2 K))) : Prop :=
  ∃ c1 c2 c' : Clipper K, ∃ fuel,
    (Clipper.new (K := K)).addPath (first.map (fun Q => Path.build (closedCmds Q))) .subject = some c1 ∧
    c1.addPath (second.map (fun P => Path.build (polyCmds P))) .clip = some c2 ∧
    c2.process env msort fuel ct .positive Path.recorder [] = some (some (c', out.flatMap (fun Q => eventsFrom zeroPt (closedCmds Q))))

open Classical in
/-- **C91**: the union (intersection) of three sets of polygons by two calls. If the first two sets are in general position, and what the first call writes is in general
position with the third set, then the second call delivers the union (intersection) of all three. -/
theorem two_calls (env : Env K) (hok : env.Ok) (msort : List (LocMin K) → List (LocMin K)) (hm : MinSort msort)
    (first second third out out' third' : List (List (Vec2 K))) (ct : ClipType) (hct : ct = .union ∨ ct = .intersection) (G : GeneralPolygons (first ++ second))
    (hw : Writes env msort ct first second out) (t1 : Tidies out out') (t2 : Tidies third third') (G2 : GeneralPolygons (out' ++ third')) :
    ∃ out2, Goes env msort ct out third out2 ∧
      ∀ X y, polyWinding out2 X y =
        if ct.op (ct.op (0 < polyWinding first X y) (0 < polyWinding second X y)) (0 < polyWinding third X y) then 1 else 0 := by
  obtain ⟨d1, d2, d', m, g1, g2, g3⟩ := hw
  obtain ⟨c1, c2, e1, e2, n, hn⟩ := process_chain env hok msort hm first second G ct .positive 1 (Or.inl rfl) (consistent_positive _ _ _ hct)
  obtain rfl : d1 = c1 := Option.some.inj (g1.symm.trans e1)
  obtain rfl : d2 = c2 := Option.some.inj (g2.symm.trans e2)
  obtain ⟨c', out0, h1, _, h3⟩ := hn (m + n) (by omega)
  have h0 : d2.processPaths env msort (m + n) ct .positive [] = some (some (d', out.map (fun Q => Path.build (closedCmds Q)))) :=
    process_steady env msort m n d2 ct .positive pathsWriter [] _ g3 (by simp)
  rw [h0, Option.some.injEq, Option.some.injEq, Prod.mk.injEq] at h1
  obtain rfl := written_inj h1.2
  obtain ⟨c3, c4, e3, e4, n', hn'⟩ := h3 third out' third' ct .positive 1 (Or.inl rfl) t1 t2 G2 (consistent_positive _ _ _ hct)
  obtain ⟨c'', out2, k1, k2⟩ := hn' n' le_rfl
  refine ⟨out2, ⟨c3, c4, c'', n', e3, e4, k1⟩, fun X y => ?_⟩
  rw [k2]
  refine if_congr ?_ rfl rfl
  have : FillRule.positive.inside (if InResult first second ct .positive X y then 1 else 0) ↔ ct.op (0 < polyWinding first X y) (0 < polyWinding second X y) := by
    by_cases h : InResult first second ct .positive X y
    · rw [if_pos h]
      exact ⟨fun _ => h, fun _ => by show (0 : Int) < 1; decide⟩
    · rw [if_neg h]
      exact ⟨fun hc => absurd hc (by show ¬ (0 : Int) < 0; decide), fun hc => absurd hc h⟩
  rcases hct with rfl | rfl
  · exact or_congr this Iff.rfl
  · exact and_congr this Iff.rfl

/-- **C91**: in which order three sets of polygons are united (intersected) by two calls does not matter for what is enclosed, nor for the area. -/
theorem two_calls_order (env : Env K) (hok : env.Ok) (msort : List (LocMin K) → List (LocMin K)) (hm : MinSort msort)
    (A B C ab ab' bc bc' A' C' : List (List (Vec2 K))) (ct : ClipType) (hct : ct = .union ∨ ct = .intersection)
    (G : GeneralPolygons (A ++ B)) (G' : GeneralPolygons (B ++ C)) (h1 : Writes env msort ct A B ab) (h2 : Writes env msort ct B C bc)
    (t1 : Tidies ab ab') (t2 : Tidies bc bc') (tA : Tidies A A') (tC : Tidies C C') (G1 : GeneralPolygons (ab' ++ C')) (G2 : GeneralPolygons (bc' ++ A')) :
    ∃ out out', Goes env msort ct ab C out ∧ Goes env msort ct bc A out' ∧ (∀ X y, polyWinding out X y = polyWinding out' X y) ∧ area2 out = area2 out' := by
  classical
  obtain ⟨out, k1, k2⟩ := two_calls env hok msort hm A B C ab ab' C' ct hct G h1 t1 tC G1
  obtain ⟨out', l1, l2⟩ := two_calls env hok msort hm B C A bc bc' A' ct hct G' h2 t2 tA G2
  have hw : ∀ X y, polyWinding out X y = polyWinding out' X y := by
    intro X y
    rw [k2, l2]
    refine if_congr ?_ rfl rfl
    rcases hct with rfl | rfl <;> simp only [ClipType.op] <;> tauto
  exact ⟨out, out', k1, l1, hw, area_eq hw⟩

/-- A finite check for `Writes`. -/
theorem writes_of (ct : ClipType) (first second out : List (List (Vec2 ℚ)))
    (h : ((Clipper.new (K := ℚ)).addPath (first.map (fun P => Path.build (polyCmds P))) .subject).bind (fun c1 =>
      (c1.addPath (second.map (fun P => Path.build (polyCmds P))) .clip).bind (fun c2 =>
        (c2.processPaths demoEnv minsort 50 ct .positive []).map (fun r => r.map Prod.snd))) = some (some (out.map (fun Q => Path.build (closedCmds Q))))) :
    Writes demoEnv minsort ct first second out := by
  obtain ⟨c1, e1, h⟩ := Option.bind_eq_some_iff.1 h
  obtain ⟨c2, e2, h⟩ := Option.bind_eq_some_iff.1 h
  obtain ⟨r, e3, h⟩ := Option.map_eq_some_iff.1 h
  cases r with
  | none => cases h
  | some r =>
    obtain ⟨c', ps⟩ := r
    simp only [Option.map_some, Option.some.injEq] at h
    exact ⟨c1, c2, c', 50, e1, e2, by rw [e3, h]⟩

/-- The intersection of `rectB` and `rectC`. -/
def innerBC : List (Vec2 ℚ) := [⟨3, 2⟩, ⟨6, 2⟩, ⟨6, 5⟩, ⟨3, 5⟩]

/-- C91, a case: the hypotheses of `two_calls_order` hold of three rectangles. -/
theorem two_calls_demo : GeneralPolygons ([rectA] ++ [rectB]) ∧ GeneralPolygons ([rectB] ++ [rectC]) ∧
    Writes demoEnv minsort .intersection [rectA] [rectB] [inner] ∧ Writes demoEnv minsort .intersection [rectB] [rectC] [innerBC] ∧
    GeneralPolygons ([inner] ++ [rectC]) ∧ GeneralPolygons ([innerBC] ++ [rectA]) :=
  ⟨rects_general, generalB_sound (by decide +kernel), writes_of _ _ _ _ (by decide +kernel), writes_of _ _ _ _ (by decide +kernel),
    generalB_sound (by decide +kernel), generalB_sound (by decide +kernel)⟩

/-- C70 and C90, a case: two untidy presentations of the same rectangles. -/
theorem presentation_untidy_demo : Tidies untidyA [rectA] ∧ Tidies untidyB [rectB] ∧ Tidies [rectA.rotate 1] [rectA.rotate 1] ∧ SamePolygons [rectA] [rectA.rotate 1] ∧
    GeneralPolygons ([rectA] ++ [rectB]) ∧ Consistent [rectA] [rectB] .union .positive 1 :=
  ⟨untidy_demo.1, untidy_demo.2.1, .refl, ⟨[rectA], List.Perm.refl _, .cons ⟨1, rfl⟩ .nil⟩, rects_general, consistent_positive _ _ _ (Or.inl rfl)⟩

end River
