import Verif.Props.Again

/-! # C44: exactly when calling `process` twice delivers the same points -/

namespace River
variable {K : Type} [Field K] [LinearOrder K] [IsStrictOrderedRing K] [FTrans K] [LawfulOrd K] [Exact K]
attribute [local instance 10000] FTrans.toFNum

/-- **C44**, exactly, for polygons in general position: two equal calls of `process` deliver contours with the same winding number at every point if and only if no point
belongs to the result. -/
theorem process_twice_iff_partial (env : Env K) (hok : env.Ok) (msort : List (LocMin K) → List (LocMin K)) (hm : MinSort msort)
    (subject clip : List (List (Vec2 K))) (G : GeneralPolygons (subject ++ clip)) (ct : ClipType) (fr : FillRule) (σ : Int) (hσ : σ = 1 ∨ σ = -1)
    (hO : Consistent subject clip ct fr σ) {c : Clipper K} (h : Processed env msort subject clip [] c) :
    ∃ m, ∀ fuel, m ≤ fuel → ∃ (c' : Clipper K) (out : List (List (Vec2 K))),
      c.process env msort fuel ct fr Path.recorder [] = some (some (c', out.flatMap (fun Q => eventsFrom zeroPt (closedCmds Q)))) ∧
      ∃ m', ∀ fuel', m' ≤ fuel' → ∃ (c'' : Clipper K) (out' : List (List (Vec2 K))),
        c'.process env msort fuel' ct fr Path.recorder [] = some (some (c'', out'.flatMap (fun Q => eventsFrom zeroPt (closedCmds Q)))) ∧
        ((∀ X y, polyWinding out' X y = polyWinding out X y) ↔ ∀ X y, ¬ InResult subject clip ct fr X y) := by
  obtain ⟨m, h1⟩ := process_nth env hok msort hm subject clip G ct fr σ hσ hO 0 h
  refine ⟨m, fun fuel hf => ?_⟩
  obtain ⟨c', out, e1, w1⟩ := h1 fuel hf
  refine ⟨c', out, e1, ?_⟩
  have hp : Processed env msort subject clip (List.replicate 1 (ct, fr)) c' := by
    simpa using h.call _ _ fuel _ _ _ e1
  obtain ⟨m', h2⟩ := process_nth env hok msort hm subject clip G ct fr σ hσ hO 1 hp
  refine ⟨m', fun fuel' hf' => ?_⟩
  obtain ⟨c'', out', e2, w2⟩ := h2 fuel' hf'
  refine ⟨c'', out', e2, ?_⟩
  simp only [w1, w2]
  refine ⟨fun hw X y hin => ?_, fun hn X y => by rw [if_neg (hn X y), if_neg (hn X y)]⟩
  have := hw X y
  rw [if_pos hin, if_pos hin] at this
  push_cast at this
  rcases hσ with rfl | rfl <;> omega

/-- The pentagram and the quadrilateral of `demo_union` meet the hypotheses. -/
theorem twice_demo : ∃ c : Clipper ℚ, Processed demoEnv minsort [pentagram] [quad] [] c := again_demo 0

end River
