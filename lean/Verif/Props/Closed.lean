import Verif.Props.PolygonsDemo
import Verif.Spec.Output

/-! # C40 and C41 where they hold: contours of polygons in general position are closed and directed alike -/

namespace River
attribute [local instance 10000] FTrans.toFNum
variable {K : Type} [Field K] [LinearOrder K] [IsStrictOrderedRing K] [FTrans K] [LawfulOrd K] [Exact K]

omit [Field K] [LinearOrder K] [IsStrictOrderedRing K] [FTrans K] [LawfulOrd K] [Exact K] in
/-- The callbacks for one polygon form a closed contour. -/
theorem closedCmds_isContour (org p : Vec2 K) (qs : List (Vec2 K)) :
    IsContour org (eventsFrom org (closedCmds (p :: qs))) ∧ ClosedContour (eventsFrom org (closedCmds (p :: qs))) := by
  refine ⟨⟨p, (qs ++ [p]).map .lineto, rfl, by simp, ?_⟩, p, rfl, ?_⟩
  · intro c hc
    obtain ⟨q, _, rfl⟩ := List.mem_map.1 hc
    rfl
  · have key : ∀ (l : List (Cmd K)) (o : Vec2 K) (c : Cmd K), (eventsFrom o (l ++ [c])).getLast?.map (fun e => e.cmd.target) = some c.target := by
      intro l
      induction l with
      | nil => intro o c; rfl
      | cons a l ih =>
        intro o c
        rw [List.cons_append, eventsFrom, List.getLast?_cons_of_ne_nil]
        · exact ih _ c
        · cases l <;> simp [eventsFrom]
    unfold endPoint
    rw [closedCmds, List.map_append, ← List.cons_append, List.map_singleton, key]
    rfl

open Classical in
/-- **C40 for polygons in general position.** What a call delivers is a sequence of contours, each of which ends where it starts. (Missing: operations
whose result lies on different sides of its boundary; for these the claim is false, see `difference_not_closed`.) -/
theorem contours_closed_partial (env : Env K) (hok : env.Ok) (msort : List (LocMin K) → List (LocMin K)) (hm : MinSort msort)
    (subject clip : List (List (Vec2 K))) (G : GeneralPolygons (subject ++ clip))
    (ct : ClipType) (fr : FillRule) (σ : Int) (hσ : σ = 1 ∨ σ = -1) (hO : Consistent subject clip ct fr σ) :
    ∃ c1 c2 : Clipper K, (Clipper.new (K := K)).addPath (subject.map (fun P => Path.build (polyCmds P))) .subject = some c1 ∧
      c1.addPath (clip.map (fun P => Path.build (polyCmds P))) .clip = some c2 ∧
      ∃ n, ∀ fuel, n ≤ fuel → ∃ (c' : Clipper K) (cs : List (List (Event K))),
        c2.process env msort fuel ct fr Path.recorder [] = some (some (c', cs.flatten)) ∧ ∀ x ∈ cs, IsContour zeroPt x ∧ ClosedContour x := by
  obtain ⟨c1, c2, h1, h2, n, hn⟩ := process_polygons env hok msort hm subject clip G ct fr σ hσ hO
  refine ⟨c1, c2, h1, h2, n, fun fuel hf => ?_⟩
  obtain ⟨c', out, h3, h4⟩ := hn fuel hf
  refine ⟨c', (out.filter (fun Q => decide (Q ≠ []))).map (fun Q => eventsFrom zeroPt (closedCmds Q)), ?_, ?_⟩
  · rw [h3, ← List.flatMap_def]
    congr 3
    clear h3 h4
    induction out with
    | nil => rfl
    | cons Q out ih =>
      cases Q with
      | nil => simpa [closedCmds, eventsFrom] using ih
      | cons p qs => simpa using ih
  · intro x hx
    obtain ⟨Q, hQ, rfl⟩ := List.mem_map.1 hx
    obtain ⟨p, qs, rfl⟩ := List.exists_cons_of_ne_nil (of_decide_eq_true (List.mem_filter.1 hQ).2)
    exact closedCmds_isContour _ p qs

/-- **C41 for polygons in general position.** No pair of bounds with equal directions turns up, so that the call is defined and no winding number of what it
delivers has the wrong sign or a wrong magnitude: the contours have the result on the same hand everywhere. (Missing: as for C40, see `difference_ub`.) -/
theorem directions_partial (env : Env K) (hok : env.Ok) (msort : List (LocMin K) → List (LocMin K)) (hm : MinSort msort)
    (subject clip : List (List (Vec2 K))) (G : GeneralPolygons (subject ++ clip))
    (ct : ClipType) (fr : FillRule) (σ : Int) (hσ : σ = 1 ∨ σ = -1) (hO : Consistent subject clip ct fr σ) :
    ∃ c1 c2 : Clipper K, (Clipper.new (K := K)).addPath (subject.map (fun P => Path.build (polyCmds P))) .subject = some c1 ∧
      c1.addPath (clip.map (fun P => Path.build (polyCmds P))) .clip = some c2 ∧
      ∃ n, ∀ fuel, n ≤ fuel → ∃ (c' : Clipper K) (out : List (List (Vec2 K))),
        c2.process env msort fuel ct fr Path.recorder [] = some (some (c', out.flatMap (fun Q => eventsFrom zeroPt (closedCmds Q)))) ∧
        ∀ X y, polyWinding out X y = 0 ∨ polyWinding out X y = σ := by
  classical
  obtain ⟨c1, c2, h1, h2, n, hn⟩ := process_polygons env hok msort hm subject clip G ct fr σ hσ hO
  refine ⟨c1, c2, h1, h2, n, fun fuel hf => ?_⟩
  obtain ⟨c', out, h3, h4⟩ := hn fuel hf
  refine ⟨c', out, h3, fun X y => ?_⟩
  rw [h4]
  split
  · exact Or.inr rfl
  · exact Or.inl rfl

/-- The hypotheses of both theorems are met by a pentagram and a quadrilateral that cross. -/
theorem closed_demo : GeneralPolygons ([pentagram] ++ [quad]) ∧ Consistent [pentagram] [quad] .union .positive 1 :=
  ⟨demo_general, consistent_positive _ _ _ (Or.inl rfl)⟩

end River
