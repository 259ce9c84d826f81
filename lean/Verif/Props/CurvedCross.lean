import Verif.Props.UprightEven

/-! # C82: contours with curved sides of equally spaced heights that cross -/

namespace River

attribute [local instance 10000] FTrans.toFNum

open Classical in
/-- **C82.** Closed contours of straight and curved sides that may cross, added to a new processor as subject and clip, are
processed without undefined behaviour and without endless loops. What is delivered are closed contours made of parts of the given
sides between neighbouring ends or common points, none drawn twice, and at every point of the plane their winding number is `σ` if the
point belongs to the result of the operation and `0` if not — provided the result lies to the same side of its whole boundary. -/
theorem process_curved_crossing (env : Env ℝ) (hok : env.Ok) (msort : List (LocMin ℝ) → List (LocMin ℝ)) (hm : MinSort msort)
    (subject clip : List (Loop ℝ)) (N : CrossingLoops (subject ++ clip))
    (ct : ClipType) (fr : FillRule) (σ : Int) (hσ : σ = 1 ∨ σ = -1) (hO : LoopsOriented subject clip ct fr σ) :
    ∃ c1 c2 : Clipper ℝ, (Clipper.new (K := ℝ)).addPath (subject.map (fun l => Path.build l.cmds)) .subject = some c1 ∧
      c1.addPath (clip.map (fun l => Path.build l.cmds)) .clip = some c2 ∧
      ∃ n, ∀ fuel, n ≤ fuel → ∃ (c' : Clipper ℝ) (out : List (Loop ℝ)),
        c2.process env msort fuel ct fr Path.recorder [] = some (some (c', out.flatMap (fun l => eventsFrom zeroPt l.cmds))) ∧
        (∀ l ∈ out, l.Closed) ∧ CutSides ((subject ++ clip).flatMap Loop.sides) (out.flatMap Loop.sides) ∧
        ∀ X y, loopWinding out X y = if InLoops subject clip ct fr X y then σ else 0 := by
  have he : ∀ Ls : List (Loop ℝ), (∀ l ∈ Ls, l ∈ subject ++ clip) → ∀ X y, Upright.loopWinding Ls X y = loopWinding Ls X y := by
    intro Ls hl X y
    refine Upright.loopWinding_even (fun s hs => ?_) X y
    obtain ⟨l, h1, h2⟩ := List.mem_flatMap.1 hs
    have : s ∈ (subject ++ clip).flatMap Loop.sides := List.mem_flatMap.2 ⟨l, hl l h1, h2⟩
    exact ⟨N.even s this, N.steep s this⟩
  have h1 : Upright.loopWinding subject = loopWinding subject := funext fun X => funext fun y => he subject (fun l h => List.mem_append_left _ h) X y
  have h2 : Upright.loopWinding clip = loopWinding clip := funext fun X => funext fun y => he clip (fun l h => List.mem_append_right _ h) X y
  have hO' : Upright.LoopsOriented subject clip ct fr σ := by
    unfold Upright.LoopsOriented Upright.InLoops
    rw [h1, h2]
    exact hO
  obtain ⟨c1, c2, a1, a2, n, hn⟩ := Upright.process_upright_crossing env hok msort hm subject clip (Upright.crossingLoops_even N) ct fr σ hσ hO'
  refine ⟨c1, c2, a1, a2, n, fun fuel hf => ?_⟩
  obtain ⟨c', out, b1, b2, b3, b4⟩ := hn fuel hf
  refine ⟨c', out, b1, b2, b3, fun X y => ?_⟩
  rw [← Upright.loopWinding_even (fun s hs => ?_) X y, b4]
  · unfold Upright.InLoops InLoops
    rw [h1, h2]
  · obtain ⟨g, hg, a, b, hp, _⟩ := b3.part s hs
    refine ⟨hp.even (N.even g hg), fun e => ?_⟩
    have k := hp.height (N.even g hg)
    rw [e, sub_self] at k
    rcases mul_eq_zero.1 k.symm with k | k
    · exact (sub_pos.2 hp.lt).ne' k
    · exact N.steep g hg (sub_eq_zero.1 k).symm

end River
