import Verif.Lemmas.Area
import Verif.Props.Polygons

/-! # C76: areas -/

namespace River
variable {K : Type} [Field K] [LinearOrder K] [IsStrictOrderedRing K] [FTrans K] [LawfulOrd K] [Exact K]
attribute [local instance 10000] FTrans.toFNum

open Classical in
/-- **C76**: the area of the polygons delivered is determined by the region. Whatever polygons wind exactly once around the points of
the result and not around the others, they have the area of the polygons delivered (with the sign `σ`). -/
theorem process_area (env : Env K) (hok : env.Ok) (msort : List (LocMin K) → List (LocMin K)) (hm : MinSort msort)
    (subject clip : List (List (Vec2 K))) (G : GeneralPolygons (subject ++ clip))
    (ct : ClipType) (fr : FillRule) (σ : Int) (hσ : σ = 1 ∨ σ = -1) (hO : Consistent subject clip ct fr σ) :
    ∃ c1 c2 : Clipper K, (Clipper.new (K := K)).addPath (subject.map (fun P => Path.build (polyCmds P))) .subject = some c1 ∧
      c1.addPath (clip.map (fun P => Path.build (polyCmds P))) .clip = some c2 ∧
      ∃ n, ∀ fuel, n ≤ fuel → ∃ (c' : Clipper K) (out : List (List (Vec2 K))),
        c2.process env msort fuel ct fr Path.recorder [] = some (some (c', out.flatMap (fun Q => eventsFrom zeroPt (closedCmds Q)))) ∧
        ∀ Qs : List (List (Vec2 K)), (∀ X y, polyWinding Qs X y = if InResult subject clip ct fr X y then σ else 0) → area2 out = area2 Qs := by
  obtain ⟨c1, c2, h1, h2, n, hn⟩ := process_polygons env hok msort hm subject clip G ct fr σ hσ hO
  refine ⟨c1, c2, h1, h2, n, fun fuel hf => ?_⟩
  obtain ⟨c', out, h3, h4⟩ := hn fuel hf
  exact ⟨c', out, h3, fun Qs hQ => area_eq (fun X y => by rw [h4, hQ])⟩

/-- **C76**: union and intersection together have the area of subject and clip together, the union has at least the area of each of them,
the intersection at most, if subject and clip wind around every point once or not at all. -/
theorem process_areas (env : Env K) (hok : env.Ok) (msort : List (LocMin K) → List (LocMin K)) (hm : MinSort msort)
    (subject clip : List (List (Vec2 K))) (G : GeneralPolygons (subject ++ clip))
    (hs : ∀ X y, polyWinding subject X y = 0 ∨ polyWinding subject X y = 1) (hc : ∀ X y, polyWinding clip X y = 0 ∨ polyWinding clip X y = 1) :
    ∃ c1 c2 : Clipper K, (Clipper.new (K := K)).addPath (subject.map (fun P => Path.build (polyCmds P))) .subject = some c1 ∧
      c1.addPath (clip.map (fun P => Path.build (polyCmds P))) .clip = some c2 ∧
      ∃ n, ∀ fuel, n ≤ fuel → ∃ (cu ci : Clipper K) (union inter : List (List (Vec2 K))),
        c2.process env msort fuel .union .positive Path.recorder [] = some (some (cu, union.flatMap (fun Q => eventsFrom zeroPt (closedCmds Q)))) ∧
        c2.process env msort fuel .intersection .positive Path.recorder [] = some (some (ci, inter.flatMap (fun Q => eventsFrom zeroPt (closedCmds Q)))) ∧
        (∀ X y, polyWinding union X y = if 0 < polyWinding subject X y ∨ 0 < polyWinding clip X y then 1 else 0) ∧
        (∀ X y, polyWinding inter X y = if 0 < polyWinding subject X y ∧ 0 < polyWinding clip X y then 1 else 0) ∧
        area2 union + area2 inter = area2 subject + area2 clip ∧
        0 ≤ area2 inter ∧ area2 inter ≤ area2 subject ∧ area2 inter ≤ area2 clip ∧ area2 subject ≤ area2 union ∧ area2 clip ≤ area2 union := by
  classical
  obtain ⟨c1, c2, h1, h2, n, hn⟩ := process_polygons env hok msort hm subject clip G .union .positive 1 (Or.inl rfl) (consistent_positive _ _ _ (Or.inl rfl))
  obtain ⟨d1, d2, g1, g2, m, hm'⟩ := process_polygons env hok msort hm subject clip G .intersection .positive 1 (Or.inl rfl) (consistent_positive _ _ _ (Or.inr rfl))
  obtain rfl : c1 = d1 := Option.some.inj (h1.symm.trans g1)
  obtain rfl : c2 = d2 := Option.some.inj (h2.symm.trans g2)
  refine ⟨c1, c2, h1, h2, max n m, fun fuel hf => ?_⟩
  obtain ⟨cu, union, h3, h4⟩ := hn fuel ((le_max_left _ _).trans hf)
  obtain ⟨ci, inter, h5, h6⟩ := hm' fuel ((le_max_right _ _).trans hf)
  have u : ∀ X y, polyWinding union X y = if 0 < polyWinding subject X y ∨ 0 < polyWinding clip X y then 1 else 0 :=
    fun X y => (h4 X y).trans (if_congr Iff.rfl rfl rfl)
  have i : ∀ X y, polyWinding inter X y = if 0 < polyWinding subject X y ∧ 0 < polyWinding clip X y then 1 else 0 :=
    fun X y => (h6 X y).trans (if_congr Iff.rfl rfl rfl)
  have e0 : area2 ([] : List (List (Vec2 K))) = 0 := rfl
  refine ⟨cu, ci, union, inter, h3, h5, u, i, ?_, ?_, ?_, ?_, ?_, ?_⟩
  · rw [← area2_append, ← area2_append]
    refine area_eq (fun X y => ?_)
    rw [polyWinding_add, polyWinding_add, u, i]
    rcases hs X y with h | h <;> rcases hc X y with h' | h' <;> rw [h, h'] <;> simp
  · rw [← e0]
    refine area_mono (fun X y => ?_)
    rw [i, show polyWinding ([] : List (List (Vec2 K))) X y = 0 from rfl]
    split <;> simp
  all_goals
    refine area_mono (fun X y => ?_)
    simp only [u, i]
    rcases hs X y with h | h <;> rcases hc X y with h' | h' <;> rw [h, h'] <;> simp

end River
