import Verif.Props.IeeeText
import Verif.Props.IeeeChainDemo

/-! # C77 for texts with superfluous commands

The usual text of a polygon leads back to its first corner. -/

namespace River
open MakePath
attribute [local instance 10000] FTrans.toFNum

section
variable {K : Type} [Field K] [LinearOrder K] [IsStrictOrderedRing K] [FTrans K] [LawfulOrd K] [Exact K]

open Classical in
/-- **C77** for untidy polygons: corners may be repeated, the first corner may be given again at the end, there may be polygons that are horizontal throughout and
single points. If what is left after tidying up is in general position, then from text to result no step is undefined, and what is enclosed is exactly the result
of the operation on the polygons as they were written. -/
theorem text_to_region_untidy {L : NumLex K} {ok : K → Prop} (P : Printer L ok) (env : Env K) (hok : env.Ok) (msort : List (LocMin K) → List (LocMin K)) (hm : MinSort msort)
    (subject clip subject' clip' : List (List (Vec2 K))) (hs : Tidies subject subject') (hc : Tidies clip clip') (hne : ∀ Q ∈ subject ++ clip, Q ≠ [])
    (G : GeneralPolygons (subject' ++ clip')) {s1 s2 : List Char}
    (h1 : Prints P (subject.flatMap polyCmds) s1) (h2 : Prints P (clip.flatMap polyCmds) s2)
    (ct : ClipType) (fr : FillRule) (σ : Int) (hσ : σ = 1 ∨ σ = -1) (hO : Consistent subject' clip' ct fr σ) :
    ∃ (ps qs : List (Path K)) (c1 c2 : Clipper K), makePath L s1 = some ps ∧ makePath L s2 = some qs ∧
      (Clipper.new (K := K)).addPath ps .subject = some c1 ∧ c1.addPath qs .clip = some c2 ∧
      ∃ n, ∀ fuel, n ≤ fuel → ∃ (c' : Clipper K) (out : List (List (Vec2 K))),
        c2.process env msort fuel ct fr Path.recorder [] = some (some (c', out.flatMap (fun Q => eventsFrom zeroPt (closedCmds Q)))) ∧
        ∀ X y, polyWinding out X y = if InResult subject clip ct fr X y then σ else 0 := by
  obtain ⟨c1, c2, e1, e2, n, hn⟩ := process_untidy env hok msort hm subject clip subject' clip' hs hc G ct fr σ hσ hO
  have n1 : ∀ P ∈ subject, P ≠ [] := fun P hP => hne P (List.mem_append_left _ hP)
  have n2 : ∀ P ∈ clip, P ≠ [] := fun P hP => hne P (List.mem_append_right _ hP)
  have p1 := makePath_print P _ _ h1 (startsWithMove_poly _ n1)
  have p2 := makePath_print P _ _ h2 (startsWithMove_poly _ n2)
  rw [groups_polyCmds _ n1, List.map_map] at p1
  rw [groups_polyCmds _ n2, List.map_map] at p2
  refine ⟨_, _, c1, c2, p1, p2, e1, e2, n, fun fuel hf => ?_⟩
  obtain ⟨c', out, k1, k2, _⟩ := hn fuel hf
  exact ⟨c', out, k1, k2⟩

end

open Classical in
/-- **C77 with IEEE 754 doubles** for untidy polygons. -/
theorem text_to_region_untidy_ieee {e : ℤ} (he : -100 ≤ e ∧ e ≤ 100) {L : NumLex Dbl} {ok : Dbl → Prop} (P : Printer L ok) (env : Env Dbl) (hok : env.Ok)
    (msort : List (LocMin Dbl) → List (LocMin Dbl)) (hm : MinSort msort) (subject clip : List (List (Vec2 Dbl))) (S C S' C' : List (List (Vec2 ℚ)))
    (hS : List.Forall₂ (List.Forall₂ Vec2.Is) subject (timesAll (2 ^ e) S)) (hC : List.Forall₂ (List.Forall₂ Vec2.Is) clip (timesAll (2 ^ e) C))
    (hg : ∀ P ∈ S ++ C, ∀ p ∈ P, OnGrid p) (hne : ∀ Q ∈ subject ++ clip, Q ≠ [])
    (tS : Tidies S S') (tC : Tidies C C') (G : CrossPolygons (S' ++ C')) {s1 s2 : List Char}
    (h1 : Prints P (subject.flatMap polyCmds) s1) (h2 : Prints P (clip.flatMap polyCmds) s2)
    (ct : ClipType) (fr : FillRule) (σ : Int) (hσ : σ = 1 ∨ σ = -1) (hO : Consistent S' C' ct fr σ) :
    ∃ (ps qs : List (Path Dbl)) (c1 c2 : Clipper Dbl), makePath L s1 = some ps ∧ makePath L s2 = some qs ∧
      (Clipper.new (K := Dbl)).addPath ps .subject = some c1 ∧ c1.addPath qs .clip = some c2 ∧
      ∃ n, ∀ fuel, n ≤ fuel → ∃ (c' : Clipper Dbl) (es : List (Event Dbl)) (out : List (List (Vec2 ℚ))),
        c2.process env msort fuel ct fr Path.recorder [] = some (some (c', es)) ∧
        List.Forall₂ Event.Is es (out.flatMap (fun Q => eventsFrom ⟨0, 0⟩ (closedCmds Q))) ∧
        ∀ X y, polyWinding out X y = if InResult (timesAll (2 ^ e) S) (timesAll (2 ^ e) C) ct fr X y then σ else 0 := by
  obtain ⟨c1, c2, e1, e2, n, hn⟩ := process_ieee_untidy he env hok msort hm subject clip S C S' C' hS hC hg tS tC G ct fr σ hσ hO
  have n1 : ∀ P ∈ subject, P ≠ [] := fun P hP => hne P (List.mem_append_left _ hP)
  have n2 : ∀ P ∈ clip, P ≠ [] := fun P hP => hne P (List.mem_append_right _ hP)
  have p1 := makePath_print P _ _ h1 (startsWithMove_poly _ n1)
  have p2 := makePath_print P _ _ h2 (startsWithMove_poly _ n2)
  rw [groups_polyCmds _ n1, List.map_map] at p1
  rw [groups_polyCmds _ n2, List.map_map] at p2
  exact ⟨_, _, c1, c2, p1, p2, e1, e2, n, hn⟩

/-- A text that leads back to the first corner and draws a point as well, and the paths it is read as. -/
def closedText : String := "m 0 0 l 4 0 l 4 3 l 0 3 l 0 0 m 7 7"

theorem closedText_read : makePath DecLex.decLex closedText.toList =
    some ([rectA ++ [⟨0, 0⟩], [⟨7, 7⟩]].map (fun P => Path.build (polyCmds P))) := by
  decide +kernel

/-- C77, a case: the hypotheses of `text_to_region_untidy` hold of such texts. -/
theorem closedText_demo : (∃ s1 s2, Prints DecLex.decPrinter ([rectA ++ [⟨0, 0⟩], [⟨7, 7⟩]].flatMap polyCmds) s1 ∧
      Prints DecLex.decPrinter ([rectB].flatMap polyCmds) s2) ∧
    Tidies [rectA ++ [⟨0, 0⟩], [⟨7, 7⟩]] [rectA] ∧ Tidies [rectB] [rectB] ∧ GeneralPolygons ([rectA] ++ [rectB]) ∧ Consistent [rectA] [rectB] .union .positive 1 := by
  have hi : ∀ m : Int, DecLex.IsDecimal (m : ℚ) := fun m => ⟨m, 0, by simp⟩
  have hR : ∀ Q ∈ [rectA ++ [⟨0, 0⟩], [⟨7, 7⟩]] ++ [rectB], ∀ p ∈ Q, p.x = ((p.x.num : Int) : ℚ) ∧ p.y = ((p.y.num : Int) : ℚ) := by decide +kernel
  have hd : ∀ Q ∈ [rectA ++ [⟨0, 0⟩], [⟨7, 7⟩]] ++ [rectB], ∀ p ∈ Q, DecLex.IsDecimal p.x ∧ DecLex.IsDecimal p.y := fun Q hQ p hp => by
    rw [(hR Q hQ p hp).1, (hR Q hQ p hp).2]; exact ⟨hi _, hi _⟩
  obtain ⟨s1, h1⟩ := prints_poly DecLex.decPrinter [rectA ++ [⟨0, 0⟩], [⟨7, 7⟩]] (fun Q hQ => hd Q (List.mem_append_left _ hQ))
  obtain ⟨s2, h2⟩ := prints_poly DecLex.decPrinter [rectB] (fun Q hQ => hd Q (List.mem_append_right _ hQ))
  refine ⟨⟨s1, s2, h1, h2⟩, ?_, .refl, rects_general, consistent_positive _ _ _ (Or.inl rfl)⟩
  refine .head (TidyStep.close [] _ [⟨4, 0⟩, ⟨4, 3⟩, ⟨0, 3⟩] ⟨0, 0⟩) ?_
  exact .single (TidyStep.flat [rectA] [] [⟨7, 7⟩] (by decide +kernel))

end River
