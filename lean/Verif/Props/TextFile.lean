import Verif.Props.IeeeText
import Verif.Props.SvgFile

/-! # C94: from texts to the file that shows the result -/

namespace River
open MakePath
attribute [local instance 10000] FTrans.toFNum

open Classical in
/-- **C94, C77**: two texts that draw `2 ^ e` times polygons as in C79, with any white space, are read by `make_path`; the test program processes the paths and
writes a text whose `path` elements, read by `make_path` again, are the subject in green, the clip in blue and in black polygons that enclose exactly
the result, all with six decimals. No step of this is undefined. -/
theorem text_to_file {e : ℤ} (he : -100 ≤ e ∧ e ≤ 100) {L : NumLex Dbl} {ok : Dbl → Prop} (P : Printer L ok) (env : Env Dbl) (hok : env.Ok) (msort : List (LocMin Dbl) → List (LocMin Dbl))
    (hm : MinSort msort) (subject clip : List (List (Vec2 Dbl))) (S C : List (List (Vec2 ℚ))) (hS : List.Forall₂ (List.Forall₂ Vec2.Is) subject (timesAll (2 ^ e) S))
    (hC : List.Forall₂ (List.Forall₂ Vec2.Is) clip (timesAll (2 ^ e) C)) (G : CrossPolygons (S ++ C)) {s1 s2 : List Char}
    (h1 : Prints P (subject.flatMap polyCmds) s1) (h2 : Prints P (clip.flatMap polyCmds) s2)
    (ct : ClipType) (fr : FillRule) (σ : Int) (hσ : σ = 1 ∨ σ = -1) (hO : Consistent S C ct fr σ) :
    ∃ ps qs : List (Path Dbl), makePath L s1 = some ps ∧ makePath L s2 = some qs ∧
      ∃ n, ∀ fuel, n ≤ fuel → ∃ (T : List Char) (out : List (List (Vec2 ℚ))), svgFile env msort fuel ps qs ct fr = some (some T) ∧
        readPaths T = (round6All (timesAll (2 ^ e) S)).map (fun P => (some [Path.build (polyCmds P)], some "green".toList)) ++
          (round6All (timesAll (2 ^ e) C)).map (fun P => (some [Path.build (polyCmds P)], some "blue".toList)) ++
          (round6All out).map (fun P => (some [Path.build (closedCmds P)], some "black".toList)) ∧
        ∀ X y, polyWinding out X y = if InResult (timesAll (2 ^ e) S) (timesAll (2 ^ e) C) ct fr X y then σ else 0 := by
  have full : ∀ {Ps : List (List (Vec2 Dbl))} {Qs : List (List (Vec2 ℚ))}, List.Forall₂ (List.Forall₂ Vec2.Is) Ps Qs → (∀ Q ∈ Qs, Q ≠ []) → ∀ P ∈ Ps, P ≠ [] := by
    intro Ps Qs h
    induction h with
    | nil => intro _ P hP; cases hP
    | cons h1 h2 ih =>
      intro hq P hP
      rcases List.mem_cons.1 hP with rfl | hP
      · rintro rfl
        cases h1
        exact hq [] (List.mem_cons_self ..) rfl
      · exact ih (fun Q hQ => hq Q (List.mem_cons_of_mem _ hQ)) P hP
  have hne : ∀ Q ∈ S ++ C, Q ≠ [] := by
    rintro Q hQ rfl
    obtain ⟨p, hp, _⟩ := G.general.turn [] hQ
    exact absurd hp (by simp)
  have ht : ∀ {Qs : List (List (Vec2 ℚ))}, (∀ Q ∈ Qs, Q ≠ []) → ∀ Q ∈ timesAll (2 ^ e) Qs, Q ≠ [] := by
    intro Qs h Q hQ
    obtain ⟨Q', hQ', rfl⟩ := List.mem_map.1 hQ
    simpa using h Q' hQ'
  have n1 := full hS (ht (fun Q hQ => hne Q (List.mem_append_left _ hQ)))
  have n2 := full hC (ht (fun Q hQ => hne Q (List.mem_append_right _ hQ)))
  have p1 := makePath_print P _ _ h1 (startsWithMove_poly _ n1)
  have p2 := makePath_print P _ _ h2 (startsWithMove_poly _ n2)
  rw [groups_polyCmds _ n1, List.map_map] at p1
  rw [groups_polyCmds _ n2, List.map_map] at p2
  exact ⟨_, _, p1, p2, svgFile_polygons he env hok msort hm subject clip S C hS hC G ct fr σ hσ hO⟩

/-- A text for the other polygons of `cross_union_ieee`. -/
theorem crossSquare_text : makePath dblLex "m -2 -2 l 14 -2 l1.4e1 14\nl-2 14 m 2 4l -6 4 l-6 -4".toList =
    some ((crossSquare.map (ieeePoly false)).map (fun P => Path.build (polyCmds P))) := by
  decide +kernel

/-- **C94, C77** applied: from two texts to the file that shows the union, computed with IEEE 754 doubles. -/
theorem cross_text_file : ∃ n, ∀ fuel, n ≤ fuel → ∃ (T : List Char) (out : List (List (Vec2 ℚ))),
    ((makePath dblLex "m 0 -8 l 8 0l0 8.0\n l -0.8e1 0 ".toList).bind (fun ps =>
      (makePath dblLex "m -2 -2 l 14 -2 l1.4e1 14\nl-2 14 m 2 4l -6 4 l-6 -4".toList).bind (fun qs =>
        svgFile ieeeEnv ieeeSort fuel ps qs .union .positive))) = some (some T) ∧
    readPaths T = (crossDiamond.map gridPoly).map (fun P => (some [Path.build (polyCmds P)], some "green".toList)) ++
      (crossSquare.map gridPoly).map (fun P => (some [Path.build (polyCmds P)], some "blue".toList)) ++
      (round6All out).map (fun P => (some [Path.build (closedCmds P)], some "black".toList)) ∧
    polyWinding out 0 (-4) = 1 ∧ polyWinding out (-3) 6 = 0 := by
  have e0 : ∀ Ps : List (List (Vec2 ℚ)), timesAll (2 ^ (0 : ℤ)) Ps = Ps := fun Ps => by rw [zpow_zero, times_one]
  obtain ⟨n, hn⟩ := svgFile_polygons (e := 0) (by norm_num) ieeeEnv ieeeEnv_ok ieeeSort ieeeSort_ok _ _ (crossDiamond.map gridPoly) (crossSquare.map gridPoly)
    (by rw [e0]; exact ieeePoly_is false crossDiamond) (by rw [e0]; exact ieeePoly_is false crossSquare) cross_polygons .union .positive 1 (Or.inl rfl)
    (consistent_positive _ _ _ (Or.inl rfl))
  refine ⟨n, fun fuel hf => ?_⟩
  obtain ⟨T, out, h1, h2, h3⟩ := hn fuel hf
  rw [e0, e0] at h2
  have r1 : round6All (crossDiamond.map gridPoly) = crossDiamond.map gridPoly := by decide +kernel
  have r2 : round6All (crossSquare.map gridPoly) = crossSquare.map gridPoly := by decide +kernel
  rw [r1, r2] at h2
  refine ⟨T, out, ?_, h2, ?_, ?_⟩
  · rw [crossDiamond_text, crossSquare_text]
    exact h1
  · rw [h3, if_pos]
    rw [e0, e0]
    exact Or.inl (show 0 < polyWinding (crossDiamond.map gridPoly) 0 (-4) by decide +kernel)
  · rw [h3, if_neg]
    rw [e0, e0]
    rintro (h | h)
    · exact absurd (show 0 < polyWinding (crossDiamond.map gridPoly) (-3) 6 from h) (by decide +kernel)
    · exact absurd (show 0 < polyWinding (crossSquare.map gridPoly) (-3) 6 from h) (by decide +kernel)

end River
