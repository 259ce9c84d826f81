import Verif.Props.IeeeChain
import Verif.Props.IeeeDemo

/-! # The hypotheses of C90 and C91 with IEEE doubles can be met -/

namespace River
attribute [local instance 10000] FTrans.toFNum

/-- Two rectangles that cross, and a third one. -/
def boxA : List (List (ℤ × ℤ)) := [[(0, 0), (4, 0), (4, 4), (0, 4)]]
def boxB : List (List (ℤ × ℤ)) := [[(2, 2), (6, 2), (6, 6), (2, 6)]]
def boxC : List (List (ℤ × ℤ)) := [[(3, 3), (7, 3), (7, 7), (3, 7)]]
/-- The intersection of the first two. -/
def boxAB : List (List (ℤ × ℤ)) := [[(2, 2), (4, 2), (4, 4), (2, 4)]]

theorem boxes_cross : CrossPolygons (boxA.map gridPoly ++ boxB.map gridPoly) ∧ CrossPolygons (boxAB.map gridPoly ++ boxC.map gridPoly) := by
  rw [← List.map_append, ← List.map_append]
  exact ⟨crossPolygons_of (by decide +kernel) (by decide +kernel) (by decide +kernel), crossPolygons_of (by decide +kernel) (by decide +kernel) (by decide +kernel)⟩

/-- The first rectangle with a corner given twice, once with `+0` and once with `-0`, with its first corner at the end again, and with
a line there and back. Multiples of 1/1024. -/
def untidyBox : List (List (Vec2 Dbl)) :=
  [[⟨dblAt (-10) false 0, dblAt (-10) true 0⟩, ⟨dblAt (-10) false 4, dblAt (-10) false 0⟩, ⟨dblAt (-10) false 4, dblAt (-10) true 0⟩,
    ⟨dblAt (-10) false 4, dblAt (-10) false 4⟩, ⟨dblAt (-10) true 0, dblAt (-10) false 4⟩, ⟨dblAt (-10) true 0, dblAt (-10) false 0⟩],
   [⟨dblAt (-10) false 1, dblAt (-10) false 1⟩, ⟨dblAt (-10) false 5, dblAt (-10) false 1⟩, ⟨dblAt (-10) false 1, dblAt (-10) false 1⟩]]

/-- Their values, times 1024. -/
def untidyBoxZ : List (List (ℤ × ℤ)) := [[(0, 0), (4, 0), (4, 0), (4, 4), (0, 4), (0, 0)], [(1, 1), (5, 1), (1, 1)]]

theorem untidyBox_is : List.Forall₂ (List.Forall₂ Vec2.Is) untidyBox (timesAll (2 ^ (-10 : ℤ)) (untidyBoxZ.map gridPoly)) := by
  have h : ∀ (z w : Bool) (a b : ℤ), Vec2.Is ⟨dblAt (-10) z a, dblAt (-10) w b⟩ (Vec2.times (2 ^ (-10 : ℤ)) ⟨a, b⟩) := fun z w a b => ⟨dblAt_is _ z a, dblAt_is _ w b⟩
  exact .cons (.cons (h ..) (.cons (h ..) (.cons (h ..) (.cons (h ..) (.cons (h ..) (.cons (h ..) .nil))))))
    (.cons (.cons (h ..) (.cons (h ..) (.cons (h ..) .nil))) .nil)

theorem untidyBox_tidies : Tidies (untidyBoxZ.map gridPoly) (boxA.map gridPoly) := by
  have h1 : untidyBoxZ.map gridPoly = ([] : List (List (Vec2 ℚ))) ++ ([⟨0, 0⟩] ++ ⟨4, 0⟩ :: ⟨4, 0⟩ :: [⟨4, 4⟩, ⟨0, 4⟩, ⟨0, 0⟩]) :: [[⟨1, 1⟩, ⟨5, 1⟩, ⟨1, 1⟩]] := by
    decide +kernel
  have h2 : boxA.map gridPoly = [([⟨0, 0⟩, ⟨4, 0⟩, ⟨4, 4⟩, ⟨0, 4⟩] : List (Vec2 ℚ))] ++ [] := by decide +kernel
  rw [h1, h2]
  refine .head (TidyStep.again ..) ?_
  refine .head (TidyStep.close [] _ [⟨4, 0⟩, ⟨4, 4⟩, ⟨0, 4⟩] ⟨0, 0⟩) ?_
  exact .single (TidyStep.flat [[⟨0, 0⟩, ⟨4, 0⟩, ⟨4, 4⟩, ⟨0, 4⟩]] [] [⟨1, 1⟩, ⟨5, 1⟩, ⟨1, 1⟩] (by decide +kernel))

theorem gridB_sound {Ps : List (List (ℤ × ℤ))} (h : ∀ P ∈ Ps, ∀ p ∈ P, |p.1| ≤ 2 ^ 15 ∧ |p.2| ≤ 2 ^ 15) : ∀ P ∈ Ps.map gridPoly, ∀ p ∈ P, OnGrid p := by
  intro P hP p hp
  obtain ⟨Q, hQ, rfl⟩ := List.mem_map.1 hP
  obtain ⟨q, hq, rfl⟩ := List.mem_map.1 hp
  exact ⟨q.1, q.2, (h Q hQ q hq).1, (h Q hQ q hq).2, rfl⟩

/-- **C90 with IEEE doubles**, applied: the union of the untidy rectangle and the second one. -/
theorem untidy_ieee : ∃ c1 c2 : Clipper Dbl, (Clipper.new (K := Dbl)).addPath (untidyBox.map (fun P => Path.build (polyCmds P))) .subject = some c1 ∧
      c1.addPath ((boxB.map (ieeePolyAt (-10) false)).map (fun P => Path.build (polyCmds P))) .clip = some c2 ∧
      ∃ n, ∀ fuel, n ≤ fuel → ∃ (c' : Clipper Dbl) (es : List (Event Dbl)) (out : List (List (Vec2 ℚ))),
        c2.process ieeeEnv ieeeSort fuel .union .positive Path.recorder [] = some (some (c', es)) ∧
        List.Forall₂ Event.Is es (out.flatMap (fun Q => eventsFrom ⟨0, 0⟩ (closedCmds Q))) ∧
        polyWinding out (1 / 1024) (1 / 512) = 1 ∧ polyWinding out (9 / 2048) (1 / 2048) = 0 := by
  obtain ⟨c1, c2, h1, h2, n, hn⟩ := process_ieee_untidy (e := -10) (by norm_num) ieeeEnv ieeeEnv_ok ieeeSort ieeeSort_ok untidyBox _ _ _ _ _
    untidyBox_is (ieeePolyAt_is _ false boxB) (by
      rw [← List.map_append]
      exact gridB_sound (by decide +kernel)) untidyBox_tidies .refl boxes_cross.1 .union .positive 1 (Or.inl rfl) (consistent_positive _ _ _ (Or.inl rfl))
  refine ⟨c1, c2, h1, h2, n, fun fuel hf => ?_⟩
  obtain ⟨c', es, out, h3, h3', h4⟩ := hn fuel hf
  refine ⟨c', es, out, h3, h3', ?_, ?_⟩
  · rw [h4, if_pos]
    exact Or.inl (show 0 < polyWinding (timesAll (2 ^ (-10 : ℤ)) (untidyBoxZ.map gridPoly)) (1 / 1024) (1 / 512) by decide +kernel)
  · rw [h4, if_neg]
    rintro (h | h)
    · exact absurd (show 0 < polyWinding (timesAll (2 ^ (-10 : ℤ)) (untidyBoxZ.map gridPoly)) (9 / 2048) (1 / 2048) from h) (by decide +kernel)
    · exact absurd (show 0 < polyWinding (timesAll (2 ^ (-10 : ℤ)) (boxB.map gridPoly)) (9 / 2048) (1 / 2048) from h) (by decide +kernel)

/-- **C91 with IEEE doubles**, a case: the intersection of two rectangles of multiples of 1/1024 is delivered as one rectangle, and with a third one it meets
the hypotheses for the second call. -/
theorem chain_ieee_demo :
    (((Clipper.new (K := Dbl)).addPath ((boxA.map (ieeePolyAt (-10) true)).map (fun P => Path.build (polyCmds P))) .subject).bind (fun c1 =>
      (c1.addPath ((boxB.map (ieeePolyAt (-10) false)).map (fun P => Path.build (polyCmds P))) .clip).bind (fun c2 =>
        (c2.processPaths ieeeEnv ieeeSort 50 .intersection .positive []).map (fun r => r.map Prod.snd))) =
      some (some ((boxAB.map (ieeePolyAt (-10) false)).map (fun Q => Path.build (closedCmds Q))))) ∧
    CrossPolygons (boxA.map gridPoly ++ boxB.map gridPoly) ∧ Consistent (boxA.map gridPoly) (boxB.map gridPoly) .intersection .positive 1 ∧
    CrossPolygons (boxAB.map gridPoly ++ boxC.map gridPoly) ∧ Consistent (boxAB.map gridPoly) (boxC.map gridPoly) .union .positive 1 ∧
    ∀ P ∈ boxAB.map gridPoly ++ boxC.map gridPoly, ∀ p ∈ P, OnGrid p :=
  ⟨by decide +kernel, boxes_cross.1, consistent_positive _ _ _ (Or.inr rfl), boxes_cross.2, consistent_positive _ _ _ (Or.inl rfl), by
    rw [← List.map_append]
    exact gridB_sound (by decide +kernel)⟩

end River
