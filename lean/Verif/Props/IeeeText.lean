import Verif.Props.IeeeDemo
import Verif.Props.Text

/-! # C77 with IEEE 754 doubles: from text to polygons -/

namespace River
open MakePath
attribute [local instance 10000] FTrans.toFNum

/-- Decimal numbers read as doubles (`qi::double_`, `river.cpp:53`): the nearest double. -/
def dblLex : NumLex Dbl where
  lex s := (DecLex.decLex.lex s).map (fun p => (Dbl.lit p.1, p.2))
  shorter s k r h := by
    obtain ⟨p, hp, e⟩ := Option.map_eq_some_iff.1 h
    obtain ⟨rfl, rfl⟩ := Prod.mk.injEq .. ▸ e
    exact DecLex.decLex.shorter s p.1 p.2 hp

/-- Doubles written in decimal notation: those that are read back as they are. -/
noncomputable def dblPrinter : Printer dblLex (fun d => d = Dbl.lit d.toRat ∧ DecLex.IsDecimal d.toRat) where
  pr d := DecLex.decPrinter.pr d.toRat
  noSp d h := DecLex.decPrinter.noSp d.toRat h.2
  read d h rest hr := by
    change (DecLex.decLex.lex (DecLex.decPrinter.pr d.toRat ++ rest)).map _ = _
    rw [DecLex.decPrinter.read d.toRat h.2 rest hr, Option.map_some, ← h.1]

open Classical in
/-- **C77 with IEEE 754 doubles**: two texts that draw `2 ^ e` times polygons as in C79 or, in particular, C75, with any white space, are read by `make_path`, the paths
are added as subject and clip, and `process` delivers polygons that enclose exactly the result. No step of this is undefined. -/
theorem text_to_region_ieee {e : ℤ} (he : -100 ≤ e ∧ e ≤ 100) {L : NumLex Dbl} {ok : Dbl → Prop} (P : Printer L ok) (env : Env Dbl) (hok : env.Ok) (msort : List (LocMin Dbl) → List (LocMin Dbl))
    (hm : MinSort msort) (subject clip : List (List (Vec2 Dbl))) (S C : List (List (Vec2 ℚ))) (hS : List.Forall₂ (List.Forall₂ Vec2.Is) subject (timesAll (2 ^ e) S))
    (hC : List.Forall₂ (List.Forall₂ Vec2.Is) clip (timesAll (2 ^ e) C)) (G : CrossPolygons (S ++ C)) {s1 s2 : List Char}
    (h1 : Prints P (subject.flatMap polyCmds) s1) (h2 : Prints P (clip.flatMap polyCmds) s2)
    (ct : ClipType) (fr : FillRule) (σ : Int) (hσ : σ = 1 ∨ σ = -1) (hO : Consistent S C ct fr σ) :
    ∃ (ps qs : List (Path Dbl)) (c1 c2 : Clipper Dbl), makePath L s1 = some ps ∧ makePath L s2 = some qs ∧
      (Clipper.new (K := Dbl)).addPath ps .subject = some c1 ∧ c1.addPath qs .clip = some c2 ∧
      ∃ n, ∀ fuel, n ≤ fuel → ∃ (c' : Clipper Dbl) (es : List (Event Dbl)) (out : List (List (Vec2 ℚ))),
        c2.process env msort fuel ct fr Path.recorder [] = some (some (c', es)) ∧
        List.Forall₂ Event.Is es (out.flatMap (fun Q => eventsFrom ⟨0, 0⟩ (closedCmds Q))) ∧
        ∀ X y, polyWinding out X y = if InResult (timesAll (2 ^ e) S) (timesAll (2 ^ e) C) ct fr X y then σ else 0 := by
  obtain ⟨c1, c2, e1, e2, n, hn⟩ := process_ieee_crossing_scaled he env hok msort hm subject clip S C hS hC G ct fr σ hσ hO
  have full : ∀ {Ps : List (List (Vec2 Dbl))} {Qs : List (List (Vec2 ℚ))}, List.Forall₂ (List.Forall₂ Vec2.Is) Ps Qs → (∀ Q ∈ Qs, Q ≠ []) → ∀ P ∈ Ps, P ≠ [] := by
    intro Ps Qs h
    induction h with
    | nil => intro _ P hP; cases hP
    | cons h1 h2 ih =>
      intro hq P hP
      rcases List.mem_cons.1 hP with rfl | hP
      · rintro rfl
        cases h1
        exact hq [] (List.mem_cons_self ..) rfl
      · exact ih (fun Q hQ => hq Q (List.mem_cons_of_mem _ hQ)) P hP
  have hne : ∀ Q ∈ S ++ C, Q ≠ [] := by
    rintro Q hQ rfl
    obtain ⟨p, hp, _⟩ := G.general.turn [] hQ
    exact absurd hp (by simp)
  have ht : ∀ {Qs : List (List (Vec2 ℚ))}, (∀ Q ∈ Qs, Q ≠ []) → ∀ Q ∈ timesAll (2 ^ e) Qs, Q ≠ [] := by
    intro Qs h Q hQ
    obtain ⟨Q', hQ', rfl⟩ := List.mem_map.1 hQ
    simpa using h Q' hQ'
  have n1 := full hS (ht (fun Q hQ => hne Q (List.mem_append_left _ hQ)))
  have n2 := full hC (ht (fun Q hQ => hne Q (List.mem_append_right _ hQ)))
  have p1 := makePath_print P _ _ h1 (startsWithMove_poly _ n1)
  have p2 := makePath_print P _ _ h2 (startsWithMove_poly _ n2)
  rw [groups_polyCmds _ n1, List.map_map] at p1
  rw [groups_polyCmds _ n2, List.map_map] at p2
  refine ⟨_, _, c1, c2, p1, p2, e1, e2, n, fun fuel hf => ?_⟩
  obtain ⟨c', es, out, k1, k2, k3, _⟩ := hn fuel hf
  exact ⟨c', es, out, k1, k2, k3⟩

/-- A text for one of the polygons of `cross_union_ieee`, and the paths it is read as. -/
theorem crossDiamond_text : makePath dblLex "m 0 -8 l 8 0l0 8.0\n l -0.8e1 0 ".toList =
    some ((crossDiamond.map (ieeePoly false)).map (fun P => Path.build (polyCmds P))) := by
  decide +kernel

/-- A text for one of the polygons of `cross_union_scaled`, and the paths it is read as. -/
theorem crossDiamond_text_scaled : makePath dblLex "m 0 -.0078125 l 7.8125e-3 0l0 0.0078125\n l -78125e-7 0 ".toList =
    some ((crossDiamond.map (ieeePolyAt (-10) false)).map (fun P => Path.build (polyCmds P))) := by
  decide +kernel

/-- The hypotheses of `text_to_region_ieee` are met by texts for the polygons of `cross_union_ieee`. -/
theorem cross_text : ∃ s1 s2, Prints dblPrinter ((crossDiamond.map (ieeePoly false)).flatMap polyCmds) s1 ∧
    Prints dblPrinter ((crossSquare.map (ieeePoly false)).flatMap polyCmds) s2 := by
  have key : ∀ Q ∈ crossDiamond.map (ieeePoly false) ++ crossSquare.map (ieeePoly false), ∀ p ∈ Q,
      (p.x = Dbl.lit p.x.toRat ∧ p.x.toRat = ((p.x.toRat.num : Int) : ℚ)) ∧ p.y = Dbl.lit p.y.toRat ∧ p.y.toRat = ((p.y.toRat.num : Int) : ℚ) := by
    decide +kernel
  have hi : ∀ m : Int, DecLex.IsDecimal (m : ℚ) := fun m => ⟨m, 0, by simp⟩
  have hd : ∀ Q ∈ crossDiamond.map (ieeePoly false) ++ crossSquare.map (ieeePoly false), ∀ p ∈ Q,
      (p.x = Dbl.lit p.x.toRat ∧ DecLex.IsDecimal p.x.toRat) ∧ p.y = Dbl.lit p.y.toRat ∧ DecLex.IsDecimal p.y.toRat := by
    intro Q hQ p hp
    obtain ⟨⟨a, b⟩, c, d⟩ := key Q hQ p hp
    exact ⟨⟨a, by rw [b]; exact hi _⟩, c, by rw [d]; exact hi _⟩
  obtain ⟨s1, h1⟩ := prints_poly dblPrinter (crossDiamond.map (ieeePoly false)) (fun Q hQ => hd Q (List.mem_append_left _ hQ))
  obtain ⟨s2, h2⟩ := prints_poly dblPrinter (crossSquare.map (ieeePoly false)) (fun Q hQ => hd Q (List.mem_append_right _ hQ))
  exact ⟨s1, s2, h1, h2⟩

end River
