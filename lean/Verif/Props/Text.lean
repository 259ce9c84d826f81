import Verif.Props.MakePath
import Verif.Props.PolygonsDemo
import Verif.Model.DecLex

/-! # C77: from text to polygons -/

namespace River
open MakePath

section
variable {K : Type}

/-- The groups of a polygon's commands followed by others that begin a path of their own. -/
theorem groups_polyCmds (Ps : List (List (Vec2 K))) (hne : ∀ P ∈ Ps, P ≠ []) : groups (Ps.flatMap polyCmds) = Ps.map polyCmds := by
  have line : ∀ (qs : List (Vec2 K)) (p : Vec2 K) (cs : List (Cmd K)) (gs : List (List (Cmd K))),
      groups cs = gs → (gs = [] ∨ ∃ q r gs', gs = (.moveto q :: r) :: gs') →
      groups (.moveto p :: (qs.map .lineto ++ cs)) = (.moveto p :: qs.map .lineto) :: gs := by
    intro qs p cs gs h1 h2
    have key : qs = [] ∨ ∃ q qs', qs = q :: qs' ∧ groups (qs.map .lineto ++ cs) = (qs.map .lineto) :: gs := by
      induction qs with
      | nil => exact Or.inl rfl
      | cons q qs ih =>
        refine Or.inr ⟨q, qs, rfl, ?_⟩
        rw [List.map_cons, List.cons_append]
        unfold groups
        rcases ih with rfl | ⟨q', qs', rfl, h⟩
        · rw [List.map_nil, List.nil_append, h1]
          rcases h2 with rfl | ⟨q', r, gs', rfl⟩ <;> rfl
        · rw [h]; rfl
    unfold groups
    rcases key with rfl | ⟨q, qs', rfl, h⟩
    · rw [List.map_nil, List.nil_append, h1]
      rcases h2 with rfl | ⟨q', r, gs', rfl⟩ <;> rfl
    · rw [h]; rfl
  induction Ps with
  | nil => rfl
  | cons P Ps ih =>
    have ih := ih (fun Q hQ => hne Q (List.mem_cons_of_mem _ hQ))
    cases P with
    | nil => exact absurd rfl (hne [] (List.mem_cons_self ..))
    | cons p qs =>
      rw [List.flatMap_cons, List.map_cons]
      change groups (.moveto p :: (qs.map .lineto ++ Ps.flatMap polyCmds)) = (.moveto p :: qs.map .lineto) :: Ps.map polyCmds
      refine line qs p _ _ ih ?_
      cases Ps with
      | nil => exact Or.inl rfl
      | cons Q Qs =>
        refine Or.inr ?_
        cases Q with
        | nil => exact absurd rfl (hne [] (List.mem_cons_of_mem _ (List.mem_cons_self ..)))
        | cons q r => exact ⟨q, r.map .lineto, Qs.map polyCmds, rfl⟩

theorem startsWithMove_poly (Ps : List (List (Vec2 K))) (hne : ∀ P ∈ Ps, P ≠ []) : startsWithMove (Ps.flatMap polyCmds) = true := by
  cases Ps with
  | nil => rfl
  | cons P Ps =>
    cases P with
    | nil => exact absurd rfl (hne [] (List.mem_cons_self ..))
    | cons p qs => rfl

/-- Every list of polygons with printable coordinates has a text. -/
theorem prints_poly {L : NumLex K} {ok : K → Prop} (P : Printer L ok) (Ps : List (List (Vec2 K))) (h : ∀ Q ∈ Ps, ∀ p ∈ Q, ok p.x ∧ ok p.y) :
    ∃ s, Prints P (Ps.flatMap polyCmds) s := by
  have sp : IsWs1 [' '] := ⟨by intro c hc; rw [List.mem_singleton] at hc; subst hc; decide, by simp⟩
  have pt : ∀ p : Vec2 K, ok p.x ∧ ok p.y → ∃ s, PrintsPoint P p s := fun p hp => ⟨_, .mk p.x p.y [] [' '] hp.1 hp.2 (by intro c hc; cases hc) sp⟩
  have all : ∀ cs : List (Cmd K), (∀ c ∈ cs, ∃ s, PrintsCmd P c s) → ∃ s, Prints P cs s := by
    intro cs h
    induction cs with
    | nil => exact ⟨_, .nil⟩
    | cons c cs ih =>
      obtain ⟨s, hs⟩ := h c (List.mem_cons_self ..)
      obtain ⟨t, ht⟩ := ih (fun c hc => h c (List.mem_cons_of_mem _ hc))
      exact ⟨_, .cons c cs s t hs ht⟩
  refine all _ (fun c hc => ?_)
  obtain ⟨Q, hQ, hc⟩ := List.mem_flatMap.1 hc
  cases Q with
  | nil => cases hc
  | cons p qs =>
    rcases List.mem_cons.1 hc with rfl | hc
    · obtain ⟨s, hs⟩ := pt p (h _ hQ p (List.mem_cons_self ..))
      exact ⟨_, .m [] p s (by intro c hc; cases hc) hs⟩
    · obtain ⟨q, hq, rfl⟩ := List.mem_map.1 hc
      obtain ⟨s, hs⟩ := pt q (h _ hQ q (List.mem_cons_of_mem _ hq))
      exact ⟨_, .l [] q s (by intro c hc; cases hc) hs⟩

end

variable {K : Type} [Field K] [LinearOrder K] [IsStrictOrderedRing K] [FTrans K] [LawfulOrd K] [Exact K]
attribute [local instance 10000] FTrans.toFNum

open Classical in
/-- **C77**: two texts that draw polygons, with any white space, are read by `make_path`, the paths are added as subject and clip, and `process`
delivers polygons that enclose exactly the result. No step of this is undefined. -/
theorem text_to_region {L : NumLex K} {ok : K → Prop} (P : Printer L ok) (env : Env K) (hok : env.Ok) (msort : List (LocMin K) → List (LocMin K)) (hm : MinSort msort)
    (subject clip : List (List (Vec2 K))) (G : GeneralPolygons (subject ++ clip)) {s1 s2 : List Char}
    (h1 : Prints P (subject.flatMap polyCmds) s1) (h2 : Prints P (clip.flatMap polyCmds) s2)
    (ct : ClipType) (fr : FillRule) (σ : Int) (hσ : σ = 1 ∨ σ = -1) (hO : Consistent subject clip ct fr σ) :
    ∃ (ps qs : List (Path K)) (c1 c2 : Clipper K), makePath L s1 = some ps ∧ makePath L s2 = some qs ∧
      (Clipper.new (K := K)).addPath ps .subject = some c1 ∧ c1.addPath qs .clip = some c2 ∧
      ∃ n, ∀ fuel, n ≤ fuel → ∃ (c' : Clipper K) (out : List (List (Vec2 K))),
        c2.process env msort fuel ct fr Path.recorder [] = some (some (c', out.flatMap (fun Q => eventsFrom zeroPt (closedCmds Q)))) ∧
        ∀ X y, polyWinding out X y = if InResult subject clip ct fr X y then σ else 0 := by
  obtain ⟨c1, c2, e1, e2, hn⟩ := process_polygons env hok msort hm subject clip G ct fr σ hσ hO
  have hne : ∀ P ∈ subject ++ clip, P ≠ [] := by
    rintro P hP rfl
    obtain ⟨p, hp, _⟩ := G.turn [] hP
    exact absurd hp (by simp)
  have n1 : ∀ P ∈ subject, P ≠ [] := fun P hP => hne P (List.mem_append_left _ hP)
  have n2 : ∀ P ∈ clip, P ≠ [] := fun P hP => hne P (List.mem_append_right _ hP)
  have p1 := makePath_print P _ _ h1 (startsWithMove_poly _ n1)
  have p2 := makePath_print P _ _ h2 (startsWithMove_poly _ n2)
  rw [groups_polyCmds _ n1, List.map_map] at p1
  rw [groups_polyCmds _ n2, List.map_map] at p2
  exact ⟨_, _, c1, c2, p1, p2, e1, e2, hn⟩

/-- A text for the first rectangle of `rects_intersection`, and the paths it is read as. -/
theorem rectA_text : makePath DecLex.decLex "m 0 0 l 4 0l4.0 3\n l 0 3e0 ".toList = some ([rectA].map (fun P => Path.build (polyCmds P))) := by
  decide +kernel

/-- Its hypotheses are met by a text for the two rectangles. -/
theorem rects_text : ∃ s1 s2, Prints DecLex.decPrinter ([rectA].flatMap polyCmds) s1 ∧ Prints DecLex.decPrinter ([rectB].flatMap polyCmds) s2 := by
  have hi : ∀ m : Int, DecLex.IsDecimal (m : ℚ) := fun m => ⟨m, 0, by simp⟩
  have hR : ∀ Q ∈ [rectA] ++ [rectB], ∀ p ∈ Q, p.x = ((p.x.num : Int) : ℚ) ∧ p.y = ((p.y.num : Int) : ℚ) := by decide +kernel
  have hd : ∀ Q ∈ [rectA] ++ [rectB], ∀ p ∈ Q, DecLex.IsDecimal p.x ∧ DecLex.IsDecimal p.y := fun Q hQ p hp => by
    rw [(hR Q hQ p hp).1, (hR Q hQ p hp).2]; exact ⟨hi _, hi _⟩
  obtain ⟨s1, h1⟩ := prints_poly DecLex.decPrinter [rectA] (fun Q hQ => hd Q (List.mem_append_left _ hQ))
  obtain ⟨s2, h2⟩ := prints_poly DecLex.decPrinter [rectB] (fun Q hQ => hd Q (List.mem_append_right _ hQ))
  exact ⟨s1, s2, h1, h2⟩

end River
