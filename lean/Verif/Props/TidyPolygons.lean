import Verif.Props.Tidy
import Verif.Props.Presentation

/-! # C90: polygons with repeated corners, explicit closing lines and flat contours -/

set_option linter.unusedSectionVars false

namespace River

section geometry
variable {K : Type}

/-- The contour that draws a polygon (none without corners). -/
def drawnPoly : List (Vec2 K) → List (Drawn K)
  | [] => []
  | p :: qs => [⟨p, qs.map .lineto⟩]

theorem drawnPoly_cmds (P : List (Vec2 K)) : (drawnPoly P).flatMap Drawn.cmds = polyCmds P := by
  cases P <;> simp [drawnPoly, polyCmds, Drawn.cmds]

theorem drawnPoly_ok (P : List (Vec2 K)) : ∀ d ∈ drawnPoly P, d.Ok := by
  cases P with
  | nil => intro d hd; simp [drawnPoly] at hd
  | cons p qs =>
    intro d hd c hc q
    simp only [drawnPoly, List.mem_singleton] at hd
    subst hd
    obtain ⟨a, _, rfl⟩ := List.mem_map.1 hc
    simp

theorem penAfter_lines (p : Vec2 K) (l : List (Vec2 K)) (q : Vec2 K) : penAfter p ((l ++ [q]).map .lineto) = q := by
  simp [penAfter, Cmd.target]

/-- Tidying up removes commands that draw nothing. -/
theorem TidyStep.redundant {Ps Qs : List (List (Vec2 K))} (h : TidyStep Ps Qs) :
    Relation.ReflTransGen Redundant (Ps.flatMap drawnPoly) (Qs.flatMap drawnPoly) := by
  cases h with
  | again A B l r p =>
    rw [List.flatMap_append, List.flatMap_cons, List.flatMap_append, List.flatMap_cons]
    refine Relation.ReflTransGen.single ?_
    cases l with
    | nil => exact Redundant.line _ _ p [] (r.map .lineto)
    | cons a l =>
      have := Redundant.line (A.flatMap drawnPoly) (B.flatMap drawnPoly) a ((l ++ [p]).map .lineto) (r.map .lineto)
      rw [penAfter_lines] at this
      simpa [drawnPoly] using this
  | close A B l p =>
    rw [List.flatMap_append, List.flatMap_cons, List.flatMap_append, List.flatMap_cons]
    refine Relation.ReflTransGen.single ?_
    have := Redundant.close (A.flatMap drawnPoly) (B.flatMap drawnPoly) p (l.map .lineto)
    simpa [drawnPoly] using this
  | flat A B P hP =>
    rw [List.flatMap_append, List.flatMap_cons, List.flatMap_append]
    cases P with
    | nil => exact Relation.ReflTransGen.refl
    | cons p qs =>
      refine Relation.ReflTransGen.single (Redundant.flat _ _ _ p.y ⟨rfl, fun c hc => ?_⟩)
      obtain ⟨q, hq, rfl⟩ := List.mem_map.1 hc
      exact hP q (by simp [hq]) p (by simp)

theorem polySides_double (p : Vec2 K) (l : List (Vec2 K)) : polySides (p :: p :: l) = (p, p) :: polySides (p :: l) := by
  simp [polySides]

theorem rotated_again (l r : List (Vec2 K)) (p : Vec2 K) : (l ++ p :: p :: r) ~r (p :: p :: (r ++ l)) := by
  have := List.isRotated_append (l := l) (l' := p :: p :: r)
  simpa using this

theorem rotated_once (l r : List (Vec2 K)) (p : Vec2 K) : (l ++ p :: r) ~r (p :: (r ++ l)) := by
  have := List.isRotated_append (l := l) (l' := p :: r)
  simpa using this

theorem rotated_close (l : List (Vec2 K)) (p : Vec2 K) : (p :: l ++ [p]) ~r (p :: p :: l) := by
  have := List.isRotated_append (l := p :: l) (l' := [p])
  simpa using this

/-- The sides that tidying up removes have no length or are horizontal. -/
theorem TidyStep.sides {Ps Qs : List (List (Vec2 K))} (h : TidyStep Ps Qs) :
    ∃ S, (Ps.flatMap polySides).Perm (S ++ Qs.flatMap polySides) ∧ ∀ s ∈ S, s.1.y = s.2.y := by
  have mid : ∀ (A B : List (List (Vec2 K))) (P Q : List (Vec2 K)) (p : Vec2 K), (polySides P).Perm ((p, p) :: polySides Q) →
      ((A ++ P :: B).flatMap polySides).Perm ([(p, p)] ++ (A ++ Q :: B).flatMap polySides) := by
    intro A B P Q p hp
    rw [List.flatMap_append, List.flatMap_cons, List.flatMap_append, List.flatMap_cons]
    refine (List.Perm.append_left _ (hp.append_right _)).trans ?_
    rw [List.cons_append]
    exact List.perm_middle
  cases h with
  | again A B l r p =>
    refine ⟨[(p, p)], mid A B _ _ p ?_, by simp⟩
    refine (polySides_rotated (rotated_again l r p)).trans ?_
    rw [polySides_double]
    exact (polySides_rotated (rotated_once l r p)).symm.cons _
  | close A B l p =>
    refine ⟨[(p, p)], mid A B _ _ p ?_, by simp⟩
    refine (polySides_rotated (rotated_close l p)).trans ?_
    rw [polySides_double]
  | flat A B P hP =>
    refine ⟨polySides P, ?_, ?_⟩
    · rw [List.flatMap_append, List.flatMap_cons, List.flatMap_append]
      rw [← List.append_assoc, ← List.append_assoc]
      exact List.perm_append_comm.append_right _
    · intro s hs
      obtain ⟨h1, h2⟩ := List.of_mem_zip hs
      exact hP _ h1 _ (List.mem_rotate.1 h2)

theorem Tidies.sides {Ps Qs : List (List (Vec2 K))} (h : Tidies Ps Qs) :
    ∃ S, (Ps.flatMap polySides).Perm (S ++ Qs.flatMap polySides) ∧ ∀ s ∈ S, s.1.y = s.2.y := by
  induction h with
  | refl => exact ⟨[], List.Perm.refl _, by simp⟩
  | tail _ h ih =>
    obtain ⟨S, h1, h2⟩ := ih
    obtain ⟨T, h3, h4⟩ := h.sides
    refine ⟨S ++ T, ?_, ?_⟩
    · rw [List.append_assoc]; exact h1.trans (h3.append_left S)
    · intro s hs
      rcases List.mem_append.1 hs with hs | hs
      · exact h2 s hs
      · exact h4 s hs

theorem Tidies.append {Ps Qs Ps' Qs' : List (List (Vec2 K))} (h : Tidies Ps Qs) (h' : Tidies Ps' Qs') : Tidies (Ps ++ Ps') (Qs ++ Qs') := by
  have left : ∀ {Ps Qs : List (List (Vec2 K))} (R : List (List (Vec2 K))), Tidies Ps Qs → Tidies (Ps ++ R) (Qs ++ R) := by
    intro Ps Qs R h
    induction h with
    | refl => exact .refl
    | tail _ h ih =>
      refine Relation.ReflTransGen.tail ih ?_
      cases h with
      | again A B l r p => rw [List.append_assoc, List.append_assoc]; exact TidyStep.again A (B ++ R) l r p
      | close A B l p => rw [List.append_assoc, List.append_assoc]; exact TidyStep.close A (B ++ R) l p
      | flat A B P hP => rw [List.append_assoc, List.append_assoc]; exact TidyStep.flat A (B ++ R) P hP
  have right : ∀ {Ps Qs : List (List (Vec2 K))} (R : List (List (Vec2 K))), Tidies Ps Qs → Tidies (R ++ Ps) (R ++ Qs) := by
    intro Ps Qs R h
    induction h with
    | refl => exact .refl
    | tail _ h ih =>
      refine Relation.ReflTransGen.tail ih ?_
      cases h with
      | again A B l r p => rw [← List.append_assoc, ← List.append_assoc]; exact TidyStep.again (R ++ A) B l r p
      | close A B l p => rw [← List.append_assoc, ← List.append_assoc]; exact TidyStep.close (R ++ A) B l p
      | flat A B P hP => rw [← List.append_assoc, ← List.append_assoc]; exact TidyStep.flat (R ++ A) B P hP
  exact (left Ps' h).trans (right Qs h')

theorem getLast_eq_getD {α : Type} (l : List α) (a b : α) (i : Nat) (h : i + 1 = l.length) (hl : l[i]? = some b) : l.getLast? = some b := by
  rw [List.getLast?_eq_getElem?, ← h]; exact hl

/-- Polygons that are not tidy can be made smaller. -/
theorem tidy_or_step (Ps : List (List (Vec2 K))) :
    ((∀ s ∈ Ps.flatMap polySides, s.1 ≠ s.2) ∧ ∀ P ∈ Ps, ∃ p ∈ P, ∃ q ∈ P, p.y ≠ q.y) ∨
      ∃ Qs, TidyStep Ps Qs ∧ (Qs.map (fun P => P.length + 1)).sum < (Ps.map (fun P => P.length + 1)).sum := by
  by_cases hturn : ∀ P ∈ Ps, ∃ p ∈ P, ∃ q ∈ P, p.y ≠ q.y
  · by_cases hprop : ∀ s ∈ Ps.flatMap polySides, s.1 ≠ s.2
    · exact Or.inl ⟨hprop, hturn⟩
    · right
      push Not at hprop
      obtain ⟨s, hs, he⟩ := hprop
      obtain ⟨P, hP, hsP⟩ := List.mem_flatMap.1 hs
      obtain ⟨A, B, rfl⟩ := List.append_of_mem hP
      obtain ⟨i, hi⟩ := List.getElem?_of_mem hsP
      unfold polySides at hi
      rw [List.getElem?_zip_eq_some] at hi
      obtain ⟨h1, h2⟩ := hi
      have hil : i < P.length := (List.getElem?_eq_some_iff.1 h1).1
      rw [List.getElem?_rotate hil] at h2
      by_cases hlast : i + 1 < P.length
      · rw [Nat.mod_eq_of_lt hlast] at h2
        have e1 := (List.getElem?_eq_some_iff.1 h1).2
        have e2 := (List.getElem?_eq_some_iff.1 h2).2
        have hPe : P = P.take i ++ s.1 :: s.1 :: P.drop (i + 2) := by
          conv_lhs => rw [← List.take_append_drop i P, List.drop_eq_getElem_cons hil, List.drop_eq_getElem_cons hlast, e1, e2, ← he]
        refine ⟨A ++ (P.take i ++ s.1 :: P.drop (i + 2)) :: B, ?_, ?_⟩
        · conv_lhs => rw [hPe]
          exact TidyStep.again A B _ _ _
        · rw [List.map_append, List.map_append, List.map_cons, List.map_cons, List.sum_append, List.sum_append, List.sum_cons, List.sum_cons]
          have := congrArg List.length hPe
          simp only [List.length_append, List.length_cons] at this ⊢
          omega
      · have hin : i + 1 = P.length := by omega
        rw [hin, Nat.mod_self] at h2
        obtain ⟨p, hp, q, hq, hne⟩ := hturn P (by simp)
        cases P with
        | nil => simp at hil
        | cons a l =>
          rcases List.eq_nil_or_concat l with rfl | ⟨m, b, rfl⟩
          · simp only [List.mem_singleton] at hp hq
            rw [hp, hq] at hne; exact absurd rfl hne
          · rw [List.concat_eq_append] at *
            have ha : a = s.2 := by simpa using h2
            have hb : b = s.1 := by
              have := getLast_eq_getD _ a _ _ hin h1
              rw [← List.cons_append, List.getLast?_append] at this
              simpa using this
            have hab : b = a := by rw [ha, hb, he]
            subst hab
            refine ⟨A ++ (b :: m) :: B, TidyStep.close A B m b, ?_⟩
            simp
  · right
    push Not at hturn
    obtain ⟨P, hP, h⟩ := hturn
    obtain ⟨A, B, rfl⟩ := List.append_of_mem hP
    exact ⟨A ++ B, TidyStep.flat A B P h, by simp⟩

/-- **C90**: any polygons can be tidied up until no side has length zero and none of them is flat. -/
theorem tidies_exists (Ps : List (List (Vec2 K))) :
    ∃ Qs, Tidies Ps Qs ∧ (∀ s ∈ Qs.flatMap polySides, s.1 ≠ s.2) ∧ ∀ P ∈ Qs, ∃ p ∈ P, ∃ q ∈ P, p.y ≠ q.y := by
  obtain ⟨n, hn⟩ : ∃ n, n = (Ps.map (fun P => P.length + 1)).sum := ⟨_, rfl⟩
  induction n using Nat.strong_induction_on generalizing Ps with
  | _ n ih =>
    rcases tidy_or_step Ps with h | ⟨Qs, h1, h2⟩
    · exact ⟨Ps, .refl, h⟩
    · obtain ⟨Rs, h3, h4⟩ := ih _ (hn ▸ h2) Qs rfl
      exact ⟨Rs, Relation.ReflTransGen.head h1 h3, h4⟩

variable [Field K] [LinearOrder K]

theorem sideWinding_level (X y : K) (s : Vec2 K × Vec2 K) (h : s.1.y = s.2.y) : sideWinding X y s = 0 := by
  unfold sideWinding
  rw [h]
  split
  · rw [if_neg (fun e => absurd e.2 (not_lt.2 e.1)), if_neg (fun e => absurd e.2 (not_lt.2 e.1))]
  · rfl

/-- **C90**: tidying up does not change the winding number of any point. -/
theorem tidies_winding {Ps Qs : List (List (Vec2 K))} (h : Tidies Ps Qs) (X y : K) : polyWinding Ps X y = polyWinding Qs X y := by
  obtain ⟨S, h1, h2⟩ := h.sides
  unfold polyWinding
  rw [(h1.map _).sum_eq, List.map_append, List.sum_append]
  have : (S.map (sideWinding X y)).sum = 0 := by
    refine List.sum_eq_zero (fun x hx => ?_)
    obtain ⟨s, hs, rfl⟩ := List.mem_map.1 hx
    exact sideWinding_level X y s (h2 s hs)
  rw [this, zero_add]

theorem Tidies.inResult {subject clip subject' clip' : List (List (Vec2 K))} (hs : Tidies subject subject') (hc : Tidies clip clip')
    (ct : ClipType) (fr : FillRule) (X y : K) : InResult subject' clip' ct fr X y ↔ InResult subject clip ct fr X y := by
  unfold InResult
  rw [tidies_winding hs, tidies_winding hc]

end geometry

section ordered
variable {K : Type} [FTrans K] [LinearOrder K] [LawfulOrd K]

/-- **C90**: untidy polygons are stored exactly as the tidy ones. -/
theorem tidies_addPaths (pt : PathType) (rings : List (Ring K)) {Ps Qs : List (List (Vec2 K))} (h : Tidies Ps Qs) :
    addPaths pt rings (Ps.map (fun P => Path.build (polyCmds P))) = addPaths pt rings (Qs.map (fun P => Path.build (polyCmds P))) := by
  have stored : ∀ Ps : List (List (Vec2 K)), addPaths pt rings (Ps.map (fun P => Path.build (polyCmds P))) =
      some (rings ++ (Ps.flatMap drawnPoly).filterMap (fun d => insertVertexList d.contour pt)) := by
    intro Ps
    have := addPaths_spec pt rings (Ps.map drawnPoly) (by
      intro ds hds
      obtain ⟨P, _, rfl⟩ := List.mem_map.1 hds
      exact drawnPoly_ok P)
    rw [List.map_map] at this
    simp only [Function.comp_def, drawnPoly_cmds] at this
    rw [this, List.flatMap]
  rw [stored, stored]
  have step : ∀ {D D' : List (Drawn K)}, Relation.ReflTransGen Redundant D D' → (∀ d ∈ D, d.Ok) →
      (∀ d ∈ D', d.Ok) ∧ D.filterMap (fun d => insertVertexList d.contour pt) = D'.filterMap (fun d => insertVertexList d.contour pt) := by
    intro D D' h hok
    induction h with
    | refl => exact ⟨hok, rfl⟩
    | tail _ h ih =>
      obtain ⟨h1, h2⟩ := redundant_step h ih.1 pt
      exact ⟨h1, ih.2.trans h2⟩
  have key : Relation.ReflTransGen Redundant (Ps.flatMap drawnPoly) (Qs.flatMap drawnPoly) := by
    induction h with
    | refl => exact .refl
    | tail _ h ih => exact ih.trans h.redundant
  rw [(step key (by
    intro d hd
    obtain ⟨P, _, hd⟩ := List.mem_flatMap.1 hd
    exact drawnPoly_ok P d hd)).2]

theorem tidies_addPath (c : Clipper K) (pt : PathType) {Ps Qs : List (List (Vec2 K))} (h : Tidies Ps Qs) :
    c.addPath (Ps.map (fun P => Path.build (polyCmds P))) pt = c.addPath (Qs.map (fun P => Path.build (polyCmds P))) pt := by
  unfold Clipper.addPath
  rw [tidies_addPaths pt c.rings h]

end ordered

section exact
variable {K : Type} [Field K] [LinearOrder K]

theorem Tidies.knot {Ps Qs : List (List (Vec2 K))} (h : Tidies Ps Qs) {p : Vec2 K} (hk : Knot Qs p) : Knot Ps p := by
  obtain ⟨S, h1, _⟩ := h.sides
  have hsub : ∀ s ∈ Qs.flatMap polySides, s ∈ Ps.flatMap polySides := fun s hs => h1.mem_iff.2 (List.mem_append_right _ hs)
  rcases hk with ⟨Q, hQ, hp⟩ | ⟨s, hs, t, ht, r⟩
  · left
    have hfst : (polySides Q).map Prod.fst = Q := by unfold polySides; exact List.map_fst_zip (by simp)
    rw [← hfst] at hp
    obtain ⟨s, hs, rfl⟩ := List.mem_map.1 hp
    obtain ⟨P, hP, hs⟩ := List.mem_flatMap.1 (hsub s (List.mem_flatMap.2 ⟨Q, hQ, hs⟩))
    exact ⟨P, hP, (List.of_mem_zip hs).1⟩
  · exact Or.inr ⟨s, hsub s hs, t, hsub t ht, r⟩

theorem Traced.untidy {Ps Qs out : List (List (Vec2 K))} (h : Tidies Ps Qs) (T : Traced Qs out) : Traced Ps out := by
  obtain ⟨S, h1, _⟩ := h.sides
  have hsub : ∀ s ∈ Qs.flatMap polySides, s ∈ Ps.flatMap polySides := fun s hs => h1.mem_iff.2 (List.mem_append_right _ hs)
  refine ⟨fun t ht hy => ?_, fun t ht hy => ?_, T.apart⟩
  · obtain ⟨k1, k2, s, hs, r⟩ := T.sloping t ht hy
    exact ⟨h.knot k1, h.knot k2, s, hsub s hs, r⟩
  · obtain ⟨hne, ho⟩ := T.level t ht hy
    refine ⟨hne, fun p hp => ?_⟩
    obtain ⟨s, hs, r⟩ := ho p hp
    exact ⟨s, hsub s hs, r⟩

attribute [local instance 10000] FTrans.toFNum
variable [IsStrictOrderedRing K] [FTrans K] [LawfulOrd K] [Exact K]

open Classical in
/-- **C90.** C59 and C69 for polygons with repeated corners, with the first corner given again at the end, and with polygons that are
horizontal throughout, single points or empty: it is enough that what is left after tidying up is in general position. -/
theorem process_untidy (env : Env K) (hok : env.Ok) (msort : List (LocMin K) → List (LocMin K)) (hm : MinSort msort)
    (subject clip subject' clip' : List (List (Vec2 K))) (hs : Tidies subject subject') (hc : Tidies clip clip')
    (G : GeneralPolygons (subject' ++ clip')) (ct : ClipType) (fr : FillRule) (σ : Int) (hσ : σ = 1 ∨ σ = -1) (hO : Consistent subject' clip' ct fr σ) :
    ∃ c1 c2 : Clipper K, (Clipper.new (K := K)).addPath (subject.map (fun P => Path.build (polyCmds P))) .subject = some c1 ∧
      c1.addPath (clip.map (fun P => Path.build (polyCmds P))) .clip = some c2 ∧
      ∃ n, ∀ fuel, n ≤ fuel → ∃ (c' : Clipper K) (out : List (List (Vec2 K))),
        c2.process env msort fuel ct fr Path.recorder [] = some (some (c', out.flatMap (fun Q => eventsFrom zeroPt (closedCmds Q)))) ∧
        (∀ X y, polyWinding out X y = if InResult subject clip ct fr X y then σ else 0) ∧ Traced (subject ++ clip) out := by
  obtain ⟨c1, c2, h1, h2, n, hn⟩ := process_traced env hok msort hm subject' clip' G ct fr σ hσ hO
  refine ⟨c1, c2, by rw [tidies_addPath _ _ hs]; exact h1, by rw [tidies_addPath _ _ hc]; exact h2, n, fun fuel hf => ?_⟩
  obtain ⟨c', out, e1, e2, e3⟩ := hn fuel hf
  refine ⟨c', out, e1, fun X y => ?_, e3.untidy (hs.append hc)⟩
  rw [e2]
  simp only [hs.inResult hc]

end exact

/-- A rectangle with a repeated corner and the first corner given again at the end, a line there and back, a point and a polygon
without corners. -/
def untidyA : List (List (Vec2 ℚ)) :=
  [[⟨0, 0⟩, ⟨4, 0⟩, ⟨4, 0⟩, ⟨4, 3⟩, ⟨0, 3⟩, ⟨0, 0⟩], [⟨1, 1⟩, ⟨5, 1⟩, ⟨1, 1⟩], [⟨7, 7⟩], []]

/-- A rectangle whose first corner is given three times. -/
def untidyB : List (List (Vec2 ℚ)) := [[⟨2, 1⟩, ⟨2, 1⟩, ⟨6, 1⟩, ⟨6, 5⟩, ⟨2, 5⟩, ⟨2, 1⟩]]

/-- C90, a case: the hypotheses hold of untidy rectangles. -/
theorem untidy_demo : Tidies untidyA [rectA] ∧ Tidies untidyB [rectB] ∧ GeneralPolygons ([rectA] ++ [rectB]) ∧
    Consistent [rectA] [rectB] .union .positive 1 ∧ ¬ GeneralPolygons (untidyA ++ untidyB) := by
  refine ⟨?_, ?_, rects_general, consistent_positive _ _ _ (Or.inl rfl), fun G => ?_⟩
  · refine .head (TidyStep.again [] _ [⟨0, 0⟩] [⟨4, 3⟩, ⟨0, 3⟩, ⟨0, 0⟩] ⟨4, 0⟩) ?_
    refine .head (TidyStep.close [] _ [⟨4, 0⟩, ⟨4, 3⟩, ⟨0, 3⟩] ⟨0, 0⟩) ?_
    refine .head (TidyStep.flat [rectA] [[⟨7, 7⟩], []] [⟨1, 1⟩, ⟨5, 1⟩, ⟨1, 1⟩] (by decide +kernel)) ?_
    refine .head (TidyStep.flat [rectA] [[]] [⟨7, 7⟩] (by decide +kernel)) ?_
    exact .single (TidyStep.flat [rectA] [] [] (by simp))
  · refine .head (TidyStep.again [] [] [] [⟨6, 1⟩, ⟨6, 5⟩, ⟨2, 5⟩, ⟨2, 1⟩] ⟨2, 1⟩) ?_
    exact .single (TidyStep.close [] [] [⟨6, 1⟩, ⟨6, 5⟩, ⟨2, 5⟩] ⟨2, 1⟩)
  · exact G.proper (⟨4, 0⟩, ⟨4, 0⟩) (by decide +kernel) rfl

end River
