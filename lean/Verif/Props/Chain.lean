import Verif.Props.TidyPolygons
import Verif.Props.Output

/-! # C91: the result of one call as the input of another -/

set_option linter.unusedSectionVars false

namespace River
variable {K : Type}

/-- One `moveto` and drawing commands after it. -/
def OneContour (cs : List (Cmd K)) : Prop := ∃ p body, cs = .moveto p :: body ∧ ∀ c ∈ body, c.draws = true

theorem split_draws {a b l m : List (Cmd K)} (ha : ∀ c ∈ a, c.draws = true) (hb : ∀ c ∈ b, c.draws = true) (hl : ∀ c ∈ l.head?, c.draws = false)
    (hm : ∀ c ∈ m.head?, c.draws = false) (h : a ++ l = b ++ m) : a = b ∧ l = m := by
  induction a generalizing b with
  | nil =>
    cases b with
    | nil => exact ⟨rfl, h⟩
    | cons y b =>
      exfalso
      rw [List.nil_append] at h
      have h1 := hl y (by rw [h]; simp)
      rw [hb y (by simp)] at h1; simp at h1
  | cons x a ih =>
    cases b with
    | nil =>
      exfalso
      rw [List.nil_append] at h
      have h1 := hm x (by rw [← h]; simp)
      rw [ha x (by simp)] at h1; simp at h1
    | cons y b =>
      rw [List.cons_append, List.cons_append, List.cons.injEq] at h
      obtain ⟨h1, h2⟩ := ih (fun c hc => ha c (by simp [hc])) (fun c hc => hb c (by simp [hc])) h.2
      exact ⟨by rw [h.1, h1], h2⟩

/-- Contours are determined by the sequence of all their commands. -/
theorem contours_unique {A B : List (List (Cmd K))} (hA : ∀ a ∈ A, OneContour a) (hB : ∀ b ∈ B, OneContour b) (h : A.flatten = B.flatten) : A = B := by
  have head : ∀ {A : List (List (Cmd K))}, (∀ a ∈ A, OneContour a) → ∀ c ∈ A.flatten.head?, c.draws = false := by
    intro A hA c hc
    cases A with
    | nil => simp at hc
    | cons a A =>
      obtain ⟨p, body, rfl, _⟩ := hA a (by simp)
      simp only [List.flatten_cons, List.cons_append, List.head?_cons, Option.mem_def, Option.some.injEq] at hc
      rw [← hc]; rfl
  induction A generalizing B with
  | nil =>
    cases B with
    | nil => rfl
    | cons b B =>
      obtain ⟨p, body, rfl, _⟩ := hB b (by simp)
      simp at h
  | cons a A ih =>
    cases B with
    | nil =>
      obtain ⟨p, body, rfl, _⟩ := hA a (by simp)
      simp at h
    | cons b B =>
      obtain ⟨p, x, rfl, hx⟩ := hA a (by simp)
      obtain ⟨q, y, rfl, hy⟩ := hB b (by simp)
      rw [List.flatten_cons, List.flatten_cons, List.cons_append, List.cons_append, List.cons.injEq] at h
      obtain ⟨h1, h2⟩ := split_draws hx hy (head (fun a ha => hA a (by simp [ha]))) (head (fun b hb => hB b (by simp [hb]))) h.2
      rw [h.1, h1, ih (fun a ha => hA a (by simp [ha])) (fun b hb => hB b (by simp [hb])) h2]

theorem eventsFrom_cmd (p : Vec2 K) (cs : List (Cmd K)) : (eventsFrom p cs).map Event.cmd = cs := by
  induction cs generalizing p with
  | nil => rfl
  | cons c cs ih => rw [eventsFrom, List.map_cons, ih]

theorem closedCmds_contour (Q : List (Vec2 K)) (h : Q ≠ []) : OneContour (closedCmds Q) := by
  cases Q with
  | nil => exact absurd rfl h
  | cons p qs =>
    refine ⟨p, _, rfl, fun c hc => ?_⟩
    obtain ⟨q, _, rfl⟩ := List.mem_map.1 hc
    rfl

section
variable [FTrans K]

/-- The paths that `process` appends to an output list, when the callbacks report closed polygons. -/
theorem processPaths_polygons (env : Env K) (msort : List (LocMin K) → List (LocMin K)) (fuel : Nat) (c c' : Clipper K) (ct : ClipType) (fr : FillRule)
    (out : List (List (Vec2 K))) (h : c.process env msort fuel ct fr Path.recorder [] = some (some (c', out.flatMap (fun Q => eventsFrom zeroPt (closedCmds Q))))) :
    ∀ output, c.processPaths env msort fuel ct fr output =
      some (some (c', output ++ (out.filter (fun Q => !Q.isEmpty)).map (fun Q => Path.build (closedCmds Q)))) := by
  rcases process_cases env msort fuel c ct fr with h1 | h1 | ⟨c1, polys, h1⟩
  · rw [h1] at h; cases h
  · rw [h1] at h; cases h
  · rw [h1, buildOutput_recorder] at h
    simp only [List.nil_append, Option.map_some, Option.some.injEq, Prod.mk.injEq] at h
    intro output
    rw [Clipper.processPaths, h1, buildOutput_paths, Option.map_some, h.1]
    congr 4
    have hc : (polys.filter Poly.written).map Poly.cmds = (out.filter (fun Q => !Q.isEmpty)).map closedCmds := by
      refine contours_unique ?_ ?_ ?_
      · intro a ha
        obtain ⟨p, _, rfl⟩ := List.mem_map.1 ha
        refine ⟨_, _, rfl, fun c hc => ?_⟩
        obtain ⟨s, _, rfl⟩ := List.mem_map.1 hc
        cases s <;> rfl
      · intro a ha
        obtain ⟨Q, hQ, rfl⟩ := List.mem_map.1 ha
        refine closedCmds_contour Q ?_
        intro e
        rw [e] at hQ; simp at hQ
      · have h2 := congrArg (List.map Event.cmd) h.2
        have h3 : (out.flatMap (fun Q => eventsFrom zeroPt (closedCmds Q))).map Event.cmd = ((out.filter (fun Q => !Q.isEmpty)).map closedCmds).flatten := by
          clear h h1 h2
          induction out with
          | nil => rfl
          | cons Q out ih =>
            rw [List.flatMap_cons, List.map_append, eventsFrom_cmd, ih]
            cases Q with
            | nil => rfl
            | cons p qs => rfl
        rw [h3, contours, List.map_flatten, List.map_map] at h2
        rw [← h2]
        congr 1
        refine List.map_congr_left (fun p _ => ?_)
        exact (eventsFrom_cmd _ _).symm
    rw [show (fun p : Poly K => Path.build p.cmds) = Path.build ∘ Poly.cmds from rfl, show (fun Q : List (Vec2 K) => Path.build (closedCmds Q)) = Path.build ∘ closedCmds from rfl,
      ← List.map_map, ← List.map_map, hc]

end

theorem closedCmds_poly (Q : List (Vec2 K)) (h : Q ≠ []) : ∃ P, closedCmds Q = polyCmds P ∧ ∃ p l, P = p :: l ++ [p] ∧ Q = p :: l := by
  cases Q with
  | nil => exact absurd rfl h
  | cons p qs => exact ⟨p :: qs ++ [p], rfl, p, qs, rfl, rfl⟩

/-- A polygon with the first corner again at the end. -/
def closeUp : List (Vec2 K) → List (Vec2 K)
  | [] => []
  | p :: qs => p :: qs ++ [p]

theorem closeUp_cmds (Q : List (Vec2 K)) : polyCmds (closeUp Q) = closedCmds Q := by cases Q <;> rfl

theorem closeUp_tidies (out : List (List (Vec2 K))) : Tidies ((out.filter (fun Q => !Q.isEmpty)).map closeUp) (out.filter (fun Q => !Q.isEmpty)) := by
  induction out with
  | nil => exact .refl
  | cons Q out ih =>
    cases Q with
    | nil => exact ih
    | cons p qs =>
      have h1 : Tidies [closeUp (p :: qs)] [p :: qs] := .single (TidyStep.close [] [] qs p)
      exact h1.append ih

theorem nonempty_tidies (out : List (List (Vec2 K))) : Tidies out (out.filter (fun Q => !Q.isEmpty)) := by
  induction out with
  | nil => exact .refl
  | cons Q out ih =>
    cases Q with
    | nil => exact Relation.ReflTransGen.head (TidyStep.flat [] out [] (by simp)) ih
    | cons p qs => exact Tidies.append (Ps := [p :: qs]) (Qs := [p :: qs]) .refl ih

variable [Field K] [LinearOrder K]

attribute [local instance 10000] FTrans.toFNum
variable [IsStrictOrderedRing K] [FTrans K] [LawfulOrd K] [Exact K]

open Classical in
/-- **C91.** The paths that one call of `process` writes can be given to another processor: if the delivered polygons `out` (tidied up
to `out'`) and other polygons `third` (tidied up to `third'`) are in general position, then the second call succeeds and encloses
exactly the points of the second operation applied to the result of the first operation and `third`. -/
theorem process_chain (env : Env K) (hok : env.Ok) (msort : List (LocMin K) → List (LocMin K)) (hm : MinSort msort)
    (subject clip : List (List (Vec2 K))) (G : GeneralPolygons (subject ++ clip))
    (ct : ClipType) (fr : FillRule) (σ : Int) (hσ : σ = 1 ∨ σ = -1) (hO : Consistent subject clip ct fr σ) :
    ∃ c1 c2 : Clipper K, (Clipper.new (K := K)).addPath (subject.map (fun P => Path.build (polyCmds P))) .subject = some c1 ∧
      c1.addPath (clip.map (fun P => Path.build (polyCmds P))) .clip = some c2 ∧
      ∃ n, ∀ fuel, n ≤ fuel → ∃ (c' : Clipper K) (out : List (List (Vec2 K))),
        c2.processPaths env msort fuel ct fr [] = some (some (c', out.map (fun Q => Path.build (closedCmds Q)))) ∧
        (∀ X y, polyWinding out X y = if InResult subject clip ct fr X y then σ else 0) ∧
        ∀ (third out' third' : List (List (Vec2 K))) (ct2 : ClipType) (fr2 : FillRule) (τ : Int), τ = 1 ∨ τ = -1 →
          Tidies out out' → Tidies third third' → GeneralPolygons (out' ++ third') → Consistent out' third' ct2 fr2 τ →
          ∃ c3 c4 : Clipper K, (Clipper.new (K := K)).addPath (out.map (fun Q => Path.build (closedCmds Q))) .subject = some c3 ∧
            c3.addPath (third.map (fun P => Path.build (polyCmds P))) .clip = some c4 ∧
            ∃ n', ∀ fuel', n' ≤ fuel' → ∃ (c'' : Clipper K) (out2 : List (List (Vec2 K))),
              c4.process env msort fuel' ct2 fr2 Path.recorder [] = some (some (c'', out2.flatMap (fun Q => eventsFrom zeroPt (closedCmds Q)))) ∧
              ∀ X y, polyWinding out2 X y =
                if ct2.op (fr2.inside (if InResult subject clip ct fr X y then σ else 0)) (fr2.inside (polyWinding third X y)) then τ else 0 := by
  obtain ⟨c1, c2, e1, e2, n, hn⟩ := process_polygons env hok msort hm subject clip G ct fr σ hσ hO
  refine ⟨c1, c2, e1, e2, n, fun fuel hf => ?_⟩
  obtain ⟨c', all, h1, h2⟩ := hn fuel hf
  obtain ⟨out, ho⟩ : ∃ out, out = all.filter (fun Q => !Q.isEmpty) := ⟨_, rfl⟩
  have hall : Tidies all out := ho ▸ nonempty_tidies all
  have h3 := processPaths_polygons env msort fuel c2 c' ct fr all h1 []
  rw [← ho, List.nil_append] at h3
  have h4 : ∀ X y, polyWinding out X y = if InResult subject clip ct fr X y then σ else 0 := fun X y => by rw [← tidies_winding hall, h2]
  refine ⟨c', out, h3, h4, ?_⟩
  intro third out' third' ct2 fr2 τ hτ t1 t2 G2 hO2
  obtain ⟨c3, c4, e3, e4, n', hn'⟩ := process_untidy env hok msort hm out third out' third' t1 t2 G2 ct2 fr2 τ hτ hO2
  have h5 : (Clipper.new (K := K)).addPath (out.map (fun Q => Path.build (closedCmds Q))) .subject = some c3 := by
    rw [← e3]
    have := tidies_addPath (Clipper.new (K := K)) .subject (closeUp_tidies all)
    rw [← ho, List.map_map] at this
    simpa only [Function.comp_def, closeUp_cmds] using this
  refine ⟨c3, c4, h5, e4, n', fun fuel' hf' => ?_⟩
  obtain ⟨c'', out2, f1, f2, _⟩ := hn' fuel' hf'
  refine ⟨c'', out2, f1, fun X y => ?_⟩
  rw [f2]
  have : InResult out third ct2 fr2 X y ↔ ct2.op (fr2.inside (if InResult subject clip ct fr X y then σ else 0)) (fr2.inside (polyWinding third X y)) := by
    unfold InResult at h4 ⊢
    rw [h4]
  by_cases h : InResult out third ct2 fr2 X y
  · rw [if_pos h, if_pos (this.1 h)]
  · rw [if_neg h, if_neg (fun e => h (this.2 e))]

/-- The intersection of `rectA` and `rectB`. -/
def inner : List (Vec2 ℚ) := [⟨2, 1⟩, ⟨4, 1⟩, ⟨4, 3⟩, ⟨2, 3⟩]

/-- A third rectangle. -/
def rectC : List (Vec2 ℚ) := [⟨3, 2⟩, ⟨8, 2⟩, ⟨8, 7⟩, ⟨3, 7⟩]

/-- C91, a case: the intersection of two rectangles is delivered as a rectangle that is in general position with a third one. -/
theorem chain_demo :
    ((Clipper.new (K := ℚ)).addPath ([rectA].map (fun P => Path.build (polyCmds P))) .subject).bind (fun c1 =>
      (c1.addPath ([rectB].map (fun P => Path.build (polyCmds P))) .clip).bind (fun c2 =>
        (c2.processPaths demoEnv minsort 50 .intersection .positive []).map (fun r => r.map Prod.snd))) =
      some (some ([inner].map (fun Q => Path.build (closedCmds Q)))) ∧
    GeneralPolygons ([inner] ++ [rectC]) ∧ Consistent [inner] [rectC] .union .positive 1 :=
  ⟨by decide +kernel, generalB_sound (by decide +kernel), consistent_positive _ _ _ (Or.inl rfl)⟩

end River
