import Verif.Props.Ieee
import Verif.Props.Chain

/-! # C90 and C91 with IEEE 754 doubles

Superfluous commands, and the result of one call as the input of another, in the arithmetic the program uses. The lemmas of C90 and C91 need
that equal numbers are the same, which is false of the two zeros; so the commands are tidied up in the run with rounded numbers, and the run
with doubles follows it. -/

namespace River
attribute [local instance 10000] FTrans.toFNum

variable {e : ℤ}

theorem tidies_r64 {Ps Qs : List (List (Vec2 ℚ))} (h : Tidies Ps Qs) (pt : PathType) (c : Clipper R64) :
    c.addPath (Ps.map (fun P => Path.build (polyCmds (P.map toR64)))) pt = c.addPath (Qs.map (fun P => Path.build (polyCmds (P.map toR64)))) pt := by
  simp only [map_toR64]
  exact tidies_addPath (K := R64) c pt h

/-- The run with doubles on paths that are stored like polygons on the grid, and what it delivers. -/
theorem ieee_out (he : -100 ≤ e ∧ e ≤ 100) (env : Env Dbl) (hok : env.Ok) (msort : List (LocMin Dbl) → List (LocMin Dbl)) (hm : MinSort msort)
    (ps qs : List (Path Dbl)) (ps' qs' : List (Path R64)) (S C : List (List (Vec2 ℚ)))
    (hS : letI := simDbl he; List.Forall₂ Sim.PathR ps ps') (hC : letI := simDbl he; List.Forall₂ Sim.PathR qs qs')
    (tS : ∀ (c : Clipper R64), c.addPath ps' .subject = c.addPath (S.map (fun P => Path.build (polyCmds (P.map toR64)))) .subject)
    (tC : ∀ (c : Clipper R64), c.addPath qs' .clip = c.addPath (C.map (fun P => Path.build (polyCmds (P.map toR64)))) .clip)
    (G : CrossPolygons (S ++ C)) (ct : ClipType) (fr : FillRule) (σ : Int) (hσ : σ = 1 ∨ σ = -1) (hO : Consistent S C ct fr σ) :
    ∃ c1 c2 : Clipper Dbl, (Clipper.new (K := Dbl)).addPath ps .subject = some c1 ∧ c1.addPath qs .clip = some c2 ∧
      ∃ n, ∀ fuel, n ≤ fuel → ∃ (c' : Clipper Dbl) (es : List (Event Dbl)) (out : List (List (Vec2 ℚ))),
        c2.process env msort fuel ct fr Path.recorder [] = some (some (c', es)) ∧
        List.Forall₂ (Sim.EventR (CD e)) es (out.flatMap (fun Q => eventsFrom zeroPt (closedCmds (Q.map toR64)))) ∧
        List.Forall₂ Event.Is es ((timesAll (2 ^ e) out).flatMap (fun Q => eventsFrom ⟨0, 0⟩ (closedCmds Q))) ∧
        (∀ X y, polyWinding (timesAll (2 ^ e) out) X y = open Classical in if InResult (timesAll (2 ^ e) S) (timesAll (2 ^ e) C) ct fr X y then σ else 0) ∧
        ∀ s ∈ out.flatMap polySides, s.1.y ≠ s.2.y → OnGrid s.1 ∧ OnGrid s.2 ∧ ∃ t ∈ (S ++ C).flatMap polySides, OnSeg s.1 t.1 t.2 ∧ OnSeg s.2 t.1 t.2 := by
  classical
  letI := simDbl he
  obtain ⟨c1, c2, d1, d2, c1', c2', e1, e2, env', msort', hok', hm', hrun⟩ := process_ieee_paths he env hok msort hm ps qs ps' qs' S C hS hC tS tC G
  refine ⟨c1, c2, d1, d2, ?_⟩
  obtain ⟨b1, b2, f1, f2, n, hn⟩ := process_doubles_crossing env' hok' msort' hm' S C G ct fr σ hσ hO
  obtain rfl : c1' = b1 := Option.some.inj (e1.symm.trans f1)
  obtain rfl : c2' = b2 := Option.some.inj (e2.symm.trans f2)
  refine ⟨n, fun fuel hf => ?_⟩
  obtain ⟨c', out, g1, g2, g3⟩ := hn fuel hf
  obtain ⟨k, es, k1, k2⟩ := run_is he (hrun fuel ct fr) g1
  have hr := hrun fuel ct fr
  rw [k1, g1] at hr
  have hev : List.Forall₂ (Sim.EventR (CD e)) es (out.flatMap (fun Q => eventsFrom zeroPt (closedCmds (Q.map toR64)))) := by
    cases hr with
    | some hr =>
      cases hr with
      | some hr => exact hr.2
  have hp : (0 : ℚ) < 2 ^ e := by positivity
  refine ⟨k, es, out, k1, hev, k2, fun X y => ?_, g3⟩
  rw [polyWinding_times' hp, g2]
  exact if_congr (inResult_times hp S C ct fr X y).symm rfl rfl

open Classical in
/-- **C90 with IEEE doubles.** Polygons with superfluous commands (corners repeated, the first corner again at the end, contours of no height; zeros of
either sign counting as equal), whose points are finite doubles with `2 ^ e` times the values of points of the grid: if what remains after tidying up are
polygons on the grid whose sides cross only where doubles can tell, then the call is without undefined behaviour and endless loops, and encloses exactly the
points of the operation on the given polygons. -/
theorem process_ieee_untidy (he : -100 ≤ e ∧ e ≤ 100) (env : Env Dbl) (hok : env.Ok) (msort : List (LocMin Dbl) → List (LocMin Dbl)) (hm : MinSort msort)
    (subject clip : List (List (Vec2 Dbl))) (S C S' C' : List (List (Vec2 ℚ))) (hS : List.Forall₂ (List.Forall₂ Vec2.Is) subject (timesAll (2 ^ e) S))
    (hC : List.Forall₂ (List.Forall₂ Vec2.Is) clip (timesAll (2 ^ e) C)) (hg : ∀ P ∈ S ++ C, ∀ p ∈ P, OnGrid p)
    (tS : Tidies S S') (tC : Tidies C C') (G : CrossPolygons (S' ++ C'))
    (ct : ClipType) (fr : FillRule) (σ : Int) (hσ : σ = 1 ∨ σ = -1) (hO : Consistent S' C' ct fr σ) :
    ∃ c1 c2 : Clipper Dbl, (Clipper.new (K := Dbl)).addPath (subject.map (fun P => Path.build (polyCmds P))) .subject = some c1 ∧
      c1.addPath (clip.map (fun P => Path.build (polyCmds P))) .clip = some c2 ∧
      ∃ n, ∀ fuel, n ≤ fuel → ∃ (c' : Clipper Dbl) (es : List (Event Dbl)) (out : List (List (Vec2 ℚ))),
        c2.process env msort fuel ct fr Path.recorder [] = some (some (c', es)) ∧
        List.Forall₂ Event.Is es (out.flatMap (fun Q => eventsFrom ⟨0, 0⟩ (closedCmds Q))) ∧
        ∀ X y, polyWinding out X y = if InResult (timesAll (2 ^ e) S) (timesAll (2 ^ e) C) ct fr X y then σ else 0 := by
  obtain ⟨c1, c2, d1, d2, n, hn⟩ := ieee_out he env hok msort hm _ _ _ _ S' C' (paths_are he hS (fun Q hQ => hg Q (List.mem_append_left _ hQ)))
    (paths_are he hC (fun Q hQ => hg Q (List.mem_append_right _ hQ))) (tidies_r64 tS .subject) (tidies_r64 tC .clip) G ct fr σ hσ hO
  refine ⟨c1, c2, d1, d2, n, fun fuel hf => ?_⟩
  obtain ⟨c', es, out, k1, _, k2, k3, _⟩ := hn fuel hf
  refine ⟨c', es, _, k1, k2, fun X y => ?_⟩
  have hp : (0 : ℚ) < 2 ^ e := by positivity
  rw [k3]
  refine if_congr ?_ rfl rfl
  rw [inResult_times hp, inResult_times hp, tS.inResult tC]

section split
variable {K L : Type}

theorem Sim.CmdR.draws {P : K → L → Prop} {a : Cmd K} {b : Cmd L} (h : Sim.CmdR P a b) : a.draws = b.draws := by cases h <;> rfl

theorem split_draws_r {P : K → L → Prop} {a l : List (Cmd K)} {b m : List (Cmd L)} (ha : ∀ c ∈ a, c.draws = true) (hb : ∀ c ∈ b, c.draws = true)
    (hl : ∀ c ∈ l.head?, c.draws = false) (hm : ∀ c ∈ m.head?, c.draws = false) (h : List.Forall₂ (Sim.CmdR P) (a ++ l) (b ++ m)) :
    List.Forall₂ (Sim.CmdR P) a b ∧ List.Forall₂ (Sim.CmdR P) l m := by
  induction a generalizing b with
  | nil =>
    cases b with
    | nil => exact ⟨.nil, h⟩
    | cons y b =>
      exfalso
      rw [List.nil_append, List.cons_append] at h
      cases h with
      | cons h1 h2 =>
        have h3 := hl _ rfl
        rw [h1.draws, hb y (by simp)] at h3; simp at h3
  | cons x a ih =>
    cases b with
    | nil =>
      exfalso
      rw [List.nil_append, List.cons_append] at h
      cases h with
      | cons h1 h2 =>
        have h3 := hm _ rfl
        rw [← h1.draws, ha x (by simp)] at h3; simp at h3
    | cons y b =>
      rw [List.cons_append, List.cons_append] at h
      cases h with
      | cons h1 h2 =>
        obtain ⟨i1, i2⟩ := ih (fun c hc => ha c (by simp [hc])) (fun c hc => hb c (by simp [hc])) h2
        exact ⟨.cons h1 i1, i2⟩

theorem contours_head {A : List (List (Cmd K))} (hA : ∀ a ∈ A, OneContour a) : ∀ c ∈ A.flatten.head?, c.draws = false := by
  intro c hc
  cases A with
  | nil => simp at hc
  | cons a A =>
    obtain ⟨p, body, rfl, _⟩ := hA a (by simp)
    simp only [List.flatten_cons, List.cons_append, List.head?_cons, Option.mem_def, Option.some.injEq] at hc
    rw [← hc]; rfl

/-- Corresponding sequences of commands consist of corresponding contours. -/
theorem contours_r {P : K → L → Prop} {A : List (List (Cmd K))} {B : List (List (Cmd L))} (hA : ∀ a ∈ A, OneContour a) (hB : ∀ b ∈ B, OneContour b)
    (h : List.Forall₂ (Sim.CmdR P) A.flatten B.flatten) : List.Forall₂ (List.Forall₂ (Sim.CmdR P)) A B := by
  induction A generalizing B with
  | nil =>
    cases B with
    | nil => exact .nil
    | cons b B =>
      obtain ⟨p, body, rfl, _⟩ := hB b (by simp)
      simp at h
  | cons a A ih =>
    cases B with
    | nil =>
      obtain ⟨p, body, rfl, _⟩ := hA a (by simp)
      simp at h
    | cons b B =>
      obtain ⟨p, x, rfl, hx⟩ := hA a (by simp)
      obtain ⟨q, y, rfl, hy⟩ := hB b (by simp)
      rw [List.flatten_cons, List.flatten_cons, List.cons_append, List.cons_append] at h
      cases h with
      | cons h1 h2 =>
        obtain ⟨i1, i2⟩ := split_draws_r hx hy (contours_head (fun a ha => hA a (by simp [ha]))) (contours_head (fun b hb => hB b (by simp [hb]))) h2
        exact .cons (.cons h1 i1) (ih (fun a ha => hA a (by simp [ha])) (fun b hb => hB b (by simp [hb])) i2)

end split

/-- What the callbacks report and what is appended to an output list, for the same call. -/
theorem processPaths_contours {K : Type} [FTrans K] (env : Env K) (msort : List (LocMin K) → List (LocMin K)) (fuel : Nat) (c c' : Clipper K)
    (ct : ClipType) (fr : FillRule) (es : List (Event K)) (h : c.process env msort fuel ct fr Path.recorder [] = some (some (c', es))) :
    ∃ cs : List (List (Cmd K)), (∀ a ∈ cs, OneContour a) ∧ es.map Event.cmd = cs.flatten ∧
      ∀ output, c.processPaths env msort fuel ct fr output = some (some (c', output ++ cs.map Path.build)) := by
  rcases process_cases env msort fuel c ct fr with h1 | h1 | ⟨c1, polys, h1⟩
  · rw [h1] at h; cases h
  · rw [h1] at h; cases h
  · rw [h1, buildOutput_recorder] at h
    simp only [List.nil_append, Option.map_some, Option.some.injEq, Prod.mk.injEq] at h
    refine ⟨(polys.filter Poly.written).map Poly.cmds, ?_, ?_, ?_⟩
    · intro a ha
      obtain ⟨p, _, rfl⟩ := List.mem_map.1 ha
      refine ⟨_, _, rfl, fun c hc => ?_⟩
      obtain ⟨s, _, rfl⟩ := List.mem_map.1 hc
      cases s <;> rfl
    · rw [← h.2, contours, List.map_flatten, List.map_map]
      congr 1
      refine List.map_congr_left (fun p _ => ?_)
      exact eventsFrom_cmd _ _
    · intro output
      rw [Clipper.processPaths, h1, buildOutput_paths, Option.map_some, h.1, List.map_map]
      rfl

theorem events_nonempty {K : Type} [FTrans K] (out : List (List (Vec2 K))) : (out.flatMap (fun Q => eventsFrom zeroPt (closedCmds Q))).map Event.cmd =
    ((out.filter (fun Q => !Q.isEmpty)).map closedCmds).flatten := by
  induction out with
  | nil => rfl
  | cons Q out ih =>
    rw [List.flatMap_cons, List.map_append, eventsFrom_cmd, ih]
    cases Q with
    | nil => rfl
    | cons p qs => rfl

/-- A written path whose corners are on the grid, in both arithmetics. -/
theorem written_is (he : -100 ≤ e ∧ e ≤ 100) {c : List (Cmd Dbl)} {d : List (Cmd R64)} (h : List.Forall₂ (Sim.CmdR (CD e)) c d)
    (g : ∀ a ∈ d, OnGrid (show Vec2 ℚ from a.target)) : letI := simDbl he; Sim.PathR (Path.build c) (Path.build d) := by
  letI := simDbl he
  rw [Path.build_eq, Path.build_eq]
  induction h with
  | nil => exact ⟨.nil, rfl, fun t ht => by cases ht⟩
  | cons h1 h2 ih =>
    obtain ⟨i1, i2, i3⟩ := ih (fun a ha => g a (List.mem_cons_of_mem _ ha))
    have g1 := g _ (List.mem_cons_self ..)
    cases h1 with
    | moveto h =>
      have k := OnGrid.gd h g1
      refine ⟨.cons k.x (.cons k.y i1), congrArg (0 :: ·) i2, fun t ht => ?_⟩
      rcases List.mem_cons.1 ht with rfl | ht
      · exact Nat.zero_le _
      · exact i3 t ht
    | lineto h =>
      have k := OnGrid.gd h g1
      refine ⟨.cons k.x (.cons k.y i1), congrArg (1 :: ·) i2, fun t ht => ?_⟩
      rcases List.mem_cons.1 ht with rfl | ht
      · exact le_rfl
      · exact i3 t ht

theorem closedCmds_target {K : Type} {Q : List (Vec2 K)} {a : Cmd K} (h : a ∈ closedCmds Q) : a.target ∈ Q := by
  cases Q with
  | nil => cases h
  | cons p qs =>
    rcases List.mem_cons.1 h with rfl | h
    · exact List.mem_cons_self
    · obtain ⟨q, hq, rfl⟩ := List.mem_map.1 h
      rcases List.mem_append.1 hq with hq | hq
      · exact List.mem_cons_of_mem _ hq
      · rw [List.mem_singleton.1 hq]; exact List.mem_cons_self

theorem cmdR_is {a : Cmd Dbl} {b : Cmd R64} (h : Sim.CmdR (CD e) a b) : Cmd.Is a (Cmd.times (2 ^ e) (show Cmd ℚ from b)) := by
  cases h with
  | moveto h => exact V2.is h
  | lineto h => exact V2.is h

open Classical in
/-- **C91 with IEEE doubles.** `process` writes paths whose points are finite doubles: those of the contours `cs`, with `2 ^ e` times the values of the
polygons `out`, which enclose exactly the points of the operation. They can be given to another processor, with further polygons of doubles
with `2 ^ e` times the values of `T`: if all these are points of the grid, and what remains of `out` and `T` after tidying up are polygons whose sides cross
only where doubles can tell, then the second call succeeds, too, and encloses exactly the points of the second operation applied to the result of the
first one and `T`. -/
theorem process_ieee_chain (he : -100 ≤ e ∧ e ≤ 100) (env : Env Dbl) (hok : env.Ok) (msort : List (LocMin Dbl) → List (LocMin Dbl)) (hm : MinSort msort)
    (subject clip : List (List (Vec2 Dbl))) (S C : List (List (Vec2 ℚ))) (hS : List.Forall₂ (List.Forall₂ Vec2.Is) subject (timesAll (2 ^ e) S))
    (hC : List.Forall₂ (List.Forall₂ Vec2.Is) clip (timesAll (2 ^ e) C)) (G : CrossPolygons (S ++ C))
    (ct : ClipType) (fr : FillRule) (σ : Int) (hσ : σ = 1 ∨ σ = -1) (hO : Consistent S C ct fr σ) :
    ∃ c1 c2 : Clipper Dbl, (Clipper.new (K := Dbl)).addPath (subject.map (fun P => Path.build (polyCmds P))) .subject = some c1 ∧
      c1.addPath (clip.map (fun P => Path.build (polyCmds P))) .clip = some c2 ∧
      ∃ n, ∀ fuel, n ≤ fuel → ∃ (c' : Clipper Dbl) (cs : List (List (Cmd Dbl))) (out : List (List (Vec2 ℚ))),
        c2.processPaths env msort fuel ct fr [] = some (some (c', cs.map Path.build)) ∧
        List.Forall₂ (List.Forall₂ Cmd.Is) cs ((timesAll (2 ^ e) out).map closedCmds) ∧
        (∀ X y, polyWinding (timesAll (2 ^ e) out) X y = if InResult (timesAll (2 ^ e) S) (timesAll (2 ^ e) C) ct fr X y then σ else 0) ∧
        ∀ (env2 : Env Dbl) (msort2 : List (LocMin Dbl) → List (LocMin Dbl)) (third : List (List (Vec2 Dbl))) (T out' T' : List (List (Vec2 ℚ)))
          (ct2 : ClipType) (fr2 : FillRule) (τ : Int), env2.Ok → MinSort msort2 → τ = 1 ∨ τ = -1 →
          List.Forall₂ (List.Forall₂ Vec2.Is) third (timesAll (2 ^ e) T) → (∀ P ∈ out ++ T, ∀ p ∈ P, OnGrid p) →
          Tidies out out' → Tidies T T' → CrossPolygons (out' ++ T') → Consistent out' T' ct2 fr2 τ →
          ∃ c3 c4 : Clipper Dbl, (Clipper.new (K := Dbl)).addPath (cs.map Path.build) .subject = some c3 ∧
            c3.addPath (third.map (fun P => Path.build (polyCmds P))) .clip = some c4 ∧
            ∃ n', ∀ fuel', n' ≤ fuel' → ∃ (c'' : Clipper Dbl) (es : List (Event Dbl)) (out2 : List (List (Vec2 ℚ))),
              c4.process env2 msort2 fuel' ct2 fr2 Path.recorder [] = some (some (c'', es)) ∧
              List.Forall₂ Event.Is es (out2.flatMap (fun Q => eventsFrom ⟨0, 0⟩ (closedCmds Q))) ∧
              ∀ X y, polyWinding out2 X y = if ct2.op (fr2.inside (if InResult (timesAll (2 ^ e) S) (timesAll (2 ^ e) C) ct fr X y then σ else 0))
                (fr2.inside (polyWinding (timesAll (2 ^ e) T) X y)) then τ else 0 := by
  obtain ⟨c1, c2, d1, d2, n, hn⟩ := ieee_out he env hok msort hm _ _ _ _ S C (paths_are he hS (fun Q hQ => G.grid Q (List.mem_append_left _ hQ)))
    (paths_are he hC (fun Q hQ => G.grid Q (List.mem_append_right _ hQ))) (fun _ => rfl) (fun _ => rfl) G ct fr σ hσ hO
  refine ⟨c1, c2, d1, d2, n, fun fuel hf => ?_⟩
  obtain ⟨c', es, all, k1, kr, _, k3, _⟩ := hn fuel hf
  obtain ⟨cs, hcs, hes, hpp⟩ := processPaths_contours env msort fuel c2 c' ct fr es k1
  obtain ⟨out, ho⟩ : ∃ out, out = all.filter (fun Q => !Q.isEmpty) := ⟨_, rfl⟩
  have hp : (0 : ℚ) < 2 ^ e := by positivity
  have hall : Tidies all out := ho ▸ nonempty_tidies all
  have hw : ∀ X y, polyWinding (timesAll (2 ^ e) out) X y = if InResult (timesAll (2 ^ e) S) (timesAll (2 ^ e) C) ct fr X y then σ else 0 := by
    intro X y
    rw [← k3, polyWinding_times' hp, polyWinding_times' hp, tidies_winding hall]
  have hne : ∀ Q ∈ out, Q ≠ [] := by
    intro Q hQ h
    rw [ho, h] at hQ; simp at hQ
  -- the contours of both runs
  have hcr : List.Forall₂ (List.Forall₂ (Sim.CmdR (CD e))) cs (out.map (fun Q => closedCmds (Q.map toR64))) := by
    refine contours_r hcs ?_ ?_
    · intro b hb
      obtain ⟨Q, hQ, rfl⟩ := List.mem_map.1 hb
      exact closedCmds_contour _ (by simpa using hne Q hQ)
    · rw [← hes]
      have h1 : List.Forall₂ (Sim.CmdR (CD e)) (es.map Event.cmd) ((all.flatMap (fun Q => eventsFrom zeroPt (closedCmds (Q.map toR64)))).map Event.cmd) :=
        List.forall₂_map_left_iff.2 (List.forall₂_map_right_iff.2 (kr.imp (fun _ _ h => h.cmd)))
      have h2 := events_nonempty (K := R64) (all.map (fun Q => Q.map toR64))
      rw [List.flatMap_map] at h2
      rw [h2] at h1
      convert h1 using 2
      rw [ho, List.filter_map, List.map_map]
      congr 1
      refine List.filter_congr (fun Q _ => ?_)
      cases Q <;> rfl
  refine ⟨c', cs, out, by rw [hpp, List.nil_append], ?_, hw, ?_⟩
  · unfold timesAll
    rw [List.map_map, List.forall₂_map_right_iff]
    refine (List.forall₂_map_right_iff.1 hcr).imp (fun a Q h => ?_)
    rw [Function.comp_apply, ← closed_times, List.forall₂_map_right_iff]
    simp only [map_toR64] at h
    exact h.imp (fun _ _ h => cmdR_is h)
  intro env2 msort2 third T out' T' ct2 fr2 τ hok2 hm2 hτ hT hg t1 t2 G2 hO2
  have hps : letI := simDbl he; List.Forall₂ Sim.PathR (cs.map Path.build) (out.map (fun Q => Path.build (closedCmds (Q.map toR64)))) := by
    letI := simDbl he
    rw [List.forall₂_map_left_iff, List.forall₂_map_right_iff]
    have h1 := List.forall₂_map_right_iff.1 hcr
    refine (f2_memr h1 (T := fun Q => ∀ q ∈ Q, OnGrid q) (fun Q hQ => hg Q (List.mem_append_left _ hQ))).imp ?_
    rintro c Q ⟨h, hQ⟩
    refine written_is he h (fun a ha => ?_)
    have := closedCmds_target ha
    rw [map_toR64] at this
    exact hQ _ this
  have hts : ∀ c : Clipper R64, c.addPath (out.map (fun Q => Path.build (closedCmds (Q.map toR64)))) .subject =
      c.addPath (out'.map (fun P => Path.build (polyCmds (P.map toR64)))) .subject := by
    intro c
    rw [← tidies_r64 t1]
    have h1 := tidies_r64 (closeUp_tidies all) .subject c
    rw [← ho, List.map_map] at h1
    rw [← h1]
    simp only [map_toR64, Function.comp_def]
    congr 2
    funext Q
    exact congrArg Path.build (closeUp_cmds (K := R64) Q).symm
  obtain ⟨c3, c4, e3, e4, n', hn'⟩ := ieee_out he env2 hok2 msort2 hm2 _ _ _ _ out' T' hps
    (paths_are he hT (fun Q hQ => hg Q (List.mem_append_right _ hQ))) hts (tidies_r64 t2 .clip) G2 ct2 fr2 τ hτ hO2
  refine ⟨c3, c4, e3, e4, n', fun fuel' hf' => ?_⟩
  obtain ⟨c'', es2, out2, m1, _, m2, m3, _⟩ := hn' fuel' hf'
  refine ⟨c'', es2, _, m1, m2, fun X y => ?_⟩
  rw [m3]
  refine if_congr ?_ rfl rfl
  rw [inResult_times hp, t1.inResult t2, ← inResult_times hp]
  unfold InResult at hw ⊢
  rw [hw]

end River
