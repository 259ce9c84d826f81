import Verif.Spec.Ieee
import Verif.Lemmas.Scale
import Verif.Lemmas.SimDbl
import Verif.Lemmas.SimProcess
import Verif.Props.DoubleTiles

/-! # C92: polygons on a grid with IEEE 754 doubles

C75, C79 and C80 are about numbers that are rounded like doubles but never overflow, and where there is only one zero. Here they are proved for
IEEE 754 doubles, with infinities, NaN and signed zeros: none of what makes the difference turns up. The grid may be that of the whole numbers, or
that of the multiples of any power of two from `2 ^ -100` to `2 ^ 100`. -/

namespace River
attribute [local instance 10000] FTrans.toFNum

variable {e : ℤ}

theorem RV.is {i k : ℕ} {d : Dbl} {q : R64} (h : RV e i k d q) : d.Is (2 ^ e * q.q) := by
  obtain ⟨s, m, h1, h2, h3⟩ := h.1
  exact ⟨s, m, h2, h1, h3⟩

theorem Dbl.Is.gd {d : Dbl} {q : ℚ} (h : d.Is (2 ^ e * q)) {n : ℤ} (hn : |n| ≤ 2 ^ 15) (hq : q = n) : GD e d (R64.of q) := by
  obtain ⟨s, m, h1, h2, h3⟩ := h
  refine ⟨⟨s, m, h2, h1, h3⟩, ?_, n, ?_⟩
  · change |q| ≤ _
    rw [hq]; exact_mod_cast hn
  · change q = _
    rw [hq]; simp

theorem Vec2.Is.gd {p : Vec2 Dbl} {q : Vec2 ℚ} (h : p.Is (q.times (2 ^ e))) (g : OnGrid q) : V2 (GD e) p (toR64 q) := by
  obtain ⟨a, b, ha, hb, rfl⟩ := g
  exact ⟨Dbl.Is.gd h.1 ha rfl, Dbl.Is.gd h.2 hb rfl⟩

theorem V2.is {i k : ℕ} {p : Vec2 Dbl} {q : Vec2 R64} (h : V2 (RV e i k) p q) : p.Is (Vec2.times (2 ^ e) ⟨q.x.q, q.y.q⟩) := ⟨h.x.is, h.y.is⟩

/-- The command with its coordinates multiplied. -/
def Cmd.times (c : ℚ) : Cmd ℚ → Cmd ℚ
  | .moveto p => .moveto (p.times c)
  | .lineto p => .lineto (p.times c)
  | .cubicto a b p => .cubicto (a.times c) (b.times c) (p.times c)

theorem eventR_is {u : Event Dbl} {f : Event R64} (h : Sim.EventR (CD e) u f) :
    Event.Is u (⟨(show Vec2 ℚ from f.source).times (2 ^ e), Cmd.times (2 ^ e) (show Cmd ℚ from f.cmd)⟩ : Event ℚ) := by
  obtain ⟨h1, h2⟩ := h
  obtain ⟨s, c⟩ := u
  obtain ⟨s', c'⟩ := f
  refine ⟨h1.is, ?_⟩
  cases h2 with
  | moveto h => exact V2.is h
  | lineto h => exact V2.is h

theorem events_times (c : ℚ) (q : Vec2 ℚ) (l : List (Cmd ℚ)) :
    (eventsFrom q l).map (fun f => (⟨f.source.times c, f.cmd.times c⟩ : Event ℚ)) = eventsFrom (q.times c) (l.map (Cmd.times c)) := by
  induction l generalizing q with
  | nil => rfl
  | cons a l ih =>
    simp only [eventsFrom, List.map_cons, ih]
    cases a <;> rfl

theorem closed_times (c : ℚ) (Q : List (Vec2 ℚ)) : (closedCmds Q).map (Cmd.times c) = closedCmds (Q.map (Vec2.times c)) := by
  cases Q with
  | nil => rfl
  | cons p Q =>
    simp only [closedCmds, List.map_cons, List.map_map, List.map_append, List.map_nil]
    rfl

/-- A polygon given as a path, in both arithmetics. -/
theorem path_is (he : -100 ≤ e ∧ e ≤ 100) {P : List (Vec2 Dbl)} {Q : List (Vec2 ℚ)} (h : List.Forall₂ Vec2.Is P (Q.map (Vec2.times (2 ^ e))))
    (g : ∀ q ∈ Q, OnGrid q) : letI := simDbl he; Sim.PathR (Path.build (polyCmds P)) (Path.build (polyCmds (Q.map toR64))) := by
  letI := simDbl he
  have key : ∀ {P : List (Vec2 Dbl)} {Q : List (Vec2 ℚ)}, List.Forall₂ Vec2.Is P (Q.map (Vec2.times (2 ^ e))) → (∀ q ∈ Q, OnGrid q) →
      List.Forall₂ (GD e) ((P.map Cmd.lineto).flatMap Path.coords) (((Q.map toR64).map Cmd.lineto).flatMap Path.coords) ∧
        (P.map Cmd.lineto).map Path.tag = ((Q.map toR64).map Cmd.lineto).map Path.tag := by
    intro P Q h g
    induction Q generalizing P with
    | nil => cases h; exact ⟨.nil, rfl⟩
    | cons q Q ih =>
      cases h with
      | cons h1 h2 =>
        obtain ⟨i1, i2⟩ := ih h2 (fun q hq => g q (List.mem_cons_of_mem _ hq))
        have k := h1.gd (g _ (List.mem_cons_self ..))
        exact ⟨.cons k.x (.cons k.y i1), congrArg (1 :: ·) i2⟩
  cases Q with
  | nil => cases h; exact ⟨.nil, rfl, fun t ht => by cases ht⟩
  | cons q Q =>
    cases h with
    | cons h1 h2 =>
      obtain ⟨i1, i2⟩ := key h2 (fun q hq => g q (List.mem_cons_of_mem _ hq))
      have k := h1.gd (g _ (List.mem_cons_self ..))
      rw [Path.build_eq, Path.build_eq]
      refine ⟨.cons k.x (.cons k.y i1), congrArg (0 :: ·) i2, ?_⟩
      intro t ht
      obtain ⟨c, hc, rfl⟩ := List.mem_map.1 ht
      rcases List.mem_cons.1 hc with rfl | hc
      · exact Nat.zero_le _
      · obtain ⟨p, _, rfl⟩ := List.mem_map.1 hc
        exact le_rfl

theorem paths_are (he : -100 ≤ e ∧ e ≤ 100) {Ps : List (List (Vec2 Dbl))} {Qs : List (List (Vec2 ℚ))}
    (h : List.Forall₂ (List.Forall₂ Vec2.Is) Ps (timesAll (2 ^ e) Qs)) (g : ∀ Q ∈ Qs, ∀ q ∈ Q, OnGrid q) : letI := simDbl he;
    List.Forall₂ Sim.PathR (Ps.map (fun P => Path.build (polyCmds P))) (Qs.map (fun Q => Path.build (polyCmds (Q.map toR64)))) := by
  letI := simDbl he
  induction Qs generalizing Ps with
  | nil => cases h; exact .nil
  | cons Q Qs ih =>
    cases h with
    | cons h1 h2 => exact .cons (path_is he h1 (g _ (List.mem_cons_self ..))) (ih h2 (fun Q hQ => g Q (List.mem_cons_of_mem _ hQ)))

theorem GridPolygons.cross {Ps : List (List (Vec2 ℚ))} (G : GridPolygons Ps) : CrossPolygons Ps := ⟨G.general, G.grid, G.ends.imp (fun h => Or.inl h)⟩

theorem OnGrid.gd {p : Vec2 Dbl} {q : Vec2 R64} (h : V2 (CD e) p q) (g : OnGrid q) : V2 (GD e) p q := by
  have one : ∀ {d : Dbl} {a : R64} {n : ℤ}, CD e d a → |n| ≤ 2 ^ 15 → a.q = n → GD e d a := by
    intro d a n h hn ha
    refine ⟨h.1, ?_, n, ?_⟩
    · rw [ha]; exact_mod_cast hn
    · rw [ha]; simp
  obtain ⟨a, b, ha, hb, rfl⟩ := g
  exact ⟨one h.x ha rfl, one h.y hb rfl⟩

/-- Contours whose corners have values on the grid. -/
theorem rings_gd {rs : List (Ring Dbl)} {rs' : List (Ring R64)} (h : List.Forall₂ (Sim.RingR (CD e)) rs rs')
    (g : ∀ v ∈ allNodes rs', OnGrid v.pt ∧ OnGrid v.seg.target) : List.Forall₂ (Sim.RingR (GD e)) rs rs' := by
  refine (f2_memr h (T := fun r => ∀ v ∈ r.nodes, OnGrid v.pt ∧ OnGrid v.seg.target) ?_).imp ?_
  · intro r hr v hv
    exact g v (List.mem_flatMap.2 ⟨r, hr, hv⟩)
  · rintro r r' ⟨hr, hg⟩
    refine ⟨(f2_memr hr.nodes hg).imp ?_, hr.ptype⟩
    rintro v v' ⟨hv, g1, g2⟩
    refine ⟨OnGrid.gd hv.pt g1, ?_, hv.lmin, hv.lmax⟩
    have hs := hv.seg
    revert hs g2
    generalize v.seg = a
    generalize v'.seg = b
    intro g2 hs
    cases hs with
    | line h => exact .line (OnGrid.gd h g2)

theorem eventsR {us : List (Event Dbl)} {vs : List (Event R64)} (h : List.Forall₂ (Sim.EventR (CD e)) us vs) :
    List.Forall₂ Event.Is us ((show List (Event ℚ) from vs).map (fun f => (⟨f.source.times (2 ^ e), f.cmd.times (2 ^ e)⟩ : Event ℚ))) :=
  List.forall₂_map_right_iff.2 (h.imp (fun _ _ h => eventR_is h))

theorem run_is (he : -100 ≤ e ∧ e ≤ 100) {x : Option (Option (Clipper Dbl × List (Event Dbl)))} {y : Option (Option (Clipper R64 × List (Event R64)))}
    (h : letI := simDbl he; Option.Rel (Option.Rel (fun a b => Sim.ClipR a.1 b.1 ∧ List.Forall₂ (Sim.EventR (CD e)) a.2 b.2)) x y)
    {c' : Clipper R64} {out : List (List (Vec2 ℚ))}
    (hy : y = some (some (c', out.flatMap (fun Q => eventsFrom zeroPt (closedCmds (Q.map toR64)))))) :
    ∃ k es, x = some (some (k, es)) ∧ List.Forall₂ Event.Is es ((timesAll (2 ^ e) out).flatMap (fun Q => eventsFrom ⟨0, 0⟩ (closedCmds Q))) := by
  subst hy
  cases h with
  | some h =>
    cases h with
    | some h =>
      refine ⟨_, _, rfl, ?_⟩
      have := eventsR h.2
      simp only [map_toR64] at this
      have e0 : (zeroPt : Vec2 R64) = (⟨0, 0⟩ : Vec2 ℚ) := by
        have z : (FNum.lit 0 : R64) = (0 : ℚ) := show rndSigned 0 = 0 by decide +kernel
        exact Vec2.ext z z
      rw [e0] at this
      have e1 : (timesAll (2 ^ e) out).flatMap (fun Q => eventsFrom ⟨0, 0⟩ (closedCmds Q)) =
          (out.flatMap (fun Q => eventsFrom (⟨0, 0⟩ : Vec2 ℚ) (closedCmds Q))).map (fun f => (⟨f.source.times (2 ^ e), f.cmd.times (2 ^ e)⟩ : Event ℚ)) := by
        unfold timesAll
        rw [List.flatMap_map, List.map_flatMap]
        refine List.flatMap_congr (fun Q _ => ?_)
        rw [events_times, closed_times]
        congr 1
        simp [Vec2.times]
      rw [e1]
      exact this

/-- Whatever the sorts of the run with IEEE doubles, it is that of a run with rounded numbers: for paths that are stored like polygons on the grid. -/
theorem process_ieee_paths (he : -100 ≤ e ∧ e ≤ 100) (env : Env Dbl) (hok : env.Ok) (msort : List (LocMin Dbl) → List (LocMin Dbl)) (hm : MinSort msort)
    (ps qs : List (Path Dbl)) (ps' qs' : List (Path R64)) (S C : List (List (Vec2 ℚ)))
    (hS : letI := simDbl he; List.Forall₂ Sim.PathR ps ps') (hC : letI := simDbl he; List.Forall₂ Sim.PathR qs qs')
    (tS : ∀ (c : Clipper R64), c.addPath ps' .subject = c.addPath (S.map (fun P => Path.build (polyCmds (P.map toR64)))) .subject)
    (tC : ∀ (c : Clipper R64), c.addPath qs' .clip = c.addPath (C.map (fun P => Path.build (polyCmds (P.map toR64)))) .clip)
    (G : CrossPolygons (S ++ C)) : letI := simDbl he;
    ∃ c1 c2 : Clipper Dbl, (Clipper.new (K := Dbl)).addPath ps .subject = some c1 ∧ c1.addPath qs .clip = some c2 ∧
      ∃ c1' c2' : Clipper R64, (Clipper.new (K := R64)).addPath (S.map (fun P => Path.build (polyCmds (P.map toR64)))) .subject = some c1' ∧
      c1'.addPath (C.map (fun P => Path.build (polyCmds (P.map toR64)))) .clip = some c2' ∧
      ∃ (env' : Env R64) (msort' : List (LocMin R64) → List (LocMin R64)), env'.Ok ∧ MinSort msort' ∧ ∀ fuel ct fr,
      Option.Rel (Option.Rel (fun a b => Sim.ClipR a.1 b.1 ∧ List.Forall₂ (Sim.EventR (CD e)) a.2 b.2))
        (c2.process env msort fuel ct fr Path.recorder []) (c2'.process env' msort' fuel ct fr Path.recorder []) := by
  letI := simDbl he
  obtain ⟨c1', c2', e1, e2, _, _, hSt⟩ := polygons_added (K := R64) demoEnv S C G.general.turn G.general.proper
  have p1 := Sim.addPath_r (Sim.clip_new (K := Dbl) (L := R64)) hS .subject
  have e1' : (Clipper.new (K := R64)).addPath (S.map (fun P => Path.build (polyCmds (P.map toR64)))) .subject = some c1' := by
    simp only [map_toR64]; exact e1
  have e2' : c1'.addPath (C.map (fun P => Path.build (polyCmds (P.map toR64)))) .clip = some c2' := by
    simp only [map_toR64]; exact e2
  rw [tS, e1'] at p1
  obtain ⟨c1, d1, q1⟩ : ∃ c1, (Clipper.new (K := Dbl)).addPath ps .subject = some c1 ∧ Sim.ClipR c1 c1' := by
    generalize (Clipper.new (K := Dbl)).addPath ps .subject = x at p1
    cases p1 with
    | some h => exact ⟨_, rfl, h⟩
  have p2 := Sim.addPath_r q1 hC .clip
  rw [tC, e2'] at p2
  obtain ⟨c2, d2, q2⟩ : ∃ c2, c1.addPath qs .clip = some c2 ∧ Sim.ClipR c2 c2' := by
    generalize c1.addPath qs .clip = x at p2
    cases p2 with
    | some h => exact ⟨_, rfl, h⟩
  refine ⟨c1, c2, d1, d2, c1', c2', e1', e2', ?_⟩
  obtain ⟨L, hL⟩ : ∃ L : List (PathType × List (Vec2 ℚ)), L = S.map (fun P => (.subject, P)) ++ C.map (fun P => (.clip, P)) := ⟨_, rfl⟩
  have hSt' : StoresAll L c2'.rings := by rw [hL]; exact hSt
  have hLs : L.map Prod.snd = S ++ C := by rw [hL, List.map_append, List.map_map, List.map_map]; simp [Function.comp_def]
  have hX : CrossRings c2'.rings := CrossPolygons.rings hSt' (hLs ▸ G)
  refine Sim.process_r q2 hX.general.nodesOk.proper env hok msort hm ?_
  intro env' hok'
  obtain ⟨rings', hp, hA, _⟩ := processIntersect_cross hX env' hok'
  refine ⟨rings', hp, hA.general.linked, fun rs hrs => rings_gd hrs ?_⟩
  intro v hv
  obtain ⟨i, hi⟩ := List.getElem?_of_mem hv
  obtain ⟨s, hs, f1, f2⟩ := vtx_side (K := ℚ) (rings := rings') hi
  have := hA.grid s (List.mem_of_getElem? hs)
  rw [f1, f2] at this
  exact this

/-- Whatever the sorts of the run with IEEE doubles, it is that of a run with rounded numbers. -/
theorem process_ieee_run (he : -100 ≤ e ∧ e ≤ 100) (env : Env Dbl) (hok : env.Ok) (msort : List (LocMin Dbl) → List (LocMin Dbl)) (hm : MinSort msort)
    (subject clip : List (List (Vec2 Dbl))) (S C : List (List (Vec2 ℚ))) (hS : List.Forall₂ (List.Forall₂ Vec2.Is) subject (timesAll (2 ^ e) S))
    (hC : List.Forall₂ (List.Forall₂ Vec2.Is) clip (timesAll (2 ^ e) C)) (G : CrossPolygons (S ++ C)) : letI := simDbl he;
    ∃ c1 c2 : Clipper Dbl, (Clipper.new (K := Dbl)).addPath (subject.map (fun P => Path.build (polyCmds P))) .subject = some c1 ∧
      c1.addPath (clip.map (fun P => Path.build (polyCmds P))) .clip = some c2 ∧
      ∃ c1' c2' : Clipper R64, (Clipper.new (K := R64)).addPath (S.map (fun P => Path.build (polyCmds (P.map toR64)))) .subject = some c1' ∧
      c1'.addPath (C.map (fun P => Path.build (polyCmds (P.map toR64)))) .clip = some c2' ∧
      ∃ (env' : Env R64) (msort' : List (LocMin R64) → List (LocMin R64)), env'.Ok ∧ MinSort msort' ∧ ∀ fuel ct fr,
      Option.Rel (Option.Rel (fun a b => Sim.ClipR a.1 b.1 ∧ List.Forall₂ (Sim.EventR (CD e)) a.2 b.2))
        (c2.process env msort fuel ct fr Path.recorder []) (c2'.process env' msort' fuel ct fr Path.recorder []) :=
  process_ieee_paths he env hok msort hm _ _ _ _ S C (paths_are he hS (fun Q hQ => G.grid Q (List.mem_append_left _ hQ)))
    (paths_are he hC (fun Q hQ => G.grid Q (List.mem_append_right _ hQ))) (fun _ => rfl) (fun _ => rfl) G

open Classical in
/-- **C92, crossing polygons.** Points of IEEE 754 doubles, finite and with `2 ^ e` times the values of polygons on the grid whose sides cross only where doubles can tell,
added to a new processor and processed: no undefined behaviour, no endless loop, only finite numbers delivered, and at every point of the plane the
winding number of the polygons delivered is `σ` if the point belongs to the result and `0` if not. The sides delivered, other than horizontal
ones, are parts of given ones, between `2 ^ e` times points of the grid. -/
theorem process_ieee_crossing_scaled (he : -100 ≤ e ∧ e ≤ 100) (env : Env Dbl) (hok : env.Ok) (msort : List (LocMin Dbl) → List (LocMin Dbl)) (hm : MinSort msort)
    (subject clip : List (List (Vec2 Dbl))) (S C : List (List (Vec2 ℚ))) (hS : List.Forall₂ (List.Forall₂ Vec2.Is) subject (timesAll (2 ^ e) S))
    (hC : List.Forall₂ (List.Forall₂ Vec2.Is) clip (timesAll (2 ^ e) C)) (G : CrossPolygons (S ++ C))
    (ct : ClipType) (fr : FillRule) (σ : Int) (hσ : σ = 1 ∨ σ = -1) (hO : Consistent S C ct fr σ) :
    ∃ c1 c2 : Clipper Dbl, (Clipper.new (K := Dbl)).addPath (subject.map (fun P => Path.build (polyCmds P))) .subject = some c1 ∧
      c1.addPath (clip.map (fun P => Path.build (polyCmds P))) .clip = some c2 ∧
      ∃ n, ∀ fuel, n ≤ fuel → ∃ (c' : Clipper Dbl) (es : List (Event Dbl)) (out : List (List (Vec2 ℚ))),
        c2.process env msort fuel ct fr Path.recorder [] = some (some (c', es)) ∧
        List.Forall₂ Event.Is es (out.flatMap (fun Q => eventsFrom ⟨0, 0⟩ (closedCmds Q))) ∧
        (∀ X y, polyWinding out X y = if InResult (timesAll (2 ^ e) S) (timesAll (2 ^ e) C) ct fr X y then σ else 0) ∧
        ∀ s ∈ out.flatMap polySides, s.1.y ≠ s.2.y → (∃ a b, OnGrid a ∧ OnGrid b ∧ s = (a.times (2 ^ e), b.times (2 ^ e))) ∧
          ∃ t ∈ (timesAll (2 ^ e) (S ++ C)).flatMap polySides, OnSeg s.1 t.1 t.2 ∧ OnSeg s.2 t.1 t.2 := by
  obtain ⟨c1, c2, d1, d2, c1', c2', e1, e2, env', msort', hok', hm', hrun⟩ := process_ieee_run he env hok msort hm subject clip S C hS hC G
  refine ⟨c1, c2, d1, d2, ?_⟩
  obtain ⟨b1, b2, f1, f2, n, hn⟩ := process_doubles_crossing env' hok' msort' hm' S C G ct fr σ hσ hO
  obtain rfl : c1' = b1 := Option.some.inj (e1.symm.trans f1)
  obtain rfl : c2' = b2 := Option.some.inj (e2.symm.trans f2)
  refine ⟨n, fun fuel hf => ?_⟩
  obtain ⟨c', out, g1, g2, g3⟩ := hn fuel hf
  obtain ⟨k, es, k1, k2⟩ := run_is he (hrun fuel ct fr) g1
  have hp : (0 : ℚ) < 2 ^ e := by positivity
  refine ⟨k, es, timesAll (2 ^ e) out, k1, k2, fun X y => ?_, fun s hs hne => ?_⟩
  · rw [polyWinding_times' hp, g2]
    exact if_congr (inResult_times hp S C ct fr X y).symm rfl rfl
  · rw [sides_times] at hs
    obtain ⟨t, ht, rfl⟩ := List.mem_map.1 hs
    obtain ⟨i1, i2, v, hv, i3, i4⟩ := g3 t ht (fun h => hne (by simp [Vec2.times, h]))
    refine ⟨⟨t.1, t.2, i1, i2, rfl⟩, Prod.map (Vec2.times (2 ^ e)) (Vec2.times (2 ^ e)) v, ?_, onSeg_times i3, onSeg_times i4⟩
    rw [sides_times]
    exact List.mem_map_of_mem hv

open Classical in
/-- **C92, polygons that do not cross.** Likewise for `2 ^ e` times polygons on the grid whose sides meet at most in corners: the sides delivered, other than
horizontal ones, are given ones. -/
theorem process_ieee_scaled (he : -100 ≤ e ∧ e ≤ 100) (env : Env Dbl) (hok : env.Ok) (msort : List (LocMin Dbl) → List (LocMin Dbl)) (hm : MinSort msort)
    (subject clip : List (List (Vec2 Dbl))) (S C : List (List (Vec2 ℚ))) (hS : List.Forall₂ (List.Forall₂ Vec2.Is) subject (timesAll (2 ^ e) S))
    (hC : List.Forall₂ (List.Forall₂ Vec2.Is) clip (timesAll (2 ^ e) C)) (G : GridPolygons (S ++ C))
    (ct : ClipType) (fr : FillRule) (σ : Int) (hσ : σ = 1 ∨ σ = -1) (hO : Consistent S C ct fr σ) :
    ∃ c1 c2 : Clipper Dbl, (Clipper.new (K := Dbl)).addPath (subject.map (fun P => Path.build (polyCmds P))) .subject = some c1 ∧
      c1.addPath (clip.map (fun P => Path.build (polyCmds P))) .clip = some c2 ∧
      ∃ n, ∀ fuel, n ≤ fuel → ∃ (c' : Clipper Dbl) (es : List (Event Dbl)) (out : List (List (Vec2 ℚ))),
        c2.process env msort fuel ct fr Path.recorder [] = some (some (c', es)) ∧
        List.Forall₂ Event.Is es (out.flatMap (fun Q => eventsFrom ⟨0, 0⟩ (closedCmds Q))) ∧
        (∀ X y, polyWinding out X y = if InResult (timesAll (2 ^ e) S) (timesAll (2 ^ e) C) ct fr X y then σ else 0) ∧
        ∀ s ∈ out.flatMap polySides, s.1.y ≠ s.2.y → s ∈ (timesAll (2 ^ e) (S ++ C)).flatMap polySides := by
  obtain ⟨c1, c2, d1, d2, c1', c2', e1, e2, env', msort', hok', hm', hrun⟩ := process_ieee_run he env hok msort hm subject clip S C hS hC G.cross
  refine ⟨c1, c2, d1, d2, ?_⟩
  obtain ⟨b1, b2, f1, f2, n, hn⟩ := process_doubles env' hok' msort' hm' S C G ct fr σ hσ hO
  obtain rfl : c1' = b1 := Option.some.inj (e1.symm.trans f1)
  obtain rfl : c2' = b2 := Option.some.inj (e2.symm.trans f2)
  refine ⟨n, fun fuel hf => ?_⟩
  obtain ⟨c', out, g1, g2, g3⟩ := hn fuel hf
  obtain ⟨k, es, k1, k2⟩ := run_is he (hrun fuel ct fr) g1
  have hp : (0 : ℚ) < 2 ^ e := by positivity
  refine ⟨k, es, timesAll (2 ^ e) out, k1, k2, fun X y => ?_, fun s hs hne => ?_⟩
  · rw [polyWinding_times' hp, g2]
    exact if_congr (inResult_times hp S C ct fr X y).symm rfl rfl
  · rw [sides_times] at hs ⊢
    obtain ⟨t, ht, rfl⟩ := List.mem_map.1 hs
    exact List.mem_map_of_mem (g3 t ht (fun h => hne (by simp [Vec2.times, h])))

open Classical in
/-- **C92, crossing polygons.** Points of IEEE 754 doubles, finite and with the values of polygons on the grid whose sides cross only where doubles can tell,
added to a new processor and processed: no undefined behaviour, no endless loop, only finite numbers delivered, and at every point of the plane the
winding number of the polygons delivered is `σ` if the point belongs to the result and `0` if not. The sides delivered, other than horizontal
ones, are parts of given ones, between points of the grid. -/
theorem process_ieee_crossing (env : Env Dbl) (hok : env.Ok) (msort : List (LocMin Dbl) → List (LocMin Dbl)) (hm : MinSort msort)
    (subject clip : List (List (Vec2 Dbl))) (S C : List (List (Vec2 ℚ))) (hS : List.Forall₂ (List.Forall₂ Vec2.Is) subject S)
    (hC : List.Forall₂ (List.Forall₂ Vec2.Is) clip C) (G : CrossPolygons (S ++ C))
    (ct : ClipType) (fr : FillRule) (σ : Int) (hσ : σ = 1 ∨ σ = -1) (hO : Consistent S C ct fr σ) :
    ∃ c1 c2 : Clipper Dbl, (Clipper.new (K := Dbl)).addPath (subject.map (fun P => Path.build (polyCmds P))) .subject = some c1 ∧
      c1.addPath (clip.map (fun P => Path.build (polyCmds P))) .clip = some c2 ∧
      ∃ n, ∀ fuel, n ≤ fuel → ∃ (c' : Clipper Dbl) (es : List (Event Dbl)) (out : List (List (Vec2 ℚ))),
        c2.process env msort fuel ct fr Path.recorder [] = some (some (c', es)) ∧
        List.Forall₂ Event.Is es (out.flatMap (fun Q => eventsFrom ⟨0, 0⟩ (closedCmds Q))) ∧
        (∀ X y, polyWinding out X y = if InResult S C ct fr X y then σ else 0) ∧
        ∀ s ∈ out.flatMap polySides, s.1.y ≠ s.2.y → OnGrid s.1 ∧ OnGrid s.2 ∧
          ∃ t ∈ (S ++ C).flatMap polySides, OnSeg s.1 t.1 t.2 ∧ OnSeg s.2 t.1 t.2 := by
  obtain ⟨c1, c2, d1, d2, n, hn⟩ := process_ieee_crossing_scaled (e := 0) (by norm_num) env hok msort hm subject clip S C (by simpa [times_one] using hS)
    (by simpa [times_one] using hC) G ct fr σ hσ hO
  refine ⟨c1, c2, d1, d2, n, fun fuel hf => ?_⟩
  obtain ⟨c', es, out, k1, k2, k3, k4⟩ := hn fuel hf
  simp only [zpow_zero, times_one] at k3 k4
  refine ⟨c', es, out, k1, k2, k3, fun s hs hne => ?_⟩
  obtain ⟨⟨a, b, ha, hb, hab⟩, k5⟩ := k4 s hs hne
  have h1 : Vec2.times 1 = id := by funext p; simp [Vec2.times]
  simp only [zpow_zero, h1, id_eq] at hab
  subst hab
  exact ⟨ha, hb, k5⟩

open Classical in
/-- **C92, polygons that do not cross.** Likewise for polygons on the grid whose sides meet at most in corners: the sides delivered, other than
horizontal ones, are given ones. -/
theorem process_ieee (env : Env Dbl) (hok : env.Ok) (msort : List (LocMin Dbl) → List (LocMin Dbl)) (hm : MinSort msort)
    (subject clip : List (List (Vec2 Dbl))) (S C : List (List (Vec2 ℚ))) (hS : List.Forall₂ (List.Forall₂ Vec2.Is) subject S)
    (hC : List.Forall₂ (List.Forall₂ Vec2.Is) clip C) (G : GridPolygons (S ++ C))
    (ct : ClipType) (fr : FillRule) (σ : Int) (hσ : σ = 1 ∨ σ = -1) (hO : Consistent S C ct fr σ) :
    ∃ c1 c2 : Clipper Dbl, (Clipper.new (K := Dbl)).addPath (subject.map (fun P => Path.build (polyCmds P))) .subject = some c1 ∧
      c1.addPath (clip.map (fun P => Path.build (polyCmds P))) .clip = some c2 ∧
      ∃ n, ∀ fuel, n ≤ fuel → ∃ (c' : Clipper Dbl) (es : List (Event Dbl)) (out : List (List (Vec2 ℚ))),
        c2.process env msort fuel ct fr Path.recorder [] = some (some (c', es)) ∧
        List.Forall₂ Event.Is es (out.flatMap (fun Q => eventsFrom ⟨0, 0⟩ (closedCmds Q))) ∧
        (∀ X y, polyWinding out X y = if InResult S C ct fr X y then σ else 0) ∧
        ∀ s ∈ out.flatMap polySides, s.1.y ≠ s.2.y → s ∈ (S ++ C).flatMap polySides := by
  obtain ⟨c1, c2, d1, d2, n, hn⟩ := process_ieee_scaled (e := 0) (by norm_num) env hok msort hm subject clip S C (by simpa [times_one] using hS)
    (by simpa [times_one] using hC) G ct fr σ hσ hO
  refine ⟨c1, c2, d1, d2, n, fun fuel hf => ?_⟩
  obtain ⟨c', es, out, k1, k2, k3, k4⟩ := hn fuel hf
  simp only [zpow_zero, times_one] at k3 k4
  exact ⟨c', es, out, k1, k2, k3, k4⟩

open Classical in
/-- **C92, rectangles.** Likewise for the union and the intersection of `2 ^ e` times rectangles with whole coordinates of at most 32768 in magnitude, with
widths and heights that are powers of two, and without overlapping sides. -/
theorem process_ieee_tiles_scaled (he : -100 ≤ e ∧ e ≤ 100) (env : Env Dbl) (hok : env.Ok) (msort : List (LocMin Dbl) → List (LocMin Dbl)) (hm : MinSort msort) (R S : List (Tile ℤ))
    (h : ∀ r ∈ R ++ S, r.Dyadic) (ha : (R ++ S).Pairwise Tile.Apart) (subject clip : List (List (Vec2 Dbl)))
    (hS : List.Forall₂ (List.Forall₂ Vec2.Is) subject (timesAll (2 ^ e) (R.map (fun r => (r.cast : Tile ℚ).corners))))
    (hC : List.Forall₂ (List.Forall₂ Vec2.Is) clip (timesAll (2 ^ e) (S.map (fun r => (r.cast : Tile ℚ).corners))))
    (ct : ClipType) (fr : FillRule) (hct : ct = .union ∨ ct = .intersection) (hfr : fr = .positive ∨ fr = .nonZero) :
    ∃ c1 c2 : Clipper Dbl, (Clipper.new (K := Dbl)).addPath (subject.map (fun P => Path.build (polyCmds P))) .subject = some c1 ∧
      c1.addPath (clip.map (fun P => Path.build (polyCmds P))) .clip = some c2 ∧
      ∃ n, ∀ fuel, n ≤ fuel → ∃ (c' : Clipper Dbl) (es : List (Event Dbl)) (out : List (List (Vec2 ℚ))),
        c2.process env msort fuel ct fr Path.recorder [] = some (some (c', es)) ∧
        List.Forall₂ Event.Is es (out.flatMap (fun Q => eventsFrom ⟨0, 0⟩ (closedCmds Q))) ∧
        (∀ X y, polyWinding out X y = if InTiles ct (R.map (Tile.cast (K := ℚ))) (S.map Tile.cast) (X / 2 ^ e) (y / 2 ^ e) then 1 else 0) ∧
        ∀ s ∈ out.flatMap polySides, s.1.y ≠ s.2.y → ∃ a b, OnGrid a ∧ OnGrid b ∧ s = (a.times (2 ^ e), b.times (2 ^ e)) := by
  have hp : ∀ r ∈ R.map (Tile.cast (K := ℚ)) ++ S.map Tile.cast, r.Proper := by
    rw [← List.map_append]
    exact (Tile.Whole.clear (fun r hr => (h r hr).whole)).proper
  have G : CrossPolygons ((R.map (Tile.cast (K := ℚ))).map Tile.corners ++ (S.map (Tile.cast (K := ℚ))).map Tile.corners) := by
    rw [← List.map_append, ← List.map_append]; exact dyadic_cross h ha
  obtain ⟨c1, c2, h1, h2, n, hn⟩ := process_ieee_crossing_scaled he env hok msort hm subject clip _ _ (by rw [List.map_map]; exact hS) (by rw [List.map_map]; exact hC)
    G ct fr 1 (Or.inl rfl) (tiles_consistent hp hct hfr)
  refine ⟨c1, c2, h1, h2, n, fun fuel hf => ?_⟩
  obtain ⟨c', es, out, h3, h3', h4, h5⟩ := hn fuel hf
  refine ⟨c', es, out, h3, h3', fun X y => ?_, fun s hs hf => (h5 s hs hf).1⟩
  rw [h4]
  exact if_congr ((inResult_times (by positivity) _ _ ct fr X y).trans (inResult_tiles hp hct hfr _ _)) rfl rfl

open Classical in
/-- **C92, rectangles.** Likewise for the union and the intersection of rectangles with whole coordinates of at most 32768 in magnitude, with widths and
heights that are powers of two, and without overlapping sides. -/
theorem process_ieee_tiles (env : Env Dbl) (hok : env.Ok) (msort : List (LocMin Dbl) → List (LocMin Dbl)) (hm : MinSort msort) (R S : List (Tile ℤ))
    (h : ∀ r ∈ R ++ S, r.Dyadic) (ha : (R ++ S).Pairwise Tile.Apart) (subject clip : List (List (Vec2 Dbl)))
    (hS : List.Forall₂ (List.Forall₂ Vec2.Is) subject (R.map (fun r => (r.cast : Tile ℚ).corners)))
    (hC : List.Forall₂ (List.Forall₂ Vec2.Is) clip (S.map (fun r => (r.cast : Tile ℚ).corners)))
    (ct : ClipType) (fr : FillRule) (hct : ct = .union ∨ ct = .intersection) (hfr : fr = .positive ∨ fr = .nonZero) :
    ∃ c1 c2 : Clipper Dbl, (Clipper.new (K := Dbl)).addPath (subject.map (fun P => Path.build (polyCmds P))) .subject = some c1 ∧
      c1.addPath (clip.map (fun P => Path.build (polyCmds P))) .clip = some c2 ∧
      ∃ n, ∀ fuel, n ≤ fuel → ∃ (c' : Clipper Dbl) (es : List (Event Dbl)) (out : List (List (Vec2 ℚ))),
        c2.process env msort fuel ct fr Path.recorder [] = some (some (c', es)) ∧
        List.Forall₂ Event.Is es (out.flatMap (fun Q => eventsFrom ⟨0, 0⟩ (closedCmds Q))) ∧
        (∀ X y, polyWinding out X y = if InTiles ct (R.map (Tile.cast (K := ℚ))) (S.map Tile.cast) X y then 1 else 0) ∧
        ∀ s ∈ out.flatMap polySides, s.1.y ≠ s.2.y → OnGrid s.1 ∧ OnGrid s.2 := by
  have hp : ∀ r ∈ R.map (Tile.cast (K := ℚ)) ++ S.map Tile.cast, r.Proper := by
    rw [← List.map_append]
    exact (Tile.Whole.clear (fun r hr => (h r hr).whole)).proper
  have G : CrossPolygons ((R.map (Tile.cast (K := ℚ))).map Tile.corners ++ (S.map (Tile.cast (K := ℚ))).map Tile.corners) := by
    rw [← List.map_append, ← List.map_append]; exact dyadic_cross h ha
  obtain ⟨c1, c2, h1, h2, n, hn⟩ := process_ieee_crossing env hok msort hm subject clip _ _ (by rw [List.map_map]; exact hS) (by rw [List.map_map]; exact hC)
    G ct fr 1 (Or.inl rfl) (tiles_consistent hp hct hfr)
  refine ⟨c1, c2, h1, h2, n, fun fuel hf => ?_⟩
  obtain ⟨c', es, out, h3, h3', h4, h5⟩ := hn fuel hf
  refine ⟨c', es, out, h3, h3', fun X y => ?_, fun s hs hf => ⟨(h5 s hs hf).1, (h5 s hs hf).2.1⟩⟩
  rw [h4]
  exact if_congr (inResult_tiles hp hct hfr X y) rfl rfl

end River
