import Verif.Lemmas.DoubleCross
import Verif.Props.DoublePolygons
import Verif.Props.DoublePolygonsDemo

/-! # C79: polygons on a grid that cross, with doubles

Crossing polygons are not safe with doubles (`doubles_rectangles_ub`), because a point where two sides cross is in general moved a little. Where the
sides cross in points of the grid, in positions that the code computes without an error, nothing is moved, and the result is as in exact
arithmetic. A sufficient condition is that the parallelogram of the two sides has an area that is a power of two. -/

namespace River

/-- Polygons in general position with corners on the grid (`OnGrid`: whole coordinates, at most 32768 in magnitude). Two sides have no points in
common other than ends of both, or they cross where doubles can tell (`ExactMeet`). -/
structure CrossPolygons (Ps : List (List (Vec2 ℚ))) : Prop where
  general : GeneralPolygons Ps
  grid : ∀ P ∈ Ps, ∀ p ∈ P, OnGrid p
  meets : (Ps.flatMap polySides).Pairwise (fun s t => (∀ p, OnSeg p s.1 s.2 → OnSeg p t.1 t.2 → (p = s.1 ∨ p = s.2) ∧ (p = t.1 ∨ p = t.2)) ∨ ExactMeet s t)

theorem CrossPolygons.rings {L : List (PathType × List (Vec2 ℚ))} {rings : List (Ring ℚ)} (hS : StoresAll L rings) (G : CrossPolygons (L.map Prod.snd)) :
    CrossRings rings := by
  refine ⟨hS.general G.general, ?_, ?_⟩
  · intro s hs
    obtain ⟨q, hq, e1, e2⟩ := hS.side hs
    rw [e1, e2]
    obtain ⟨P, hP, hq⟩ := List.mem_flatMap.1 hq
    unfold polySides at hq
    have := List.of_mem_zip hq
    exact ⟨G.grid P hP _ this.1, G.grid P hP _ (List.mem_rotate.1 this.2)⟩
  · exact hS.pairwise (R := fun s t => (∀ p, OnSeg p s.1 s.2 → OnSeg p t.1 t.2 → (p = s.1 ∨ p = s.2) ∧ (p = t.1 ∨ p = t.2)) ∨ ExactMeet s t)
      (fun x y h => h.imp (fun h p h1 h2 => (h p h2 h1).symm) ExactMeet.symm) G.meets

open Classical in
/-- **C79.** Polygons with corners on the grid whose sides cross only where doubles can tell, added to a new processor and processed with doubles: no
undefined behaviour, no endless loop, and at every point of the plane the winding number of the polygons delivered is `σ` if the point belongs to the
result and `0` if not. The sides delivered, other than horizontal ones, are parts of given ones, between points of the grid. -/
theorem process_doubles_crossing (env : Env R64) (hok : env.Ok) (msort : List (LocMin R64) → List (LocMin R64)) (hm : MinSort msort)
    (subject clip : List (List (Vec2 ℚ))) (G : CrossPolygons (subject ++ clip))
    (ct : ClipType) (fr : FillRule) (σ : Int) (hσ : σ = 1 ∨ σ = -1) (hO : Consistent subject clip ct fr σ) :
    ∃ c1 c2 : Clipper R64, (Clipper.new (K := R64)).addPath (subject.map (fun P => Path.build (polyCmds (P.map toR64)))) .subject = some c1 ∧
      c1.addPath (clip.map (fun P => Path.build (polyCmds (P.map toR64)))) .clip = some c2 ∧
      ∃ n, ∀ fuel, n ≤ fuel → ∃ (c' : Clipper R64) (out : List (List (Vec2 ℚ))),
        c2.process env msort fuel ct fr Path.recorder [] = some (some (c', out.flatMap (fun Q => eventsFrom zeroPt (closedCmds (Q.map toR64))))) ∧
        (∀ X y, polyWinding out X y = if InResult subject clip ct fr X y then σ else 0) ∧
        ∀ s ∈ out.flatMap polySides, s.1.y ≠ s.2.y → OnGrid s.1 ∧ OnGrid s.2 ∧
          ∃ t ∈ (subject ++ clip).flatMap polySides, OnSeg s.1 t.1 t.2 ∧ OnSeg s.2 t.1 t.2 := by
  obtain ⟨c1, c2, h1, h2, n, hn⟩ := process_grid env hok msort hm subject clip G.general
    (fun s => OnGrid s.1 ∧ OnGrid s.2 ∧ ∃ t ∈ (subject ++ clip).flatMap polySides, OnSeg s.1 t.1 t.2 ∧ OnSeg s.2 t.1 t.2) (by
      intro rings hS
      obtain ⟨L, hL⟩ : ∃ L : List (PathType × List (Vec2 ℚ)), L = subject.map (fun P => (.subject, P)) ++ clip.map (fun P => (.clip, P)) := ⟨_, rfl⟩
      rw [← hL] at hS
      have hLs : L.map Prod.snd = subject ++ clip := by rw [hL, List.map_append, List.map_map, List.map_map]; simp [Function.comp_def]
      have hC : CrossRings rings := CrossPolygons.rings hS (hLs ▸ G)
      have hN := hC.general.nodesOk
      obtain ⟨rings', hp, hA, B⟩ := processIntersect_cross hC env hok
      refine ⟨rings', hp, hA, fun t X y => ?_, fun W ct fr σ h => B.consistent hN h, ?_⟩
      · have := B.wnS hN t X y
        convert this
      intro s hs
      refine ⟨(hA.grid s hs).1, (hA.grid s hs).2, ?_⟩
      have hm : (s.frm, s.seg) ∈ (allNodes rings').map (fun v => (v.pt, v.seg)) := by
        rw [← sides_geo]; exact List.mem_map.2 ⟨s, hs, rfl⟩
      obtain ⟨w, hw, e⟩ := List.mem_map.1 hm
      have e1 : w.pt = s.frm := congrArg Prod.fst e
      have e2 : w.seg = s.seg := congrArg Prod.snd e
      obtain ⟨v, hv, a, b, hsp, ha, hb⟩ := B.knots w hw
      obtain ⟨i, hi⟩ := List.getElem?_of_mem hv
      obtain ⟨t, ht, f1, f2⟩ := vtx_side (K := ℚ) (rings := rings) hi
      obtain ⟨q, hq, g1, g2⟩ := hS.side (List.mem_of_getElem? ht)
      rw [hLs] at hq
      refine ⟨q, hq, ?_⟩
      have k1 : q.1 = v.pt := g1.symm.trans f1
      have k2 : q.2 = v.seg.target := by rw [← f2, g2]; rfl
      rw [k1, k2, ← e1, ← e2]
      have hl := hsp.low
      have hh := hsp.high
      have hab := hsp.lt
      refine ⟨⟨a, hl, hab.le.trans hh, hsp.pt⟩, ⟨b, hl.trans hab.le, hh, ?_⟩⟩
      rw [hsp.seg]; rfl) ct fr σ hσ hO
  exact ⟨c1, c2, h1, h2, n, hn⟩

/-! ## a sufficient condition -/

/-- Sides between grid points whose parallelogram has an area that is a power of two, and that have no points in common outside the grid. -/
theorem exactMeet_dyadic {s t : Vec2 ℚ × Vec2 ℚ} (s1 : OnGrid s.1) (s2 : OnGrid s.2) (t1 : OnGrid t.1) (t2 : OnGrid t.2) {k : ℕ}
    (hk : |crossProd (segDir s) (segDir t)| = 2 ^ k) (hg : ∀ p, OnSeg p s.1 s.2 → OnSeg p t.1 t.2 → OnGrid p) : ExactMeet s t := by
  obtain ⟨⟨sx, sy⟩, ⟨ux, uy⟩⟩ := s
  obtain ⟨⟨tx, ty⟩, ⟨vx, vy⟩⟩ := t
  obtain ⟨a, b, ha, hb, e1⟩ := s1
  obtain ⟨c, d, hc, hd, e2⟩ := s2
  obtain ⟨e, f, he, hf, e3⟩ := t1
  obtain ⟨g, h, hg', hh, e4⟩ := t2
  simp only [Vec2.mk.injEq] at e1 e2 e3 e4
  obtain ⟨rfl, rfl⟩ := e1
  obtain ⟨rfl, rfl⟩ := e2
  obtain ⟨rfl, rfl⟩ := e3
  obtain ⟨rfl, rfl⟩ := e4
  have sm : ∀ {x y : ℤ}, |x| ≤ 2 ^ 15 → |y| ≤ 2 ^ 15 → |x - y| ≤ 2 ^ 16 := fun hx hy => (abs_sub _ _).trans ((add_le_add hx hy).trans (by norm_num))
  have pr : ∀ {x y z w : ℤ}, |x| ≤ 2 ^ 16 → |y| ≤ 2 ^ 16 → |z| ≤ 2 ^ 16 → |w| ≤ 2 ^ 16 → |x * y - z * w| < 2 ^ 53 ∧ |x * y - z * w| ≤ 2 ^ 33 := by
    intro x y z w hx hy hz hw
    have : |x * y - z * w| ≤ 2 ^ 33 := by
      refine (abs_sub _ _).trans ?_
      rw [abs_mul, abs_mul]
      calc |x| * |y| + |z| * |w| ≤ 2 ^ 16 * 2 ^ 16 + 2 ^ 16 * 2 ^ 16 := by gcongr
        _ = 2 ^ 33 := by norm_num
    exact ⟨this.trans_lt (by norm_num), this⟩
  have hk' : k ≤ 1000 := by
    have h1 := (pr (sm hc ha) (sm hh hf) (sm hd hb) (sm hg' he)).2
    have h2 : |crossProd (segDir ((⟨(a : ℚ), (b : ℚ)⟩ : Vec2 ℚ), (⟨(c : ℚ), (d : ℚ)⟩ : Vec2 ℚ))) (segDir ((⟨(e : ℚ), (f : ℚ)⟩ : Vec2 ℚ), (⟨(g : ℚ), (h : ℚ)⟩ : Vec2 ℚ)))| ≤ 2 ^ 33 := by
      simp only [crossProd, segDir]
      exact_mod_cast h1
    rw [hk] at h2
    have := (pow_le_pow_iff_right₀ (by norm_num : (1 : ℚ) < 2)).1 h2
    omega
  refine ⟨?_, ?_, ?_, hg⟩
  · intro h0
    rw [h0, abs_zero] at hk
    exact absurd hk (by positivity)
  · have := quot64_dyadic (n := (g - e) * (b - f) - (h - f) * (a - e)) (pr (sm hg' he) (sm hb hf) (sm hh hf) (sm ha he)).1 hk' hk
    unfold meetNum
    unfold crossProd segDir at this ⊢
    push_cast at this
    exact this
  · rw [crossProd_swap, abs_neg] at hk
    have := quot64_dyadic (n := (c - a) * (f - b) - (d - b) * (e - a)) (pr (sm hc ha) (sm hf hb) (sm hd hb) (sm he ha)).1 hk' hk
    unfold meetNum
    unfold crossProd segDir at this ⊢
    push_cast at this
    exact this

end River
