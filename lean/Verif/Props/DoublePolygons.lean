import Verif.Lemmas.DoubleArrange
import Verif.Props.Polygons

/-! # C75: polygons on a grid that do not cross, with doubles

With doubles instead of exact arithmetic crossing polygons are not safe (`doubles_rectangles_ub`). Polygons whose corners have whole
coordinates between -32768 and 32768, and whose sides meet at most in corners, are: all that is computed about them is exact or exact enough to
take every decision as in exact arithmetic. -/

namespace River

/-- A point whose coordinates are stored in doubles. -/
def toR64 (p : Vec2 ℚ) : Vec2 R64 := ⟨R64.of p.x, R64.of p.y⟩

/-- Polygons in general position with corners on the grid (`OnGrid`: whole coordinates, at most 32768 in magnitude), whose sides meet
only in common ends. -/
structure GridPolygons (Ps : List (List (Vec2 ℚ))) : Prop where
  general : GeneralPolygons Ps
  grid : ∀ P ∈ Ps, ∀ p ∈ P, OnGrid p
  ends : (Ps.flatMap polySides).Pairwise (fun s t => ∀ p, OnSeg p s.1 s.2 → OnSeg p t.1 t.2 → (p = s.1 ∨ p = s.2) ∧ (p = t.1 ∨ p = t.2))

theorem map_toR64 (l : List (Vec2 ℚ)) : l.map toR64 = l := (List.map_congr_left (fun _ _ => rfl)).trans (List.map_id (α := Vec2 ℚ) l)

theorem GridPolygons.rings {L : List (PathType × List (Vec2 ℚ))} {rings : List (Ring ℚ)} (hS : StoresAll L rings) (G : GridPolygons (L.map Prod.snd)) :
    GridRings rings := by
  refine ⟨hS.general G.general, ?_, ?_⟩
  · intro s hs
    obtain ⟨q, hq, e1, e2⟩ := hS.side hs
    rw [e1, e2]
    obtain ⟨P, hP, hq⟩ := List.mem_flatMap.1 hq
    unfold polySides at hq
    have := List.of_mem_zip hq
    exact ⟨G.grid P hP _ this.1, G.grid P hP _ (List.mem_rotate.1 this.2)⟩
  · exact hS.pairwise (R := fun s t => ∀ p, OnSeg p s.1 s.2 → OnSeg p t.1 t.2 → (p = s.1 ∨ p = s.2) ∧ (p = t.1 ∨ p = t.2))
      (fun x y h p h1 h2 => (h p h2 h1).symm) G.ends

section
variable {K : Type} [FTrans K] [LinearOrder K] [LawfulOrd K]
attribute [local instance 10000] FTrans.toFNum

/-- Adding polygons to a new processor, whatever the arithmetic. -/
theorem polygons_added (env : Env K) (subject clip : List (List (Vec2 K))) (turn : ∀ P ∈ subject ++ clip, ∃ p ∈ P, ∃ q ∈ P, p.y ≠ q.y)
    (proper : ∀ s ∈ (subject ++ clip).flatMap polySides, s.1 ≠ s.2) :
    ∃ c1 c2 : Clipper K, (Clipper.new (K := K)).addPath (subject.map (fun P => Path.build (polyCmds P))) .subject = some c1 ∧
      c1.addPath (clip.map (fun P => Path.build (polyCmds P))) .clip = some c2 ∧ c2.Reach env ∧ c2.out.polys = [] ∧
      StoresAll (subject.map (fun P => (.subject, P)) ++ clip.map (fun P => (.clip, P))) c2.rings := by
  have hl1 : ∀ s ∈ subject.flatMap polySides, s.1 ≠ s.2 :=
    fun s hs => proper s (by rw [List.flatMap_append]; exact List.mem_append_left _ hs)
  have hl2 : ∀ s ∈ clip.flatMap polySides, s.1 ≠ s.2 :=
    fun s hs => proper s (by rw [List.flatMap_append]; exact List.mem_append_right _ hs)
  obtain ⟨rs1, a1, a2⟩ := addPolygons .subject subject (fun P hP => turn P (List.mem_append_left _ hP)) hl1 []
  obtain ⟨rs2, b1, b2⟩ := addPolygons .clip clip (fun P hP => turn P (List.mem_append_right _ hP)) hl2 rs1
  rw [List.nil_append] at a1
  have c1e : (Clipper.new (K := K)).addPath (subject.map (fun P => Path.build (polyCmds P))) .subject = some { Clipper.new (K := K) with rings := rs1 } := by
    unfold Clipper.addPath; rw [show (Clipper.new (K := K)).rings = [] from rfl, a1]; rfl
  have c2e : ({ Clipper.new (K := K) with rings := rs1 } : Clipper K).addPath (clip.map (fun P => Path.build (polyCmds P))) .clip =
      some { Clipper.new (K := K) with rings := rs1 ++ rs2 } := by
    unfold Clipper.addPath; rw [show ({ Clipper.new (K := K) with rings := rs1 } : Clipper K).rings = rs1 from rfl, b1]; rfl
  have r1 : Clipper.Reach env { Clipper.new (K := K) with rings := rs1 } := by
    refine Clipper.Reach.addPath (subject.map polyCmds) .subject Clipper.Reach.new ?_
    rw [List.map_map]; exact c1e
  have r2 : Clipper.Reach env { Clipper.new (K := K) with rings := rs1 ++ rs2 } := by
    refine Clipper.Reach.addPath (clip.map polyCmds) .clip r1 ?_
    rw [List.map_map]; exact c2e
  exact ⟨_, _, c1e, c2e, r2, rfl, List.rel_append a2 b2⟩

end

attribute [local instance] gridAbsc in
open Classical in
/-- Polygons whose sides are broken into sides on the grid that meet at most in ends: what is delivered. -/
theorem process_grid (env : Env R64) (hok : env.Ok) (msort : List (LocMin R64) → List (LocMin R64)) (hm : MinSort msort)
    (subject clip : List (List (Vec2 ℚ))) (G : GeneralPolygons (subject ++ clip)) (Q : Vec2 ℚ × Vec2 ℚ → Prop)
    (hB : ∀ rings : List (Ring ℚ), StoresAll (subject.map (fun P => (.subject, P)) ++ clip.map (fun P => (.clip, P))) rings →
      ∃ rings' : List (Ring ℚ), processIntersect (K := R64) env rings = some rings' ∧ GridArranged rings' ∧
        (∀ t X y, wnS t ((sides rings').filter (fun s => decide (s.Above y ∧ s.x y < X))) = wnS t ((sides rings).filter (fun s => decide (s.Above y ∧ s.x y < X)))) ∧
        (∀ W ct fr σ, ConsistentR rings W ct fr σ → ConsistentR rings' W ct fr σ) ∧ ∀ s ∈ sides rings', Q (s.frm, s.seg.target))
    (ct : ClipType) (fr : FillRule) (σ : Int) (hσ : σ = 1 ∨ σ = -1) (hO : Consistent subject clip ct fr σ) :
    ∃ c1 c2 : Clipper R64, (Clipper.new (K := R64)).addPath (subject.map (fun P => Path.build (polyCmds (P.map toR64)))) .subject = some c1 ∧
      c1.addPath (clip.map (fun P => Path.build (polyCmds (P.map toR64)))) .clip = some c2 ∧
      ∃ n, ∀ fuel, n ≤ fuel → ∃ (c' : Clipper R64) (out : List (List (Vec2 ℚ))),
        c2.process env msort fuel ct fr Path.recorder [] = some (some (c', out.flatMap (fun Q => eventsFrom zeroPt (closedCmds (Q.map toR64))))) ∧
        (∀ X y, polyWinding out X y = if InResult subject clip ct fr X y then σ else 0) ∧
        ∀ s ∈ out.flatMap polySides, s.1.y ≠ s.2.y → Q s := by
  simp only [map_toR64]
  obtain ⟨c1, c2, c1e, c2e, r2, hnew, hS0⟩ := polygons_added (K := R64) env subject clip G.turn G.proper
  refine ⟨c1, c2, c1e, c2e, ?_⟩
  -- seen with exact arithmetic
  obtain ⟨rings, hrings⟩ : ∃ rings : List (Ring ℚ), rings = c2.rings := ⟨_, rfl⟩
  obtain ⟨L, hL⟩ : ∃ L : List (PathType × List (Vec2 ℚ)), L = subject.map (fun P => (.subject, P)) ++ clip.map (fun P => (.clip, P)) := ⟨_, rfl⟩
  have hS : StoresAll L rings := by rw [hL, hrings]; exact hS0
  have hLs : L.map Prod.snd = subject ++ clip := by rw [hL, List.map_append, List.map_map, List.map_map]; simp [Function.comp_def]
  have hf1 : (L.filter (fun p => decide (p.1 = .subject))).map Prod.snd = subject := by
    rw [hL, List.filter_append, List.filter_map, List.filter_map]
    simp [Function.comp_def]
  have hf2 : (L.filter (fun p => decide (p.1 = .clip))).map Prod.snd = clip := by
    rw [hL, List.filter_append, List.filter_map, List.filter_map]
    simp [Function.comp_def]
  obtain ⟨W, hWd⟩ : ∃ W : PathType → ℚ → ℚ → Int, W = fun t X y => polyWinding ((L.filter (fun p => decide (p.1 = t))).map Prod.snd) X y := ⟨_, rfl⟩
  have w1 : ∀ X y, W .subject X y = polyWinding subject X y := fun X y => by rw [hWd]; simp only [hf1]
  have w2 : ∀ X y, W .clip X y = polyWinding clip X y := fun X y => by rw [hWd]; simp only [hf2]
  have hW : ∀ t X y, wnS t ((sides rings).filter (fun s => decide (s.Above y ∧ s.x y < X))) = W t X y := fun t X y => by rw [hS.winding, hWd]
  have hC : ConsistentR rings W ct fr σ := by
    rcases hO with ⟨h1, h2⟩ | ⟨εs, εc, h1, h2, h3⟩
    · refine Or.inl ⟨hS.apart (hLs ▸ h1), fun X y X' y' h => ?_⟩
      rw [w1, w1, w2, w2] at h ⊢
      exact h2 X y X' y' h
    · refine Or.inr ⟨εs, εc, hS.signed ?_, hS.signed ?_, h3⟩
      · intro p hp ht
        rw [hL, List.mem_append] at hp
        rcases hp with hp | hp
        · obtain ⟨P, hP, rfl⟩ := List.mem_map.1 hp
          exact h1 P hP
        · obtain ⟨P, hP, rfl⟩ := List.mem_map.1 hp
          exact absurd ht (by simp)
      · intro p hp ht
        rw [hL, List.mem_append] at hp
        rcases hp with hp | hp
        · obtain ⟨P, hP, rfl⟩ := List.mem_map.1 hp
          exact absurd ht (by simp)
        · obtain ⟨P, hP, rfl⟩ := List.mem_map.1 hp
          exact h2 P hP
  obtain ⟨rings', hpi, hG, hwn, hcon, hQ⟩ := hB rings (by rw [← hL]; exact hS)
  have hW' : ∀ t X y, wnS t ((sides rings').filter (fun s => decide (s.Above y ∧ s.x y < X))) = W t X y := fun t X y => by rw [hwn, hW]
  have A := hG.arrangedQ
  have D := (hcon _ _ _ _ hC).directed A hG.general.straight hW' hσ
  have hp : processIntersect env c2.rings = some (rings' : List (Ring R64)) := by
    rw [hrings] at hpi
    exact hpi
  obtain ⟨n, hn⟩ := process_boundary (K := R64) env hok msort hm c2 r2 hnew hp hG.arranged64 ct fr σ hσ (hG.directed64 D)
  refine ⟨n, fun fuel hf => ?_⟩
  obtain ⟨c', es0, h1, h2, Bd0, H0, hBd0, hH0, h3⟩ := hn fuel hf
  obtain ⟨es, hes⟩ : ∃ es : List (List (Event ℚ)), es = es0 := ⟨_, rfl⟩
  obtain ⟨Bd, hBde⟩ : ∃ Bd : List (Side ℚ), Bd = Bd0 := ⟨_, rfl⟩
  obtain ⟨H, hHe⟩ : ∃ H : List (Vec2 ℚ × Seg ℚ), H = H0 := ⟨_, rfl⟩
  have hBd : Outline rings' ct fr σ Bd := hG.outline (by rw [hBde]; exact hBd0)
  have hlv : ∀ p ∈ H, ∃ y, Level y p := by
    intro p hp
    rw [hHe] at hp
    exact hH0.level p (Multiset.mem_coe.2 hp)
  have h3 : (drawn es.flatten).Perm (Bd.map Side.event ++ H.map pieceEvent) := by rw [hes, hBde, hHe]; exact h3
  have hreg : ∀ X y, windingAt es.flatten X y = if ct.op (fr.inside (W .subject X y)) (fr.inside (W .clip X y)) then σ else 0 := by
    intro X y
    rw [boundary_region A hσ hBd hlv h3 X y]
    unfold PointIn inResultS
    rw [hW', hW']
  have hdr : ∀ e ∈ drawn es.flatten, ∃ q, e.cmd = .lineto q := by
    intro e he
    rcases List.mem_append.1 (h3.mem_iff.1 he) with he | he
    · obtain ⟨s, hs, rfl⟩ := List.mem_map.1 he
      have hstr := hG.general.straight s (hBd.mem s hs).1
      unfold Side.Straight at hstr
      unfold Side.event
      rw [hstr]
      exact ⟨_, rfl⟩
    · obtain ⟨p, hp, rfl⟩ := List.mem_map.1 he
      obtain ⟨_, _, _, _, rfl⟩ := hlv p hp
      exact ⟨_, rfl⟩
  have hz : (zeroPt : Vec2 ℚ) = (zeroPt : Vec2 R64) := by
    have h0 : (rndSigned 0 : ℚ) = 0 := rndSigned_zero
    change (⟨(0 : ℚ), (0 : ℚ)⟩ : Vec2 ℚ) = ⟨rndSigned 0, rndSigned 0⟩
    rw [h0]
  have h2 : ∀ x ∈ es, IsContour zeroPt x ∧ ClosedContour x := by
    rw [hz, hes]; exact h2
  obtain ⟨out, o1, o3, o2⟩ := contours_polygons es h2 hdr
  refine ⟨c', out, ?_, fun X y => ?_, ?_⟩
  · refine h1.trans (congrArg (fun l => some (some (c', l))) ?_)
    have o1' : es.flatten = out.flatMap (fun Q => eventsFrom (zeroPt : Vec2 R64) (closedCmds Q)) := by rw [o1, hz]; rfl
    rw [hes] at o1'
    exact o1'
  · rw [o2, hreg, w1, w2]; rfl
  · intro s hs hsy
    rw [← o3] at hs
    obtain ⟨e, he, rfl⟩ := List.mem_map.1 hs
    rcases List.mem_append.1 (h3.mem_iff.1 he) with he | he
    · obtain ⟨t, ht, rfl⟩ := List.mem_map.1 he
      have hm := (hBd.mem t ht).1
      have hstr := hG.general.straight t hm
      unfold Side.Straight at hstr
      have : (t.event.source, t.event.cmd.target) = (t.frm, t.seg.target) := by
        unfold Side.event
        rw [hstr]
        rfl
      rw [this]; exact hQ t hm
    · obtain ⟨p, hp, rfl⟩ := List.mem_map.1 he
      obtain ⟨_, _, _, _, rfl⟩ := hlv p hp
      exact absurd rfl hsy

attribute [local instance] gridAbsc in
open Classical in
/-- **C75, for polygons that do not cross.** Polygons with corners on the grid, whose sides meet at most in corners, added to a new processor
and processed with doubles: no undefined behaviour, no endless loop, and at every point of the plane the winding number of the polygons delivered is
`σ` if the point belongs to the result and `0` if not. The sides delivered, other than horizontal ones, are given ones, not moved at all. -/
theorem process_doubles (env : Env R64) (hok : env.Ok) (msort : List (LocMin R64) → List (LocMin R64)) (hm : MinSort msort)
    (subject clip : List (List (Vec2 ℚ))) (G : GridPolygons (subject ++ clip))
    (ct : ClipType) (fr : FillRule) (σ : Int) (hσ : σ = 1 ∨ σ = -1) (hO : Consistent subject clip ct fr σ) :
    ∃ c1 c2 : Clipper R64, (Clipper.new (K := R64)).addPath (subject.map (fun P => Path.build (polyCmds (P.map toR64)))) .subject = some c1 ∧
      c1.addPath (clip.map (fun P => Path.build (polyCmds (P.map toR64)))) .clip = some c2 ∧
      ∃ n, ∀ fuel, n ≤ fuel → ∃ (c' : Clipper R64) (out : List (List (Vec2 ℚ))),
        c2.process env msort fuel ct fr Path.recorder [] = some (some (c', out.flatMap (fun Q => eventsFrom zeroPt (closedCmds (Q.map toR64))))) ∧
        (∀ X y, polyWinding out X y = if InResult subject clip ct fr X y then σ else 0) ∧
        ∀ s ∈ out.flatMap polySides, s.1.y ≠ s.2.y → s ∈ (subject ++ clip).flatMap polySides := by
  refine process_grid env hok msort hm subject clip G.general (· ∈ (subject ++ clip).flatMap polySides) ?_ ct fr σ hσ hO
  intro rings hS
  obtain ⟨L, hL⟩ : ∃ L : List (PathType × List (Vec2 ℚ)), L = subject.map (fun P => (.subject, P)) ++ clip.map (fun P => (.clip, P)) := ⟨_, rfl⟩
  rw [← hL] at hS
  have hLs : L.map Prod.snd = subject ++ clip := by rw [hL, List.map_append, List.map_map, List.map_map]; simp [Function.comp_def]
  have hG : GridRings rings := GridPolygons.rings hS (hLs ▸ G)
  refine ⟨rings, processIntersect64 hG env hok, hG.arranged, fun _ _ _ => rfl, fun _ _ _ _ h => h, fun s hs => ?_⟩
  obtain ⟨q, hq, e1, e2⟩ := hS.side hs
  rw [hLs] at hq
  have : (s.frm, s.seg.target) = q := by
    rw [e2]
    exact Prod.ext e1 rfl
  rw [this]; exact hq

end River
