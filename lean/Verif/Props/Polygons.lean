import Verif.Lemmas.Consistent
import Verif.Props.Region
import Verif.Lemmas.Traced

/-! # C59: from polygons to polygons

The whole pipeline for straight polygons in exact arithmetic: adding them, breaking them at their intersections, the sweep, and
the delivery of the result. -/

namespace River
variable {K : Type}

attribute [local instance 10000] FTrans.toFNum

omit K in
theorem IsContour.polygon {K : Type} {org : Vec2 K} {x : List (Event K)} (h : IsContour org x) (hc : ClosedContour x)
    (hs : ∀ e ∈ drawn x, ∃ q, e.cmd = .lineto q) :
    ∃ Q : List (Vec2 K), Q ≠ [] ∧ x = eventsFrom org (closedCmds Q) ∧ (drawn x).map (fun e => (e.source, e.cmd.target)) = polySides Q := by
  obtain ⟨start, cs, rfl, hne, hd⟩ := h
  have key : ∀ (cs : List (Cmd K)) (p : Vec2 K), (∀ c ∈ cs, c.draws = true) → drawn (eventsFrom p cs) = eventsFrom p cs := by
    intro cs
    induction cs with
    | nil => intro p _; rfl
    | cons c cs ih =>
      intro p h
      rw [eventsFrom, drawn, List.filter_cons_of_pos (p := fun e : Event K => e.cmd.draws) (h c (by simp))]
      exact congrArg _ (ih _ (fun x hx => h x (by simp [hx])))
  have hdr : drawn (eventsFrom org (Cmd.moveto start :: cs)) = eventsFrom start cs := by
    rw [eventsFrom, drawn, List.filter_cons_of_neg (by simp [Cmd.draws])]
    exact key cs _ hd
  rw [hdr] at hs ⊢
  have hl : ∀ (cs : List (Cmd K)) (p : Vec2 K), (∀ e ∈ eventsFrom p cs, ∃ q, e.cmd = .lineto q) → ∃ pts : List (Vec2 K), cs = pts.map .lineto := by
    intro cs
    induction cs with
    | nil => intro p _; exact ⟨[], rfl⟩
    | cons c cs ih =>
      intro p h
      obtain ⟨q, hq⟩ := h ⟨p, c⟩ (by simp [eventsFrom])
      obtain ⟨pts, e⟩ := ih c.target (fun e he => h e (by simp [eventsFrom, he]))
      exact ⟨q :: pts, by rw [e, show c = .lineto q from hq]; rfl⟩
  obtain ⟨pts, rfl⟩ := hl cs start hs
  have hpn : pts ≠ [] := by rintro rfl; exact hne rfl
  obtain ⟨qs, z, rfl⟩ : ∃ qs z, pts = qs ++ [z] := ⟨_, _, (List.dropLast_concat_getLast hpn).symm⟩
  have hend : ∀ (l : List (Vec2 K)) (p : Vec2 K), (eventsFrom p ((l ++ [z]).map Cmd.lineto)).getLast?.map (fun e => e.cmd.target) = some z := by
    intro l
    induction l with
    | nil => intro p; rfl
    | cons a l ih =>
      intro p
      rw [List.cons_append, List.map_cons, eventsFrom]
      have hne : eventsFrom (Cmd.target (.lineto a)) ((l ++ [z]).map Cmd.lineto) ≠ [] := by
        cases l <;> simp [eventsFrom]
      obtain ⟨b, c, e⟩ := List.exists_cons_of_ne_nil hne
      rw [e, List.getLast?_cons_cons, ← e]
      exact ih _
  have hz : z = start := by
    obtain ⟨st, h1, h2⟩ := hc
    have : start = st := by simpa [eventsFrom] using h1
    subst this
    unfold endPoint at h2
    rw [eventsFrom] at h2
    have hne : eventsFrom (Cmd.target (.moveto start)) ((qs ++ [z]).map Cmd.lineto) ≠ [] := by
      cases qs <;> simp [eventsFrom]
    obtain ⟨b, c, e⟩ := List.exists_cons_of_ne_nil hne
    rw [e, List.getLast?_cons_cons, ← e, hend] at h2
    exact h2
  subst hz
  refine ⟨z :: qs, by simp, rfl, ?_⟩
  have hpairs : ∀ (l : List (Vec2 K)) (p : Vec2 K), (eventsFrom p ((l ++ [z]).map Cmd.lineto)).map (fun e => (e.source, e.cmd.target)) =
      (p :: l).zip (l ++ [z]) := by
    intro l
    induction l with
    | nil => intro p; rfl
    | cons a l ih =>
      intro p
      rw [List.cons_append, List.map_cons, eventsFrom, List.map_cons, List.zip_cons_cons]
      exact congrArg _ (ih a)
  rw [hpairs, polySides, List.rotate_cons_succ, List.rotate_zero]

variable [Field K] [LinearOrder K] [IsStrictOrderedRing K] [FTrans K] [LawfulOrd K] [Exact K]

/-- **C60.** Straight contours in general position are broken, without undefined behaviour, into contours whose sides have at most
end points in common unless they coincide (or are both horizontal); every contour is replaced by the pieces of its sides in
order, and no winding number changes. -/
theorem break_exact {rings : List (Ring K)} (G : General rings) (env : Env K) (hok : env.Ok) :
    ∃ rings', processIntersect env rings = some rings' ∧
      (∀ s ∈ sides rings', ∀ t ∈ sides rings', s ≠ t →
        (s.frm.y = s.seg.target.y ∧ t.frm.y = t.seg.target.y) ∨
        ((s.frm = t.frm ∧ s.seg.target = t.seg.target) ∨ (s.frm = t.seg.target ∧ s.seg.target = t.frm)) ∨
        ∀ p, OnSeg p s.frm s.seg.target → OnSeg p t.frm t.seg.target → (p = s.frm ∨ p = s.seg.target) ∧ (p = t.frm ∨ p = t.seg.target)) ∧
      (∀ r ∈ rings', Linked r.nodes) ∧ BrokenInto rings rings' ∧
      ∀ t X y, wnS t ((sides rings').filter (fun s => decide (s.Above y ∧ s.x y < X))) =
        wnS t ((sides rings).filter (fun s => decide (s.Above y ∧ s.x y < X))) := by
  obtain ⟨rings', hp, _, B⟩ := general_broken G env hok
  exact ⟨rings', hp, B.ends, B.linked, B, fun t X y => B.wnS G.nodesOk t X y⟩

/-- Closed contours of straight lines are polygons. -/
theorem contours_polygons (es : List (List (Event K))) (h2 : ∀ x ∈ es, IsContour zeroPt x ∧ ClosedContour x)
    (hdr : ∀ e ∈ drawn es.flatten, ∃ q, e.cmd = .lineto q) :
    ∃ out : List (List (Vec2 K)), es.flatten = out.flatMap (fun Q => eventsFrom zeroPt (closedCmds Q)) ∧
      (drawn es.flatten).map (fun e => (e.source, e.cmd.target)) = out.flatMap polySides ∧
      ∀ X y, polyWinding out X y = windingAt es.flatten X y := by
  obtain ⟨out, ho1, ho2⟩ : ∃ out : List (List (Vec2 K)), es.flatten = out.flatMap (fun Q => eventsFrom zeroPt (closedCmds Q)) ∧
      (drawn es.flatten).map (fun e => (e.source, e.cmd.target)) = out.flatMap polySides := by
    induction es with
    | nil => exact ⟨[], rfl, rfl⟩
    | cons x es ih =>
      rw [List.flatten_cons, drawn_append] at hdr
      obtain ⟨out, o1, o2⟩ := ih (fun x hx => h2 x (by simp [hx])) (fun e he => hdr e (List.mem_append_right _ he))
      obtain ⟨Q, _, q1, q2⟩ := IsContour.polygon (h2 x (by simp)).1 (h2 x (by simp)).2 (fun e he => hdr e (List.mem_append_left _ he))
      refine ⟨Q :: out, ?_, ?_⟩
      · rw [List.flatten_cons, List.flatMap_cons, ← q1, o1]
      · rw [List.flatten_cons, drawn_append, List.map_append, List.flatMap_cons, q2, o2]
  refine ⟨out, ho1, ho2, fun X y => ?_⟩
  rw [windingAt, polyWinding, ← ho2]
  generalize drawn es.flatten = l at hdr
  clear ho1 ho2
  induction l with
  | nil => rfl
  | cons e l ih =>
    rw [List.map_cons, List.map_cons, List.sum_cons, ih (fun x hx => hdr x (by simp [hx])), List.map_cons, List.filter_cons]
    obtain ⟨q, hq⟩ := hdr e (by simp)
    obtain ⟨src, cmd⟩ := e
    simp only at hq
    subst hq
    have hcr := crossing_side X y (v := ⟨src, .line q, false, false⟩) (s := (src, q)) rfl
    rw [show (({ source := src, cmd := Cmd.lineto q } : Event K).source, (Cmd.lineto q).target) = (src, q) from rfl, ← hcr]
    have hside : ({ source := src, cmd := Cmd.lineto q } : Event K).side = ⟨0, 0, src, .line q, .subject⟩ := rfl
    rw [hside]
    unfold crossing
    by_cases h : (⟨0, 0, src, .line q, .subject⟩ : Side K).Above y ∧ (⟨0, 0, src, .line q, .subject⟩ : Side K).x y < X
    · rw [if_pos h, if_pos (decide_eq_true h), List.map_cons, List.sum_cons]
    · rw [if_neg h, if_neg (by rw [decide_eq_true_eq]; exact h), zero_add]

open Classical in
/-- Straight contours in general position. -/
theorem process_general {rings : List (Ring K)} (env : Env K) (hok : env.Ok) (msort : List (LocMin K) → List (LocMin K)) (hm : MinSort msort) (c : Clipper K)
    (hc : c.Reach env) (hnew : c.out.polys = []) (hr : c.rings = rings) (G : General rings)
    (ct : ClipType) (fr : FillRule) (σ : Int) (hσ : σ = 1 ∨ σ = -1)
    (W : PathType → K → K → Int) (hW : ∀ t X y, wnS t ((sides rings).filter (fun s => decide (s.Above y ∧ s.x y < X))) = W t X y)
    (hO : ConsistentR rings W ct fr σ) :
    ∃ n, ∀ fuel, n ≤ fuel → ∃ (c' : Clipper K) (out : List (List (Vec2 K))),
      c.process env msort fuel ct fr Path.recorder [] = some (some (c', out.flatMap (fun Q => eventsFrom zeroPt (closedCmds Q)))) ∧
      (∀ X y, polyWinding out X y = if ct.op (fr.inside (W .subject X y)) (fr.inside (W .clip X y)) then σ else 0) ∧
      ∃ (rings' : List (Ring K)) (B : List (Side K)) (H : List (Vec2 K × Seg K)), BrokenInto rings rings' ∧ Arranged rings' ∧
        Outline rings' ct fr σ B ∧ HBoundary rings' ct fr (H : Multiset (Vec2 K × Seg K)) ∧
        (out.flatMap polySides).Perm (B.map (fun s => (s.frm, s.seg.target)) ++ H.map (fun p => (p.1, p.2.target))) := by
  subst hr
  obtain ⟨rings', hp, A, B⟩ := general_broken G env hok
  have hN := G.nodesOk
  have hW' : ∀ t X y, wnS t ((sides rings').filter (fun s => decide (s.Above y ∧ s.x y < X))) = W t X y :=
    fun t X y => by rw [B.wnS hN, hW]
  have D := (B.consistent hN hO).directed A B.straight hW' hσ
  obtain ⟨n, hn⟩ := process_boundary env hok msort hm c hc hnew hp A ct fr σ hσ D
  refine ⟨n, fun fuel hf => ?_⟩
  obtain ⟨c', es, h1, h2, Bd, H, hBd, hH, h3⟩ := hn fuel hf
  have hlv : ∀ p ∈ H, ∃ y, Level y p := fun p hp => hH.level p (Multiset.mem_coe.2 hp)
  have hreg : ∀ X y, windingAt es.flatten X y = if ct.op (fr.inside (W .subject X y)) (fr.inside (W .clip X y)) then σ else 0 := by
    intro X y
    rw [boundary_region A hσ hBd hlv h3 X y]
    unfold PointIn inResultS
    rw [hW', hW']
  -- what is drawn is straight
  have hdr : ∀ e ∈ drawn es.flatten, ∃ q, e.cmd = .lineto q := by
    intro e he
    rcases List.mem_append.1 (h3.mem_iff.1 he) with he | he
    · obtain ⟨s, hs, rfl⟩ := List.mem_map.1 he
      have hstr := B.straight s (hBd.mem s hs).1
      unfold Side.Straight at hstr
      unfold Side.event
      rw [hstr]
      exact ⟨_, rfl⟩
    · obtain ⟨p, hp, rfl⟩ := List.mem_map.1 he
      obtain ⟨_, _, _, _, rfl⟩ := hlv p hp
      exact ⟨_, rfl⟩
  obtain ⟨out, o1, o3, o2⟩ := contours_polygons es h2 hdr
  refine ⟨c', out, o1 ▸ h1, fun X y => by rw [o2, hreg], rings', Bd, H, B, A, hBd, hH, ?_⟩
  rw [← o3]
  refine (h3.map _).trans (List.Perm.of_eq ?_)
  rw [List.map_append, List.map_map, List.map_map]
  congr 1
  · refine List.map_congr_left (fun s hs => ?_)
    have hstr := B.straight s (hBd.mem s hs).1
    unfold Side.Straight at hstr
    simp only [Function.comp_apply, Side.event]
    rw [hstr]; rfl
  · refine List.map_congr_left (fun p hp => ?_)
    obtain ⟨_, _, _, _, rfl⟩ := hlv p hp
    rfl

/-- Adding polygons in general position to a new processor. -/
theorem polygons_stored (env : Env K) (subject clip : List (List (Vec2 K))) (G : GeneralPolygons (subject ++ clip)) :
    ∃ c1 c2 : Clipper K, (Clipper.new (K := K)).addPath (subject.map (fun P => Path.build (polyCmds P))) .subject = some c1 ∧
      c1.addPath (clip.map (fun P => Path.build (polyCmds P))) .clip = some c2 ∧ c2.Reach env ∧ c2.out.polys = [] ∧ General c2.rings ∧
      (∃ L : List (PathType × List (Vec2 K)), StoresAll L c2.rings ∧ L.map Prod.snd = subject ++ clip) ∧
      ∃ W : PathType → K → K → Int, (∀ t X y, wnS t ((sides c2.rings).filter (fun s => decide (s.Above y ∧ s.x y < X))) = W t X y) ∧
        (∀ X y, W .subject X y = polyWinding subject X y) ∧ (∀ X y, W .clip X y = polyWinding clip X y) ∧
        ∀ ct fr σ, Consistent subject clip ct fr σ → ConsistentR c2.rings W ct fr σ := by
  have hl1 : ∀ s ∈ subject.flatMap polySides, s.1 ≠ s.2 :=
    fun s hs => G.proper s (by rw [List.flatMap_append]; exact List.mem_append_left _ hs)
  have hl2 : ∀ s ∈ clip.flatMap polySides, s.1 ≠ s.2 :=
    fun s hs => G.proper s (by rw [List.flatMap_append]; exact List.mem_append_right _ hs)
  obtain ⟨rs1, a1, a2⟩ := addPolygons .subject subject (fun P hP => G.turn P (List.mem_append_left _ hP)) hl1 []
  obtain ⟨rs2, b1, b2⟩ := addPolygons .clip clip (fun P hP => G.turn P (List.mem_append_right _ hP)) hl2 rs1
  rw [List.nil_append] at a1
  obtain ⟨L, hL⟩ : ∃ L : List (PathType × List (Vec2 K)), L = subject.map (fun P => (.subject, P)) ++ clip.map (fun P => (.clip, P)) := ⟨_, rfl⟩
  have hS : StoresAll L (rs1 ++ rs2) := by rw [hL]; exact List.rel_append a2 b2
  have hLs : L.map Prod.snd = subject ++ clip := by rw [hL, List.map_append, List.map_map, List.map_map]; simp [Function.comp_def]
  have hG : General (rs1 ++ rs2) := hS.general (hLs ▸ G)
  have hf1 : (L.filter (fun p => decide (p.1 = .subject))).map Prod.snd = subject := by
    rw [hL, List.filter_append, List.filter_map, List.filter_map]
    simp [Function.comp_def]
  have hf2 : (L.filter (fun p => decide (p.1 = .clip))).map Prod.snd = clip := by
    rw [hL, List.filter_append, List.filter_map, List.filter_map]
    simp [Function.comp_def]
  obtain ⟨W, hWd⟩ : ∃ W : PathType → K → K → Int, W = fun t X y => polyWinding ((L.filter (fun p => decide (p.1 = t))).map Prod.snd) X y := ⟨_, rfl⟩
  have w1 : ∀ X y, W .subject X y = polyWinding subject X y := fun X y => by rw [hWd]; simp only [hf1]
  have w2 : ∀ X y, W .clip X y = polyWinding clip X y := fun X y => by rw [hWd]; simp only [hf2]
  have c1e : (Clipper.new (K := K)).addPath (subject.map (fun P => Path.build (polyCmds P))) .subject = some { Clipper.new (K := K) with rings := rs1 } := by
    unfold Clipper.addPath; rw [show (Clipper.new (K := K)).rings = [] from rfl, a1]; rfl
  have c2e : ({ Clipper.new (K := K) with rings := rs1 } : Clipper K).addPath (clip.map (fun P => Path.build (polyCmds P))) .clip =
      some { Clipper.new (K := K) with rings := rs1 ++ rs2 } := by
    unfold Clipper.addPath; rw [show ({ Clipper.new (K := K) with rings := rs1 } : Clipper K).rings = rs1 from rfl, b1]; rfl
  have r1 : Clipper.Reach env { Clipper.new (K := K) with rings := rs1 } := by
    refine Clipper.Reach.addPath (subject.map polyCmds) .subject Clipper.Reach.new ?_
    rw [List.map_map]; exact c1e
  have r2 : Clipper.Reach env { Clipper.new (K := K) with rings := rs1 ++ rs2 } := by
    refine Clipper.Reach.addPath (clip.map polyCmds) .clip r1 ?_
    rw [List.map_map]; exact c2e
  refine ⟨_, _, c1e, c2e, r2, rfl, hG, ⟨L, hS, hLs⟩, W, fun t X y => by rw [hS.winding, hWd], w1, w2, ?_⟩
  rintro ct fr σ (⟨h1, h2⟩ | ⟨εs, εc, h1, h2, h3⟩)
  · refine Or.inl ⟨hS.apart (hLs ▸ h1), fun X y X' y' h => ?_⟩
    rw [w1, w1, w2, w2] at h ⊢
    exact h2 X y X' y' h
  · refine Or.inr ⟨εs, εc, hS.signed ?_, hS.signed ?_, h3⟩
    · intro p hp ht
      rw [hL, List.mem_append] at hp
      rcases hp with hp | hp
      · obtain ⟨P, hP, rfl⟩ := List.mem_map.1 hp
        exact h1 P hP
      · obtain ⟨P, hP, rfl⟩ := List.mem_map.1 hp
        exact absurd ht (by simp)
    · intro p hp ht
      rw [hL, List.mem_append] at hp
      rcases hp with hp | hp
      · obtain ⟨P, hP, rfl⟩ := List.mem_map.1 hp
        exact absurd ht (by simp)
      · obtain ⟨P, hP, rfl⟩ := List.mem_map.1 hp
        exact h2 P hP

open Classical in
/-- **C59 and C69.** As `process_polygons` below; moreover the sides of the delivered polygons lie on sides of the given ones and do
not cross (`Traced`). -/
theorem process_traced (env : Env K) (hok : env.Ok) (msort : List (LocMin K) → List (LocMin K)) (hm : MinSort msort)
    (subject clip : List (List (Vec2 K))) (G : GeneralPolygons (subject ++ clip))
    (ct : ClipType) (fr : FillRule) (σ : Int) (hσ : σ = 1 ∨ σ = -1) (hO : Consistent subject clip ct fr σ) :
    ∃ c1 c2 : Clipper K, (Clipper.new (K := K)).addPath (subject.map (fun P => Path.build (polyCmds P))) .subject = some c1 ∧
      c1.addPath (clip.map (fun P => Path.build (polyCmds P))) .clip = some c2 ∧
      ∃ n, ∀ fuel, n ≤ fuel → ∃ (c' : Clipper K) (out : List (List (Vec2 K))),
        c2.process env msort fuel ct fr Path.recorder [] = some (some (c', out.flatMap (fun Q => eventsFrom zeroPt (closedCmds Q)))) ∧
        (∀ X y, polyWinding out X y = if InResult subject clip ct fr X y then σ else 0) ∧ Traced (subject ++ clip) out := by
  obtain ⟨c1, c2, c1e, c2e, r2, hnew, hG, ⟨L, hS, hL⟩, W, hW, w1, w2, hC⟩ := polygons_stored env subject clip G
  refine ⟨c1, c2, c1e, c2e, ?_⟩
  obtain ⟨n, hn⟩ := process_general env hok msort hm _ r2 hnew rfl hG ct fr σ hσ W hW (hC ct fr σ hO)
  refine ⟨n, fun fuel hf => ?_⟩
  obtain ⟨c', out, h1, h2, rings', B, H, hB, A, ho, hH, hp⟩ := hn fuel hf
  simp only [w1, w2] at h2
  exact ⟨c', out, h1, h2, traced_of_outline hS hL hB A ho hH hp⟩

open Classical in
/-- **C59.** Polygons in general position, added to a new processor as subject and clip, are processed without undefined
behaviour and without endless loops; what is delivered are closed polygons, and at every point of the plane their winding number is
`σ` if the point belongs to the result of the operation and `0` if not — provided the result lies to the same side of its whole
boundary. Sides of different polygons, and of the same one, may overlap. -/
theorem process_polygons (env : Env K) (hok : env.Ok) (msort : List (LocMin K) → List (LocMin K)) (hm : MinSort msort)
    (subject clip : List (List (Vec2 K))) (G : GeneralPolygons (subject ++ clip))
    (ct : ClipType) (fr : FillRule) (σ : Int) (hσ : σ = 1 ∨ σ = -1) (hO : Consistent subject clip ct fr σ) :
    ∃ c1 c2 : Clipper K, (Clipper.new (K := K)).addPath (subject.map (fun P => Path.build (polyCmds P))) .subject = some c1 ∧
      c1.addPath (clip.map (fun P => Path.build (polyCmds P))) .clip = some c2 ∧
      ∃ n, ∀ fuel, n ≤ fuel → ∃ (c' : Clipper K) (out : List (List (Vec2 K))),
        c2.process env msort fuel ct fr Path.recorder [] = some (some (c', out.flatMap (fun Q => eventsFrom zeroPt (closedCmds Q)))) ∧
        ∀ X y, polyWinding out X y = if InResult subject clip ct fr X y then σ else 0 := by
  obtain ⟨c1, c2, c1e, c2e, n, hn⟩ := process_traced env hok msort hm subject clip G ct fr σ hσ hO
  refine ⟨c1, c2, c1e, c2e, n, fun fuel hf => ?_⟩
  obtain ⟨c', out, h1, h2, _⟩ := hn fuel hf
  exact ⟨c', out, h1, h2⟩

/-! ## when the result is consistently directed -/

omit [IsStrictOrderedRing K] [FTrans K] [LawfulOrd K] [Exact K] in
/-- Union and intersection with the positive rule: always. -/
theorem consistent_positive (subject clip : List (List (Vec2 K))) (ct : ClipType) (hct : ct = .union ∨ ct = .intersection) :
    Consistent subject clip ct .positive 1 := by
  refine Or.inr ⟨0, 0, fun _ _ => Or.inl rfl, fun _ _ => Or.inl rfl, ?_⟩
  intro a b a' b' _ _ _ _ h
  refine ⟨fun _ => ?_, fun h => by norm_num at h⟩
  rcases hct with rfl | rfl <;> simp only [ClipType.op, FillRule.inside] <;> omega

omit [IsStrictOrderedRing K] [FTrans K] [LawfulOrd K] [Exact K] in
/-- Union and intersection with the negative rule: always. -/
theorem consistent_negative (subject clip : List (List (Vec2 K))) (ct : ClipType) (hct : ct = .union ∨ ct = .intersection) :
    Consistent subject clip ct .negative (-1) := by
  refine Or.inr ⟨0, 0, fun _ _ => Or.inl rfl, fun _ _ => Or.inl rfl, ?_⟩
  intro a b a' b' _ _ _ _ h
  refine ⟨fun h => by norm_num at h, fun _ => ?_⟩
  rcases hct with rfl | rfl <;> simp only [ClipType.op, FillRule.inside] <;> omega

omit [IsStrictOrderedRing K] [FTrans K] [LawfulOrd K] [Exact K] in
/-- Union and intersection with the nonzero rule, if all polygons run counterclockwise (no winding number of any of them is
negative, and none overlaps itself). -/
theorem consistent_nonzero (subject clip : List (List (Vec2 K))) (ct : ClipType) (hct : ct = .union ∨ ct = .intersection)
    (h : ∀ P ∈ subject ++ clip, Signed 1 P) : Consistent subject clip ct .nonZero 1 := by
  refine Or.inr ⟨1, 1, fun P hP => h P (List.mem_append_left _ hP), fun P hP => h P (List.mem_append_right _ hP), ?_⟩
  intro a b a' b' _ _ _ _ h
  refine ⟨fun _ => ?_, fun h => by norm_num at h⟩
  rcases hct with rfl | rfl <;> simp only [ClipType.op, FillRule.inside] <;> omega

omit [IsStrictOrderedRing K] [FTrans K] [LawfulOrd K] [Exact K] in
/-- The same for polygons that run clockwise. -/
theorem consistent_nonzero_clockwise (subject clip : List (List (Vec2 K))) (ct : ClipType) (hct : ct = .union ∨ ct = .intersection)
    (h : ∀ P ∈ subject ++ clip, Signed (-1) P) : Consistent subject clip ct .nonZero (-1) := by
  refine Or.inr ⟨-1, -1, fun P hP => h P (List.mem_append_left _ hP), fun P hP => h P (List.mem_append_right _ hP), ?_⟩
  intro a b a' b' _ _ _ _ h
  refine ⟨fun h => by norm_num at h, fun _ => ?_⟩
  rcases hct with rfl | rfl <;> simp only [ClipType.op, FillRule.inside] <;> omega

omit [IsStrictOrderedRing K] [FTrans K] [LawfulOrd K] [Exact K] in
/-- Difference with the nonzero rule, if the subject polygons run counterclockwise and the clip polygons clockwise. -/
theorem consistent_difference (subject clip : List (List (Vec2 K))) (h1 : ∀ P ∈ subject, Signed 1 P) (h2 : ∀ P ∈ clip, Signed (-1) P) :
    Consistent subject clip .difference .nonZero 1 := by
  refine Or.inr ⟨1, -1, h1, h2, ?_⟩
  intro a b a' b' _ _ _ _ h
  refine ⟨fun _ => ?_, fun h => by norm_num at h⟩
  simp only [ClipType.op, FillRule.inside] <;> omega

omit [IsStrictOrderedRing K] [FTrans K] [LawfulOrd K] [Exact K] in
/-- Union and intersection with the nonzero rule, if no sides overlap and no winding number is negative (so holes that run the
other way round are allowed). -/
theorem oriented_nonzero (subject clip : List (List (Vec2 K))) (ct : ClipType) (hct : ct = .union ∨ ct = .intersection) (hN : SidesApart (subject ++ clip))
    (h1 : ∀ X y, 0 ≤ polyWinding subject X y) (h2 : ∀ X y, 0 ≤ polyWinding clip X y) : Consistent subject clip ct .nonZero 1 := by
  refine Or.inl ⟨hN, ?_⟩
  intro X y X' y' h
  refine ⟨fun _ => ?_, fun h => by norm_num at h⟩
  have a := h1 X y
  have b := h2 X y
  unfold InResult
  rcases hct with rfl | rfl <;> simp only [ClipType.op, FillRule.inside] <;> omega

omit [IsStrictOrderedRing K] [FTrans K] [LawfulOrd K] [Exact K] in
/-- Union and intersection with the even-odd rule, if no sides overlap and all winding numbers are 0 or 1. -/
theorem oriented_evenOdd (subject clip : List (List (Vec2 K))) (ct : ClipType) (hct : ct = .union ∨ ct = .intersection) (hN : SidesApart (subject ++ clip))
    (h1 : ∀ X y, polyWinding subject X y = 0 ∨ polyWinding subject X y = 1) (h2 : ∀ X y, polyWinding clip X y = 0 ∨ polyWinding clip X y = 1) :
    Consistent subject clip ct .evenOdd 1 := by
  refine Or.inl ⟨hN, ?_⟩
  intro X y X' y' h
  refine ⟨fun _ => ?_, fun h => by norm_num at h⟩
  have a := h1 X y
  have b := h2 X y
  have a' := h1 X' y'
  have b' := h2 X' y'
  unfold InResult
  rcases hct with rfl | rfl <;> simp only [ClipType.op, FillRule.inside, Int.odd_iff] <;> omega

omit [IsStrictOrderedRing K] [FTrans K] [LawfulOrd K] [Exact K] in
/-- Difference with the nonzero rule, if no sides overlap, the subject's winding numbers are not negative and the clip's not
positive. -/
theorem oriented_difference (subject clip : List (List (Vec2 K))) (hN : SidesApart (subject ++ clip)) (h1 : ∀ X y, 0 ≤ polyWinding subject X y)
    (h2 : ∀ X y, polyWinding clip X y ≤ 0) : Consistent subject clip .difference .nonZero 1 := by
  refine Or.inl ⟨hN, ?_⟩
  intro X y X' y' h
  refine ⟨fun _ => ?_, fun h => by norm_num at h⟩
  have a := h1 X y
  have b := h2 X y
  have b' := h2 X' y'
  unfold InResult
  simp only [ClipType.op, FillRule.inside]
  omega

end River
