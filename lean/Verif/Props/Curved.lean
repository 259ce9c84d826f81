import Verif.Lemmas.CurvedArrange
import Verif.Props.Polygons

/-! # C74: contours with curved sides that do not cross -/

namespace River
variable {K : Type}

attribute [local instance 10000] FTrans.toFNum

theorem drawCmd_eq : (drawCmd : Seg K → Cmd K) = Seg.cmd := by
  funext s; cases s <;> rfl

theorem cmd_injective {s t : Seg K} (h : s.cmd = t.cmd) : s = t := by
  cases s <;> cases t <;> simp_all [Seg.cmd]

/-- A closed contour made of the commands of segments. -/
theorem IsContour.loop {org : Vec2 K} {x : List (Event K)} (h : IsContour org x) (hc : ClosedContour x)
    (hs : ∀ e ∈ drawn x, ∃ g : Seg K, e.cmd = g.cmd) :
    ∃ l : Loop K, l.Closed ∧ x = eventsFrom org l.cmds ∧ drawn x = l.sides.map pieceEvent := by
  obtain ⟨start, cs, rfl, hne, hd⟩ := h
  have key : ∀ (cs : List (Cmd K)) (p : Vec2 K), (∀ c ∈ cs, c.draws = true) → drawn (eventsFrom p cs) = eventsFrom p cs := by
    intro cs
    induction cs with
    | nil => intro p _; rfl
    | cons c cs ih =>
      intro p h
      rw [eventsFrom, drawn, List.filter_cons_of_pos (p := fun e : Event K => e.cmd.draws) (h c (by simp))]
      exact congrArg _ (ih _ (fun x hx => h x (by simp [hx])))
  have hdr : drawn (eventsFrom org (Cmd.moveto start :: cs)) = eventsFrom start cs := by
    rw [eventsFrom, drawn, List.filter_cons_of_neg (by simp [Cmd.draws])]
    exact key cs _ hd
  rw [hdr] at hs ⊢
  have hl : ∀ (cs : List (Cmd K)) (p : Vec2 K), (∀ e ∈ eventsFrom p cs, ∃ g : Seg K, e.cmd = g.cmd) → ∃ segs : List (Seg K), cs = segs.map Seg.cmd := by
    intro cs
    induction cs with
    | nil => intro p _; exact ⟨[], rfl⟩
    | cons c cs ih =>
      intro p h
      obtain ⟨g, hg⟩ := h ⟨p, c⟩ (by simp [eventsFrom])
      obtain ⟨segs, e⟩ := ih c.target (fun e he => h e (by simp [eventsFrom, he]))
      exact ⟨g :: segs, by rw [e, show c = g.cmd from hg]; rfl⟩
  obtain ⟨segs, rfl⟩ := hl cs start hs
  have hsn : segs ≠ [] := by rintro rfl; exact hne rfl
  have htg : ∀ g : Seg K, g.cmd.target = g.target := by intro g; cases g <;> rfl
  have hev : ∀ (segs : List (Seg K)) (p : Vec2 K), eventsFrom p (segs.map Seg.cmd) = (chain p segs).map pieceEvent := by
    intro segs
    induction segs with
    | nil => intro p; rfl
    | cons g segs ih =>
      intro p
      rw [List.map_cons, eventsFrom, ih, chain, List.map_cons, htg]; rfl
  have hlast : ∀ (segs : List (Seg K)) (p : Vec2 K), (chain p segs).getLast?.map Prod.snd = segs.getLast? := by
    intro segs
    induction segs with
    | nil => intro p; rfl
    | cons g segs ih =>
      intro p
      cases segs with
      | nil => rfl
      | cons g' segs =>
        have := ih g.target
        rw [chain] at this ⊢
        rw [chain, List.getLast?_cons_cons, this, List.getLast?_cons_cons]
  refine ⟨⟨start, segs⟩, ?_, ?_, hev segs start⟩
  · obtain ⟨st, h1, h2⟩ := hc
    have : start = st := by simpa [eventsFrom] using h1
    subst this
    refine ⟨segs.getLast hsn, List.getLast?_eq_some_getLast hsn, ?_⟩
    unfold endPoint at h2
    rw [eventsFrom, hev] at h2
    have hcn : (chain (Cmd.target (.moveto start)) segs).map pieceEvent ≠ [] := by
      obtain ⟨g, l, rfl⟩ := List.exists_cons_of_ne_nil hsn
      simp [chain]
    obtain ⟨b, c, e⟩ := List.exists_cons_of_ne_nil hcn
    rw [e, List.getLast?_cons_cons, ← e, List.getLast?_map, Option.map_map] at h2
    have hl := hlast segs (Cmd.target (.moveto start))
    rw [List.getLast?_eq_some_getLast hsn] at hl
    obtain ⟨z, hz, ez⟩ := Option.map_eq_some_iff.1 hl
    rw [hz] at h2
    simp only [Option.map_some, Option.getD_some, Function.comp_apply, pieceEvent, htg, ez] at h2
    exact h2
  · unfold Loop.cmds
    rw [drawCmd_eq]

variable [Field K] [LinearOrder K] [IsStrictOrderedRing K] [FTrans K] [LawfulOrd K] [Exact K]

/-- Closed contours drawn with the commands of segments. -/
theorem contours_loops (es : List (List (Event K))) (h2 : ∀ x ∈ es, IsContour zeroPt x ∧ ClosedContour x)
    (hdr : ∀ e ∈ drawn es.flatten, ∃ g : Seg K, e.cmd = g.cmd ∧ Fine (e.source, g)) :
    ∃ out : List (Loop K), (∀ l ∈ out, l.Closed) ∧ es.flatten = out.flatMap (fun l => eventsFrom zeroPt l.cmds) ∧
      drawn es.flatten = (out.flatMap Loop.sides).map pieceEvent ∧ ∀ X y, loopWinding out X y = windingAt es.flatten X y := by
  obtain ⟨out, hc, ho1, ho2⟩ : ∃ out : List (Loop K), (∀ l ∈ out, l.Closed) ∧ es.flatten = out.flatMap (fun l => eventsFrom zeroPt l.cmds) ∧
      drawn es.flatten = (out.flatMap Loop.sides).map pieceEvent := by
    induction es with
    | nil => exact ⟨[], by simp, rfl, rfl⟩
    | cons x es ih =>
      rw [List.flatten_cons, drawn_append] at hdr
      obtain ⟨out, o0, o1, o2⟩ := ih (fun x hx => h2 x (by simp [hx])) (fun e he => hdr e (List.mem_append_right _ he))
      obtain ⟨l, q0, q1, q2⟩ := IsContour.loop (h2 x (by simp)).1 (h2 x (by simp)).2 (fun e he => by
        obtain ⟨g, hg, _⟩ := hdr e (List.mem_append_left _ he)
        exact ⟨g, hg⟩)
      refine ⟨l :: out, ?_, ?_, ?_⟩
      · intro z hz
        rcases List.mem_cons.1 hz with rfl | hz
        · exact q0
        · exact o0 z hz
      · rw [List.flatten_cons, List.flatMap_cons, ← q1, o1]
      · rw [List.flatten_cons, drawn_append, List.flatMap_cons, List.map_append, q2, o2]
  refine ⟨out, hc, ho1, ho2, fun X y => ?_⟩
  rw [windingAt, loopWinding, sidesWinding, ho2]
  rw [ho2] at hdr
  generalize out.flatMap Loop.sides = l at hdr
  clear ho1 ho2
  induction l with
  | nil => rfl
  | cons s l ih =>
    rw [List.map_cons, List.sum_cons, ih (fun x hx => hdr x (by rw [List.map_cons]; simp [hx])), List.map_cons, List.map_cons, List.filter_cons]
    obtain ⟨g, hg, hf⟩ := hdr (pieceEvent s) (by simp)
    have hgs : s.2 = g := cmd_injective hg
    obtain ⟨p, g'⟩ := s
    simp only at hgs
    subst hgs
    have hcr := crossing_curve X y (v := ⟨p, g', false, false⟩) hf
    rw [← hcr]
    have hside : (pieceEvent (p, g')).side = ⟨0, 0, p, g', .subject⟩ := by cases g' <;> rfl
    rw [hside]
    unfold crossing
    by_cases h : (⟨0, 0, p, g', .subject⟩ : Side K).Above y ∧ (⟨0, 0, p, g', .subject⟩ : Side K).x y < X
    · rw [if_pos h, if_pos (decide_eq_true h), List.map_cons, List.sum_cons]
    · rw [if_neg h, if_neg (by rw [decide_eq_true_eq]; exact h), zero_add]

open Classical in
/-- **C74.** Closed contours of straight and curved sides that do not cross, added to a new processor as subject and clip, are
processed without undefined behaviour and without endless loops. What is delivered are closed contours made of sides of the given
ones, none drawn twice, and at every point of the plane their winding number is `σ` if the point belongs to the result of the
operation and `0` if not — provided the result lies to the same side of its whole boundary. -/
theorem process_curved (env : Env K) (hok : env.Ok) (msort : List (LocMin K) → List (LocMin K)) (hm : MinSort msort)
    (subject clip : List (Loop K)) (N : NonCrossing (subject ++ clip))
    (ct : ClipType) (fr : FillRule) (σ : Int) (hσ : σ = 1 ∨ σ = -1) (hO : LoopsOriented subject clip ct fr σ) :
    ∃ c1 c2 : Clipper K, (Clipper.new (K := K)).addPath (subject.map (fun l => Path.build l.cmds)) .subject = some c1 ∧
      c1.addPath (clip.map (fun l => Path.build l.cmds)) .clip = some c2 ∧
      ∃ n, ∀ fuel, n ≤ fuel → ∃ (c' : Clipper K) (out : List (Loop K)),
        c2.process env msort fuel ct fr Path.recorder [] = some (some (c', out.flatMap (fun l => eventsFrom zeroPt l.cmds))) ∧
        (∀ l ∈ out, l.Closed) ∧ (out.flatMap Loop.sides).Subperm ((subject ++ clip).flatMap Loop.sides) ∧
        ∀ X y, loopWinding out X y = if InLoops subject clip ct fr X y then σ else 0 := by
  have hfine : ∀ s ∈ (subject ++ clip).flatMap Loop.sides, Fine s := fun s hs => N.fine hs
  obtain ⟨rs1, a1, a2⟩ := addLoops .subject subject (fun l hl => N.closed l (List.mem_append_left _ hl))
    (fun s hs => hfine s (by rw [List.flatMap_append]; exact List.mem_append_left _ hs)) []
  obtain ⟨rs2, b1, b2⟩ := addLoops .clip clip (fun l hl => N.closed l (List.mem_append_right _ hl))
    (fun s hs => hfine s (by rw [List.flatMap_append]; exact List.mem_append_right _ hs)) rs1
  rw [List.nil_append] at a1
  obtain ⟨L, hL⟩ : ∃ L : List (PathType × Loop K), L = subject.map (fun P => (.subject, P)) ++ clip.map (fun P => (.clip, P)) := ⟨_, rfl⟩
  have hS : StoresLoops L (rs1 ++ rs2) := by rw [hL]; exact List.rel_append a2 b2
  have hLs : L.map Prod.snd = subject ++ clip := by rw [hL, List.map_append, List.map_map, List.map_map]; simp [Function.comp_def]
  have hf1 : (L.filter (fun p => decide (p.1 = .subject))).map Prod.snd = subject := by
    rw [hL, List.filter_append, List.filter_map, List.filter_map]
    simp [Function.comp_def]
  have hf2 : (L.filter (fun p => decide (p.1 = .clip))).map Prod.snd = clip := by
    rw [hL, List.filter_append, List.filter_map, List.filter_map]
    simp [Function.comp_def]
  have c1e : (Clipper.new (K := K)).addPath (subject.map (fun l => Path.build l.cmds)) .subject = some { Clipper.new (K := K) with rings := rs1 } := by
    unfold Clipper.addPath; rw [show (Clipper.new (K := K)).rings = [] from rfl, a1]; rfl
  have c2e : ({ Clipper.new (K := K) with rings := rs1 } : Clipper K).addPath (clip.map (fun l => Path.build l.cmds)) .clip =
      some { Clipper.new (K := K) with rings := rs1 ++ rs2 } := by
    unfold Clipper.addPath; rw [show ({ Clipper.new (K := K) with rings := rs1 } : Clipper K).rings = rs1 from rfl, b1]; rfl
  have r1 : Clipper.Reach env { Clipper.new (K := K) with rings := rs1 } := by
    refine Clipper.Reach.addPath (subject.map Loop.cmds) .subject Clipper.Reach.new ?_
    rw [List.map_map]; exact c1e
  have r2 : Clipper.Reach env { Clipper.new (K := K) with rings := rs1 ++ rs2 } := by
    refine Clipper.Reach.addPath (clip.map Loop.cmds) .clip r1 ?_
    rw [List.map_map]; exact c2e
  refine ⟨_, _, c1e, c2e, ?_⟩
  have N' : NonCrossing (L.map Prod.snd) := hLs ▸ N
  have A := hS.arranged N'
  have hp := processIntersect_quiet (hS.clear N') env hok
  have hst : ∀ s ∈ sides (rs1 ++ rs2), Fine (s.frm, s.seg) := fun s hs => N'.fine (hS.side hs)
  have hW : ∀ t X y, wnS t ((sides (rs1 ++ rs2)).filter (fun s => decide (s.Above y ∧ s.x y < X))) =
      loopWinding ((L.filter (fun p => decide (p.1 = t))).map Prod.snd) X y := fun t X y => hS.winding (hLs ▸ hfine) t X y
  have hclear : ∀ s ∈ sides (rs1 ++ rs2), ∀ t ∈ sides (rs1 ++ rs2), s ≠ t → Clear2 (s.frm, s.seg) (t.frm, t.seg) :=
    hS.pairwise (fun _ _ h => Clear2.symm h) N'.apart
  have D : Directed (rs1 ++ rs2) ct fr σ := by
    refine directed_of_points A (fun s hs t ht _ _ hne hT => clear_not_same (hst s hs) (hst t ht) (hclear s hs t ht hne) hT.1) hσ
      (fun t X y => loopWinding ((L.filter (fun p => decide (p.1 = t))).map Prod.snd) X y) hW ?_
    simp only [hf1, hf2]
    exact hO
  obtain ⟨n, hn⟩ := process_boundary_steep env hok msort hm { Clipper.new (K := K) with rings := rs1 ++ rs2 } r2 rfl hp A (fun s hs => (hst s hs).steep) ct fr σ hσ D
  refine ⟨n, fun fuel hf => ?_⟩
  obtain ⟨c', es, h1, h2, B, hB, h3⟩ := hn fuel hf
  have hdr : ∀ e ∈ drawn es.flatten, ∃ g : Seg K, e.cmd = g.cmd ∧ Fine (e.source, g) := by
    intro e he
    obtain ⟨s, hs, rfl⟩ := List.mem_map.1 (h3.mem_iff.1 he)
    exact ⟨s.seg, rfl, hst s (hB.mem s hs).1⟩
  obtain ⟨out, o0, o1, o2, o3⟩ := contours_loops es h2 hdr
  refine ⟨c', out, o1 ▸ h1, o0, ?_, fun X y => ?_⟩
  · have hperm : (out.flatMap Loop.sides).Perm (B.map (fun s => (s.frm, s.seg))) := by
      have : Function.Injective (pieceEvent (K := K)) := by
        rintro ⟨p, g⟩ ⟨p', g'⟩ e
        simp only [pieceEvent, Event.mk.injEq] at e
        rw [e.1, cmd_injective e.2]
      refine (List.map_perm_map_iff this).1 ?_
      rw [← o2, List.map_map]
      exact h3
    have hnd : B.Nodup := hB.once.imp (fun h => h.1)
    have hsub : B.Subperm (sides (rs1 ++ rs2)) := List.subperm_of_subset hnd (fun s hs => (hB.mem s hs).1)
    obtain ⟨B', p', s'⟩ := hsub
    have := s'.map (fun s : Side K => (s.frm, s.seg))
    rw [hS.geo, hLs] at this
    exact ⟨_, (p'.map _).trans hperm.symm, this⟩
  · rw [o3, boundary_region A hσ hB (H := []) (by simp) (by simpa using h3) X y]
    unfold PointIn inResultS InLoops
    rw [hW, hW, hf1, hf2]

/-! ## when the result is consistently directed -/

omit [IsStrictOrderedRing K] [FTrans K] [LawfulOrd K] [Exact K] in
/-- Union and intersection with the positive rule: always. -/
theorem loops_positive (subject clip : List (Loop K)) (ct : ClipType) (hct : ct = .union ∨ ct = .intersection) :
    LoopsOriented subject clip ct .positive 1 := by
  intro X y X' y' h
  refine ⟨fun _ => ?_, fun h => by norm_num at h⟩
  unfold InLoops
  rcases hct with rfl | rfl <;> simp only [ClipType.op, FillRule.inside] <;> omega

omit [IsStrictOrderedRing K] [FTrans K] [LawfulOrd K] [Exact K] in
/-- Union and intersection with the negative rule: always. -/
theorem loops_negative (subject clip : List (Loop K)) (ct : ClipType) (hct : ct = .union ∨ ct = .intersection) :
    LoopsOriented subject clip ct .negative (-1) := by
  intro X y X' y' h
  refine ⟨fun h => by norm_num at h, fun _ => ?_⟩
  unfold InLoops
  rcases hct with rfl | rfl <;> simp only [ClipType.op, FillRule.inside] <;> omega

omit [IsStrictOrderedRing K] [FTrans K] [LawfulOrd K] [Exact K] in
/-- Union and intersection with the nonzero rule, if no winding number is negative. -/
theorem loops_nonzero (subject clip : List (Loop K)) (ct : ClipType) (hct : ct = .union ∨ ct = .intersection)
    (h1 : ∀ X y, 0 ≤ loopWinding subject X y) (h2 : ∀ X y, 0 ≤ loopWinding clip X y) : LoopsOriented subject clip ct .nonZero 1 := by
  intro X y X' y' h
  refine ⟨fun _ => ?_, fun h => by norm_num at h⟩
  have a := h1 X y
  have b := h2 X y
  unfold InLoops
  rcases hct with rfl | rfl <;> simp only [ClipType.op, FillRule.inside] <;> omega

omit [IsStrictOrderedRing K] [FTrans K] [LawfulOrd K] [Exact K] in
/-- Difference with the nonzero rule, if the subject's winding numbers are not negative and the clip's not positive. -/
theorem loops_difference (subject clip : List (Loop K)) (h1 : ∀ X y, 0 ≤ loopWinding subject X y) (h2 : ∀ X y, loopWinding clip X y ≤ 0) :
    LoopsOriented subject clip .difference .nonZero 1 := by
  intro X y X' y' h
  refine ⟨fun _ => ?_, fun h => by norm_num at h⟩
  have a := h1 X y
  have b := h2 X y
  have b' := h2 X' y'
  unfold InLoops
  simp only [ClipType.op, FillRule.inside]
  omega

end River
