import Verif.Lemmas.UprightGood
import Verif.Props.Upright

/-! # C82: contours that cross, whose curved sides rise or fall all the way -/

namespace River

attribute [local instance 10000] FTrans.toFNum

theorem ring_sums {K : Type} (t : PathType) (f : Vtx K → Int) {rs rs' : List (Ring K)}
    (h : List.Forall₂ (fun r r' => r'.ptype = r.ptype ∧ (r'.nodes.map f).sum = (r.nodes.map f).sum) rs rs') :
    (rs'.map (fun r => if r.ptype = t then (r.nodes.map f).sum else 0)).sum = (rs.map (fun r => if r.ptype = t then (r.nodes.map f).sum else 0)).sum := by
  induction h with
  | nil => rfl
  | cons h1 _ ih => rw [List.map_cons, List.sum_cons, List.map_cons, List.sum_cons, ih, h1.1, h1.2]

end River

namespace River.Upright

attribute [local instance 10000] FTrans.toFNum

open Classical in
/-- **C82.** Closed contours of straight sides and curves that rise or fall all the way, which may cross, added to a new processor as subject and clip, are
processed without undefined behaviour and without endless loops. What is delivered are closed contours made of parts of the given
sides between neighbouring ends or common points, none drawn twice, and at every point of the plane their winding number is `σ` if the
point belongs to the result of the operation and `0` if not — provided the result lies to the same side of its whole boundary. -/
theorem process_upright_crossing (env : Env ℝ) (hok : env.Ok) (msort : List (LocMin ℝ) → List (LocMin ℝ)) (hm : MinSort msort)
    (subject clip : List (Loop ℝ)) (N : CrossingLoops (subject ++ clip))
    (ct : ClipType) (fr : FillRule) (σ : Int) (hσ : σ = 1 ∨ σ = -1) (hO : LoopsOriented subject clip ct fr σ) :
    ∃ c1 c2 : Clipper ℝ, (Clipper.new (K := ℝ)).addPath (subject.map (fun l => Path.build l.cmds)) .subject = some c1 ∧
      c1.addPath (clip.map (fun l => Path.build l.cmds)) .clip = some c2 ∧
      ∃ n, ∀ fuel, n ≤ fuel → ∃ (c' : Clipper ℝ) (out : List (Loop ℝ)),
        c2.process env msort fuel ct fr Path.recorder [] = some (some (c', out.flatMap (fun l => eventsFrom zeroPt l.cmds))) ∧
        (∀ l ∈ out, l.Closed) ∧ CutSides ((subject ++ clip).flatMap Loop.sides) (out.flatMap Loop.sides) ∧
        ∀ X y, loopWinding out X y = if InLoops subject clip ct fr X y then σ else 0 := by
  have hfine : ∀ s ∈ (subject ++ clip).flatMap Loop.sides, Fine s := fun s hs => N.fine hs
  obtain ⟨rs1, a1, a2⟩ := addLoops .subject subject (fun l hl => N.closed l (List.mem_append_left _ hl))
    (fun s hs => hfine s (by rw [List.flatMap_append]; exact List.mem_append_left _ hs)) []
  obtain ⟨rs2, b1, b2⟩ := addLoops .clip clip (fun l hl => N.closed l (List.mem_append_right _ hl))
    (fun s hs => hfine s (by rw [List.flatMap_append]; exact List.mem_append_right _ hs)) rs1
  rw [List.nil_append] at a1
  obtain ⟨L, hL⟩ : ∃ L : List (PathType × Loop ℝ), L = subject.map (fun P => (.subject, P)) ++ clip.map (fun P => (.clip, P)) := ⟨_, rfl⟩
  have hS : StoresLoops L (rs1 ++ rs2) := by rw [hL]; exact List.rel_append a2 b2
  have hLs : L.map Prod.snd = subject ++ clip := by rw [hL, List.map_append, List.map_map, List.map_map]; simp [Function.comp_def]
  have hf1 : (L.filter (fun p => decide (p.1 = .subject))).map Prod.snd = subject := by
    rw [hL, List.filter_append, List.filter_map, List.filter_map]
    simp [Function.comp_def]
  have hf2 : (L.filter (fun p => decide (p.1 = .clip))).map Prod.snd = clip := by
    rw [hL, List.filter_append, List.filter_map, List.filter_map]
    simp [Function.comp_def]
  have c1e : (Clipper.new (K := ℝ)).addPath (subject.map (fun l => Path.build l.cmds)) .subject = some { Clipper.new (K := ℝ) with rings := rs1 } := by
    unfold Clipper.addPath; rw [show (Clipper.new (K := ℝ)).rings = [] from rfl, a1]; rfl
  have c2e : ({ Clipper.new (K := ℝ) with rings := rs1 } : Clipper ℝ).addPath (clip.map (fun l => Path.build l.cmds)) .clip =
      some { Clipper.new (K := ℝ) with rings := rs1 ++ rs2 } := by
    unfold Clipper.addPath; rw [show ({ Clipper.new (K := ℝ) with rings := rs1 } : Clipper ℝ).rings = rs1 from rfl, b1]; rfl
  have r1 : Clipper.Reach env { Clipper.new (K := ℝ) with rings := rs1 } := by
    refine Clipper.Reach.addPath (subject.map Loop.cmds) .subject Clipper.Reach.new ?_
    rw [List.map_map]; exact c1e
  have r2 : Clipper.Reach env { Clipper.new (K := ℝ) with rings := rs1 ++ rs2 } := by
    refine Clipper.Reach.addPath (clip.map Loop.cmds) .clip r1 ?_
    rw [List.map_map]; exact c2e
  refine ⟨_, _, c1e, c2e, ?_⟩
  have N' : CrossingLoops (L.map Prod.snd) := hLs ▸ N
  have hring : ∀ r ∈ rs1 ++ rs2, ∃ p ∈ L, StoresLoop p.1 p.2 r := by
    intro r hr
    obtain ⟨k, hk⟩ := List.getElem?_of_mem hr
    obtain ⟨p, hp, hS⟩ := hS.get hk
    exact ⟨p, List.mem_of_getElem? hp, hS⟩
  obtain ⟨rings', hp, T, hparts, hcr⟩ := broken_tidy (rings := rs1 ++ rs2)
    (fun r hr => by obtain ⟨p, _, h⟩ := hring r hr; exact h.linked)
    (fun r hr => by
      obtain ⟨p, hpL, h⟩ := hring r hr
      exact h.steps (fun s hs => runs_steep (N'.runs s (List.mem_flatMap.2 ⟨p.2, List.mem_map.2 ⟨p, hpL, rfl⟩, hs⟩))))
    (stores_good hS N') env hok
  have A := T.arranged
  have hst := T.fine
  have hclear := T.clear
  have hW : ∀ t X y, wnS t ((sides rings').filter (fun s => decide (s.Above y ∧ s.x y < X))) =
      loopWinding ((L.filter (fun p => decide (p.1 = t))).map Prod.snd) X y := by
    intro t X y
    rw [← storesLoops_winding hS (hLs ▸ hfine) t X y, wnS_crossing, wnS_crossing]
    exact ring_sums t (crossing X y) (hcr X y)
  have D : Directed rings' ct fr σ := by
    refine directed_of_points A (fun s hs t ht _ _ hne hT => clear_not_same (hst s hs) (hst t ht) (hclear s hs t ht hne) hT.1) hσ
      (fun t X y => loopWinding ((L.filter (fun p => decide (p.1 = t))).map Prod.snd) X y) hW ?_
    simp only [hf1, hf2]
    exact hO
  obtain ⟨n, hn⟩ := process_boundary_steep env hok msort hm { Clipper.new (K := ℝ) with rings := rs1 ++ rs2 } r2 rfl hp A (fun s hs => (hst s hs).steep) ct fr σ hσ D
  refine ⟨n, fun fuel hf => ?_⟩
  obtain ⟨c', es, h1, h2, B, hB, h3⟩ := hn fuel hf
  have hdr : ∀ e ∈ drawn es.flatten, ∃ g : Seg ℝ, e.cmd = g.cmd ∧ Fine (e.source, g) := by
    intro e he
    obtain ⟨s, hs, rfl⟩ := List.mem_map.1 (h3.mem_iff.1 he)
    exact ⟨s.seg, rfl, hst s (hB.mem s hs).1⟩
  obtain ⟨out, o0, o1, o2, o3⟩ := contours_loops es h2 hdr
  have hperm : (out.flatMap Loop.sides).Perm (B.map (fun s => (s.frm, s.seg))) := by
    have : Function.Injective (pieceEvent (K := ℝ)) := by
      rintro ⟨p, g⟩ ⟨p', g'⟩ e
      simp only [pieceEvent, Event.mk.injEq] at e
      rw [e.1, cmd_injective e.2]
    refine (List.map_perm_map_iff this).1 ?_
    rw [← o2, List.map_map]
    exact h3
  refine ⟨c', out, o1 ▸ h1, o0, ⟨?_, ?_⟩, fun X y => ?_⟩
  · intro w hw
    obtain ⟨s, hs, rfl⟩ := List.mem_map.1 (hperm.mem_iff.1 hw)
    obtain ⟨n, v, a, b, hv, hpt, ha, hb, hno⟩ := hparts s (hB.mem s hs).1
    have hmem := stores_mem hS (List.mem_of_getElem? hv)
    have hstop := stores_stop hS N' hv
    rw [hLs] at hmem hstop
    exact ⟨_, hmem, a, b, hpt, (hstop a).1 ha, (hstop b).1 hb, fun t ht => hno t ((hstop t).2 ht)⟩
  · rw [hperm.nodup_iff]
    refine List.Nodup.map_on (fun s hs t ht e => ?_) (hB.once.imp (fun h => h.1))
    by_contra hne
    have fs := hst s (hB.mem s hs).1
    have ft := hst t (hB.mem t ht).1
    have hfr := meet_ends fs ft (hclear s (hB.mem s hs).1 t (hB.mem t ht).1 hne) (a := 1 / 2) (b := 1 / 2) (by norm_num) (by norm_num) (by norm_num) (by norm_num)
      (by rw [e])
    rcases hfr.1 with e | e <;> norm_num at e
  · rw [o3, boundary_region A hσ hB (H := []) (by simp) (by simpa using h3) X y]
    unfold PointIn inResultS InLoops
    rw [hW, hW, hf1, hf2]

end River.Upright
