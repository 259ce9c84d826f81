import Verif.Props.SvgText
import Verif.Props.IeeeDemo
import Verif.Props.IeeeChain

/-! # C94: the file `svg_process` writes -/

namespace River
open MakePath DecLex

/-- **C94**: if `process` delivers contours, the program writes a text that is a document showing the subject, the clip and these contours. -/
theorem svgFile_doc (env : Env Dbl) (msort : List (LocMin Dbl) → List (LocMin Dbl)) (fuel : Nat) (subject clip : List (List (Drawn Dbl))) (outs : List (Drawn Dbl))
    (h1 : ∀ ds ∈ subject, ∀ d ∈ ds, d.Ok) (h2 : ∀ ds ∈ clip, ∀ d ∈ ds, d.Ok) (h3 : ∀ d ∈ outs, d.Ok) {c1 c2 c' : Clipper Dbl} (ct : ClipType) (fr : FillRule)
    (a1 : (Clipper.new (K := Dbl)).addPath (subject.map (fun ds => Path.build (ds.flatMap Drawn.cmds))) .subject = some c1)
    (a2 : c1.addPath (clip.map (fun ds => Path.build (ds.flatMap Drawn.cmds))) .clip = some c2)
    (hp : c2.process env msort fuel ct fr Path.recorder [] = some (some (c', outs.flatMap (fun d => eventsFrom zeroPt d.cmds))))
    (hfin : ∀ d ∈ subject.flatten ++ clip.flatten ++ outs, ∀ p ∈ d.points, FinitePt p) :
    ∃ (T : List Char) (D : Drawing Dbl) (L : List (SvgKind × Drawn Dbl)),
      svgFile env msort fuel (subject.map (fun ds => Path.build (ds.flatMap Drawn.cmds))) (clip.map (fun ds => Path.build (ds.flatMap Drawn.cmds))) ct fr = some (some T) ∧
      L = subject.flatten.map (fun d => (.subject, d)) ++ clip.flatten.map (fun d => (.clip, d)) ++ outs.map (fun d => (.output, d)) ∧
      D.Shows L ∧ SvgDoc T D L ∧
      D.view = ((Rect.of (L.flatMap (fun x => x.2.points))).min, (Rect.of (L.flatMap (fun x => x.2.points))).width, (Rect.of (L.flatMap (fun x => x.2.points))).height) ∧
      D.trans = (FNum.lit 1, FNum.neg (FNum.lit 1), FNum.neg ((Rect.of (L.flatMap (fun x => x.2.points))).center.y *. FNum.lit 2)) := by
  obtain ⟨D, L, hD, hL, hS, hv, ht⟩ := svg_shows env msort fuel subject clip outs h1 h2 h3 ct fr a1 a2 hp
  have hmem : ∀ x ∈ L, x.2 ∈ subject.flatten ++ clip.flatten ++ outs := by
    intro x hx
    rw [hL] at hx
    simp only [List.mem_append, List.mem_map] at hx ⊢
    rcases hx with (⟨d, hd, rfl⟩ | ⟨d, hd, rfl⟩) | ⟨d, hd, rfl⟩
    · exact .inl (.inl hd)
    · exact .inl (.inr hd)
    · exact .inr hd
  have hok : ∀ x ∈ L, x.2.Ok := by
    intro x hx
    have := hmem x hx
    simp only [List.mem_append, List.mem_flatten] at this
    rcases this with (⟨ds, hds, hd⟩ | ⟨ds, hds, hd⟩) | hd
    · exact h1 ds hds _ hd
    · exact h2 ds hds _ hd
    · exact h3 _ hd
  refine ⟨D.str, D, L, ?_, hL, hS, svg_text D L hS hok (fun x hx => hfin x.2 (hmem x hx)), hv, ht⟩
  unfold svgFile
  rw [hD]; rfl

theorem isTag_head {a b : Char} {n m t : List Char} (h1 : isTag (a :: n) t = true) (h2 : isTag (b :: m) t = true) : a = b := by
  cases t with
  | nil => simp [isTag, List.isPrefixOf] at h1
  | cons c t =>
    simp only [isTag, List.cons_append, List.isPrefixOf, Bool.and_eq_true, beq_iff_eq] at h1 h2
    rw [h1.1, h2.1]

/-- What the `path` elements of the document say. -/
theorem readPaths_doc {T : List Char} {D : Drawing Dbl} {L : List (SvgKind × Drawn Dbl)} (h : SvgDoc T D L) :
    readPaths T = L.map (fun x => (some [Path.build (x.2.cmds.map Cmd.sixth)], some x.1.colours.1)) := by
  obtain ⟨top, group, paths, squares, lines, ht, h1, h2, h3, h4, h5, -, -, -, -, -, h6, -, -⟩ := h
  have e0 : "path".toList = ['p', 'a', 't', 'h'] := by decide
  have e1 : "svg".toList = ['s', 'v', 'g'] := by decide
  have e2 : "g".toList = ['g'] := by decide
  have e3 : "rect".toList = ['r', 'e', 'c', 't'] := by decide
  have e4 : "line".toList = ['l', 'i', 'n', 'e'] := by decide
  have no : ∀ (a : Char) (n t : List Char), a ≠ 'p' → isTag (a :: n) t = true → isTag "path".toList t = false := by
    intro a n t ha hn
    by_contra hc
    rw [Bool.not_eq_false, e0] at hc
    exact ha (isTag_head hn hc)
  have f1 := no _ _ _ (by decide) (e1 ▸ h1)
  have f2 := no _ _ _ (by decide) (e2 ▸ h2)
  have f3 : squares.filter (isTag "path".toList) = [] := by
    rw [List.filter_eq_nil_iff]
    intro t ht
    rw [no _ _ _ (by decide) (e3 ▸ h4 t ht)]; decide
  have f4 : lines.filter (isTag "path".toList) = [] := by
    rw [List.filter_eq_nil_iff]
    intro t ht
    rw [no _ _ _ (by decide) (e4 ▸ h5 t ht)]; decide
  have f5 : ["/g".toList, "/svg".toList].filter (isTag "path".toList) = [] := by decide
  have hf : (tags T).filter (isTag "path".toList) = paths := by
    rw [ht, List.filter_cons, List.filter_cons, f1, f2, List.filter_append, List.filter_append, List.filter_append, f3, f4, f5,
      List.filter_eq_self.2 h3]
    simp
  unfold readPaths
  rw [hf]
  have := congrArg (List.map (fun x => (x.1, x.2.1))) h6
  rw [List.map_map, List.map_map] at this
  exact this

theorem round6_near (q : ℚ) : |round6 q - q| ≤ 1 / 2000000 ∧ ∃ k : ℤ, round6 q = k / 1000000 := by
  have hf : (Dbl.num (decide (q < 0)) |q|).Finite := ⟨_, _, rfl, abs_nonneg q⟩
  have hv : Dbl.val (decide (q < 0)) |q| = q := by
    unfold Dbl.val
    by_cases h : q < 0
    · simp [h, abs_of_neg h]
    · simp [h, abs_of_nonneg (not_lt.1 h)]
  obtain ⟨h1, h2⟩ := sixth_near hf
  have := h1 _ _ rfl
  rw [hv] at this
  exact ⟨this, h2⟩

theorem sixth_is {d : Dbl} {q : ℚ} (h : d.Is q) : sixth d = round6 q := by
  obtain ⟨s, m, hm, rfl, rfl⟩ := h
  have n0 : nearestEven 0 = 0 := by decide
  unfold round6 sixth Dbl.val
  cases s with
  | false => simp [hm, not_lt.2 hm, abs_of_nonneg hm]
  | true =>
    rcases hm.eq_or_lt with rfl | hm
    · simp [n0]
    · simp [hm, abs_of_pos hm]

theorem sixthPt_is {p : Vec2 Dbl} {q : Vec2 ℚ} (h : p.Is q) : sixthPt p = ⟨round6 q.x, round6 q.y⟩ := by
  unfold sixthPt
  rw [sixth_is h.1, sixth_is h.2]

theorem finite_is {p : Vec2 Dbl} {q : Vec2 ℚ} (h : p.Is q) : FinitePt p := by
  obtain ⟨⟨s, m, hm, e, _⟩, ⟨s', m', hm', e', _⟩⟩ := h
  exact ⟨⟨s, m, e, hm⟩, ⟨s', m', e', hm'⟩⟩

/-- A point rounded to six decimals. -/
def round6Pt (q : Vec2 ℚ) : Vec2 ℚ := ⟨round6 q.x, round6 q.y⟩

/-- A command rounded to six decimals. -/
def Cmd.round6 : Cmd ℚ → Cmd ℚ
  | .moveto p => .moveto (round6Pt p)
  | .lineto p => .lineto (round6Pt p)
  | .cubicto a b p => .cubicto (round6Pt a) (round6Pt b) (round6Pt p)

theorem cmd_is_sixth {c : Cmd Dbl} {d : Cmd ℚ} (h : c.Is d) : c.sixth = d.round6 ∧ ∀ p ∈ c.points, FinitePt p := by
  cases c <;> cases d <;> simp only [Cmd.Is] at h
  · refine ⟨congrArg Cmd.moveto (sixthPt_is h), fun p hp => ?_⟩
    simp only [Cmd.points, List.mem_singleton] at hp
    exact hp ▸ finite_is h
  · refine ⟨congrArg Cmd.lineto (sixthPt_is h), fun p hp => ?_⟩
    simp only [Cmd.points, List.mem_singleton] at hp
    exact hp ▸ finite_is h
  · obtain ⟨h1, h2, h3⟩ := h
    refine ⟨?_, fun p hp => ?_⟩
    · simp only [Cmd.sixth, Cmd.round6, round6Pt, sixthPt_is h1, sixthPt_is h2, sixthPt_is h3]
    · simp only [Cmd.points, List.mem_cons, List.not_mem_nil, or_false] at hp
      rcases hp with rfl | rfl | rfl
      · exact finite_is h1
      · exact finite_is h2
      · exact finite_is h3

theorem cmds_is_sixth {l : List (Cmd Dbl)} {m : List (Cmd ℚ)} (h : List.Forall₂ Cmd.Is l m) :
    l.map Cmd.sixth = m.map Cmd.round6 ∧ ∀ c ∈ l, ∀ p ∈ c.points, FinitePt p := by
  induction h with
  | nil => exact ⟨rfl, by simp⟩
  | cons h1 _ ih =>
    refine ⟨by rw [List.map_cons, List.map_cons, (cmd_is_sixth h1).1, ih.1], fun c hc => ?_⟩
    rcases List.mem_cons.1 hc with rfl | hc
    · exact (cmd_is_sixth h1).2
    · exact ih.2 c hc

theorem round6_poly (P : List (Vec2 ℚ)) : (polyCmds P).map Cmd.round6 = polyCmds (P.map round6Pt) := by
  cases P with
  | nil => rfl
  | cons p P => simp [polyCmds, Cmd.round6]

theorem round6_closed (P : List (Vec2 ℚ)) : (closedCmds P).map Cmd.round6 = closedCmds (P.map round6Pt) := by
  cases P with
  | nil => rfl
  | cons p P => simp [closedCmds, Cmd.round6]

theorem polyCmds_is {P : List (Vec2 Dbl)} {Q : List (Vec2 ℚ)} (h : List.Forall₂ Vec2.Is P Q) : List.Forall₂ Cmd.Is (polyCmds P) (polyCmds Q) := by
  cases h with
  | nil => exact .nil
  | cons h1 h2 => exact .cons h1 (List.forall₂_map_left_iff.2 (List.forall₂_map_right_iff.2 (h2.imp (fun _ _ h => h))))

/-- Contours that correspond to lists of commands, read again. -/
theorem read_is (k : SvgKind) {ds : List (Drawn Dbl)} {m : List (List (Cmd ℚ))} (h : List.Forall₂ (List.Forall₂ Cmd.Is) (ds.map Drawn.cmds) m) :
    (∀ d ∈ ds, ∀ p ∈ d.points, FinitePt p) ∧
    (ds.map (fun d => (k, d))).map (fun x => (some [Path.build (x.2.cmds.map Cmd.sixth)], some x.1.colours.1)) =
      m.map (fun c => (some [Path.build (c.map Cmd.round6)], some k.colours.1)) := by
  induction ds generalizing m with
  | nil => cases h; exact ⟨by simp, rfl⟩
  | cons d ds ih =>
    cases h with
    | cons h1 h2 =>
      obtain ⟨i1, i2⟩ := ih h2
      obtain ⟨j1, j2⟩ := cmds_is_sixth h1
      refine ⟨fun e he p hp => ?_, ?_⟩
      · rcases List.mem_cons.1 he with rfl | he
        · obtain ⟨c, hc, hp⟩ := List.mem_flatMap.1 hp
          exact j2 c hc p hp
        · exact i1 e he p hp
      · simp only [List.map_cons] at i2 ⊢
        rw [i2, j1]

theorem is_cmdR {c : Cmd Dbl} {d : Cmd ℚ} (h : c.Is d) (hd : ∀ a b p, d ≠ .cubicto a b p) : Sim.CmdR Dbl.Is c d := by
  cases c <;> cases d <;> simp only [Cmd.Is] at h
  · exact .moveto ⟨h.1, h.2⟩
  · exact .lineto ⟨h.1, h.2⟩
  · exact absurd rfl (hd _ _ _)

theorem cmdR_is' {c : Cmd Dbl} {d : Cmd ℚ} (h : Sim.CmdR Dbl.Is c d) : c.Is d := by
  cases h with
  | moveto h => exact ⟨h.x, h.y⟩
  | lineto h => exact ⟨h.x, h.y⟩

theorem closed_cmds_flat (out : List (List (Vec2 ℚ))) : (out.flatMap (fun Q => eventsFrom ⟨0, 0⟩ (closedCmds Q))).map Event.cmd =
    ((out.filter (fun Q => !Q.isEmpty)).map closedCmds).flatten := by
  induction out with
  | nil => rfl
  | cons Q out ih =>
    rw [List.flatMap_cons, List.map_append, eventsFrom_cmd, ih]
    cases Q with
    | nil => rfl
    | cons p qs => rfl

/-- What was delivered, contour by contour. -/
theorem outs_is {outs : List (Drawn Dbl)} {out : List (List (Vec2 ℚ))} (hok : ∀ d ∈ outs, d.Ok)
    (h : List.Forall₂ Event.Is (outs.flatMap (fun d => eventsFrom zeroPt d.cmds)) (out.flatMap (fun Q => eventsFrom ⟨0, 0⟩ (closedCmds Q)))) :
    List.Forall₂ (List.Forall₂ Cmd.Is) (outs.map Drawn.cmds) ((out.filter (fun Q => !Q.isEmpty)).map closedCmds) := by
  have h1 : List.Forall₂ Cmd.Is ((outs.flatMap (fun d => eventsFrom zeroPt d.cmds)).map Event.cmd)
      ((out.flatMap (fun Q => eventsFrom ⟨0, 0⟩ (closedCmds Q))).map Event.cmd) :=
    List.forall₂_map_left_iff.2 (List.forall₂_map_right_iff.2 (h.imp (fun _ _ h => h.2)))
  have e1 : (outs.flatMap (fun d => eventsFrom zeroPt d.cmds)).map Event.cmd = (outs.map Drawn.cmds).flatten := by
    clear h h1 hok
    induction outs with
    | nil => rfl
    | cons d outs ih => rw [List.flatMap_cons, List.map_append, eventsFrom_cmd, ih]; rfl
  rw [e1, closed_cmds_flat] at h1
  have hne : ∀ Q ∈ out.filter (fun Q => !Q.isEmpty), Q ≠ [] := by
    rintro Q hQ rfl
    simp at hQ
  generalize out.filter (fun Q => !Q.isEmpty) = out' at h1 hne ⊢
  have h2 : List.Forall₂ (Sim.CmdR Dbl.Is) (outs.map Drawn.cmds).flatten (out'.map closedCmds).flatten := by
    have hno : ∀ c ∈ (out'.map closedCmds).flatten, ∀ a b p, c ≠ Cmd.cubicto a b p := by
      intro c hc a b p
      obtain ⟨l, hl, hc⟩ := List.mem_flatten.1 hc
      obtain ⟨Q, _, rfl⟩ := List.mem_map.1 hl
      cases Q with
      | nil => cases hc
      | cons q Q =>
        simp only [closedCmds, List.mem_cons, List.mem_map] at hc
        rcases hc with rfl | ⟨x, _, rfl⟩ <;> simp
    generalize (outs.map Drawn.cmds).flatten = l at h1 ⊢
    generalize (out'.map closedCmds).flatten = m at h1 hno ⊢
    induction h1 with
    | nil => exact .nil
    | cons h _ ih => exact .cons (is_cmdR h (hno _ (by simp))) (ih (fun c hc => hno c (by simp [hc])))
  have h3 := contours_r (A := outs.map Drawn.cmds) (B := out'.map closedCmds) ?_ ?_ h2
  · exact h3.imp (fun _ _ h => h.imp (fun _ _ h => cmdR_is' h))
  · intro a ha
    obtain ⟨d, hd, rfl⟩ := List.mem_map.1 ha
    refine ⟨d.start, d.body, rfl, fun c hc => ?_⟩
    cases c with
    | moveto q => exact absurd rfl (hok d hd _ hc q)
    | lineto q => rfl
    | cubicto a b q => rfl
  · intro b hb
    obtain ⟨Q, hQ, rfl⟩ := List.mem_map.1 hb
    exact closedCmds_contour Q (hne Q hQ)

open Classical in
/-- **C94** for polygons in doubles: the program writes a text; the `path` elements in it, read by `make_path`, are the polygons of the subject,
those of the clip and polygons `out`, all rounded to six decimals and each group in its colour, and `out` enclose exactly the result. -/
theorem svgFile_polygons {e : ℤ} (he : -100 ≤ e ∧ e ≤ 100) (env : Env Dbl) (hok : env.Ok) (msort : List (LocMin Dbl) → List (LocMin Dbl)) (hm : MinSort msort)
    (subject clip : List (List (Vec2 Dbl))) (S C : List (List (Vec2 ℚ))) (hS : List.Forall₂ (List.Forall₂ Vec2.Is) subject (timesAll (2 ^ e) S))
    (hC : List.Forall₂ (List.Forall₂ Vec2.Is) clip (timesAll (2 ^ e) C)) (G : CrossPolygons (S ++ C))
    (ct : ClipType) (fr : FillRule) (σ : Int) (hσ : σ = 1 ∨ σ = -1) (hO : Consistent S C ct fr σ) :
    ∃ n, ∀ fuel, n ≤ fuel → ∃ (T : List Char) (out : List (List (Vec2 ℚ))),
      svgFile env msort fuel (subject.map (fun P => Path.build (polyCmds P))) (clip.map (fun P => Path.build (polyCmds P))) ct fr = some (some T) ∧
      readPaths T = (round6All (timesAll (2 ^ e) S)).map (fun P => (some [Path.build (polyCmds P)], some "green".toList)) ++
        (round6All (timesAll (2 ^ e) C)).map (fun P => (some [Path.build (polyCmds P)], some "blue".toList)) ++
        (round6All out).map (fun P => (some [Path.build (closedCmds P)], some "black".toList)) ∧
      ∀ X y, polyWinding out X y = if InResult (timesAll (2 ^ e) S) (timesAll (2 ^ e) C) ct fr X y then σ else 0 := by
  obtain ⟨c1, c2, a1, a2, n, hn⟩ := process_ieee_crossing_scaled he env hok msort hm subject clip S C hS hC G ct fr σ hσ hO
  refine ⟨n, fun fuel hf => ?_⟩
  obtain ⟨c', es, out, hp, hes, hw, -⟩ := hn fuel hf
  obtain ⟨outs, o1, rfl⟩ := output_drawn env msort fuel c2 c' ct fr es hp
  have hout := outs_is o1 hes
  have hnonempty : ∀ (A : List (List (Vec2 Dbl))) (B : List (List (Vec2 ℚ))), List.Forall₂ (List.Forall₂ Vec2.Is) A (timesAll (2 ^ e) B) →
      (∀ P ∈ B, P ≠ []) → ∀ P ∈ A, P ≠ [] := by
    intro A B h hB P hP
    unfold timesAll at h
    rw [List.forall₂_map_right_iff] at h
    induction h with
    | nil => cases hP
    | cons h1 _ ih =>
      rcases List.mem_cons.1 hP with rfl | hP
      · rintro rfl
        rename_i Q _ _ _
        have := hB Q (by simp)
        cases Q with
        | nil => exact this rfl
        | cons q Q => cases h1
      · exact ih (fun P hP => hB P (by simp [hP])) hP
  have hne : ∀ P ∈ S ++ C, P ≠ [] := by
    rintro P hP rfl
    obtain ⟨p, hp, _⟩ := G.general.turn [] hP
    exact absurd hp (by simp)
  obtain ⟨Sd, oS, kS, pS⟩ := drawn_of_polys subject (hnonempty _ _ hS (fun P hP => hne P (List.mem_append_left _ hP)))
  obtain ⟨Cd, oC, kC, pC⟩ := drawn_of_polys clip (hnonempty _ _ hC (fun P hP => hne P (List.mem_append_right _ hP)))
  have iS := read_is .subject (ds := Sd) (m := (timesAll (2 ^ e) S).map polyCmds) (by
    rw [kS]; exact List.forall₂_map_left_iff.2 (List.forall₂_map_right_iff.2 (hS.imp (fun _ _ h => polyCmds_is h))))
  have iC := read_is .clip (ds := Cd) (m := (timesAll (2 ^ e) C).map polyCmds) (by
    rw [kC]; exact List.forall₂_map_left_iff.2 (List.forall₂_map_right_iff.2 (hC.imp (fun _ _ h => polyCmds_is h))))
  have iO := read_is .output hout
  have hs : ∀ (l : List (Drawn Dbl)), (∀ d ∈ l, d.Ok) → ∀ ds ∈ l.map (fun d => [d]), ∀ d ∈ ds, d.Ok := by
    intro l hl ds hds d hd
    obtain ⟨e, he, rfl⟩ := List.mem_map.1 hds
    rw [List.mem_singleton.1 hd]; exact hl e he
  rw [pS] at a1
  rw [pC] at a2
  obtain ⟨T, D, L, hT, hL, -, hdoc, -⟩ := svgFile_doc env msort fuel _ _ outs (hs Sd oS) (hs Cd oC) o1 ct fr a1 a2 hp (by
    rw [flatten_singletons, flatten_singletons]
    intro d hd
    simp only [List.mem_append] at hd
    rcases hd with (hd | hd) | hd
    · exact iS.1 d hd
    · exact iC.1 d hd
    · exact iO.1 d hd)
  rw [flatten_singletons, flatten_singletons] at hL
  refine ⟨T, out.filter (fun Q => !Q.isEmpty), by rw [pS, pC]; exact hT, ?_, fun X y => ?_⟩
  · rw [readPaths_doc hdoc, hL, List.map_append, List.map_append, iS.2, iC.2, iO.2]
    simp only [round6All, List.map_map, Function.comp_def, round6_poly, round6_closed]
    rfl
  · rw [← hw, tidies_winding (nonempty_tidies out)]

/-! ## cases -/

/-- The crossing polygons of `cross_union_ieee`, drawn: the text, read again, shows the diamond and the square (some zeros are negative) and polygons that enclose their union. -/
theorem cross_file : ∃ n, ∀ fuel, n ≤ fuel → ∃ (T : List Char) (out : List (List (Vec2 ℚ))),
    svgFile ieeeEnv ieeeSort fuel ((crossDiamond.map (ieeePoly true)).map (fun P => Path.build (polyCmds P)))
      ((crossSquare.map (ieeePoly false)).map (fun P => Path.build (polyCmds P))) .union .positive = some (some T) ∧
    readPaths T = (crossDiamond.map gridPoly).map (fun P => (some [Path.build (polyCmds P)], some "green".toList)) ++
      (crossSquare.map gridPoly).map (fun P => (some [Path.build (polyCmds P)], some "blue".toList)) ++
      (round6All out).map (fun P => (some [Path.build (closedCmds P)], some "black".toList)) ∧
    polyWinding out 0 (-4) = 1 ∧ polyWinding out (-3) 6 = 0 := by
  have e0 : ∀ Ps : List (List (Vec2 ℚ)), timesAll (2 ^ (0 : ℤ)) Ps = Ps := fun Ps => by rw [zpow_zero, times_one]
  obtain ⟨n, hn⟩ := svgFile_polygons (e := 0) (by norm_num) ieeeEnv ieeeEnv_ok ieeeSort ieeeSort_ok _ _ (crossDiamond.map gridPoly) (crossSquare.map gridPoly)
    (by rw [e0]; exact ieeePoly_is true crossDiamond) (by rw [e0]; exact ieeePoly_is false crossSquare) cross_polygons .union .positive 1 (Or.inl rfl)
    (consistent_positive _ _ _ (Or.inl rfl))
  refine ⟨n, fun fuel hf => ?_⟩
  obtain ⟨T, out, h1, h2, h3⟩ := hn fuel hf
  rw [e0, e0] at h2
  have r1 : round6All (crossDiamond.map gridPoly) = crossDiamond.map gridPoly := by decide +kernel
  have r2 : round6All (crossSquare.map gridPoly) = crossSquare.map gridPoly := by decide +kernel
  rw [r1, r2] at h2
  refine ⟨T, out, h1, h2, ?_, ?_⟩
  · rw [h3, if_pos]
    rw [e0, e0]
    exact Or.inl (show 0 < polyWinding (crossDiamond.map gridPoly) 0 (-4) by decide +kernel)
  · rw [h3, if_neg]
    rw [e0, e0]
    rintro (h | h)
    · exact absurd (show 0 < polyWinding (crossDiamond.map gridPoly) (-3) 6 from h) (by decide +kernel)
    · exact absurd (show 0 < polyWinding (crossSquare.map gridPoly) (-3) 6 from h) (by decide +kernel)

/-- A triangle with a corner at a third, as the program writes it. -/
theorem triangle_text : figStr ((⟨⟨FNum.lit 0, FNum.lit 0⟩, [.lineto ⟨FNum.lit (-4), FNum.lit 0⟩, .lineto ⟨FNum.lit (1 / 3), FNum.lit (5 / 2)⟩]⟩ : Drawn Dbl).text ++ [.z], .clip) =
    "<path d=\"M0.000000 0.000000 L-4.000000 0.000000 L0.333333 2.500000  Z \" stroke=\"blue\" fill=\"blue\" fill-opacity=\"0.2\"  /> ".toList := by
  decide +kernel

/-- A curve delivered, as the program writes it and as `make_path` reads it. -/
theorem curve_text : figStr ((⟨⟨FNum.lit 1, FNum.lit 2⟩, [.cubicto ⟨FNum.lit 3, FNum.lit 4⟩ ⟨FNum.lit (1 / 8), FNum.lit 5⟩ ⟨FNum.lit 6, FNum.lit (-1)⟩]⟩ : Drawn Dbl).text, .output) =
    "<path d=\"M1.000000 2.000000 C3.000000 4.000000 0.125000 5.000000 6.000000 -1.000000 \" stroke=\"black\" fill=\"tomato\"  /> ".toList ∧
    readData "M1.000000 2.000000 C3.000000 4.000000 0.125000 5.000000 6.000000 -1.000000 ".toList =
      some [Path.build [.moveto ⟨1, 2⟩, .cubicto ⟨3, 4⟩ ⟨1 / 8, 5⟩ ⟨6, -1⟩]] := by
  decide +kernel

end River
