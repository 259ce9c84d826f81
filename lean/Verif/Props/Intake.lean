import Verif.Props.Ring
import Verif.Props.BezierMono
import Verif.RatTrans

/-! # Contour intake (C27): what `add_path` stores for a path built through the API -/

set_option linter.unusedSectionVars false

namespace River

section any
variable {K : Type} [FTrans K]

/-- The segments stored for the commands of a contour. -/
def bodySegs (pen : Vec2 K) (cs : List (Cmd K)) : List (Seg K) := (bodyEdges pen cs).map Prod.snd

theorem foldlM_append (l : List (Seg K)) (rings : List (Ring K)) (c : Contour K) :
    l.foldlM Intake.append (⟨rings, some c⟩ : Intake K) = some ⟨rings, some { c with segs := c.segs ++ l }⟩ := by
  induction l generalizing c with
  | nil => simp
  | cons s l ih =>
    rw [List.foldlM_cons]
    show (Intake.append _ s).bind _ = _
    simp only [Intake.append, Option.bind_some, ih]
    simp

theorem cubicSegs_eq (b : Cubic K) :
    cubicSegs b = (b.readPieces.map (fun q => (q.p0, Seg.cubic q.p1 q.p2 q.p3))).map Prod.snd := by
  simp [cubicSegs, Function.comp_def]

theorem deliver_body (pt : PathType) (cs : List (Cmd K)) (hok : ∀ c ∈ cs, ∀ p, c ≠ .moveto p) (pen : Vec2 K)
    (rings : List (Ring K)) (c : Contour K) :
    (eventsFrom pen cs).foldl (Path.deliver (intakeFuncs pt)) (some ⟨rings, some c⟩) =
      some ⟨rings, some { c with segs := c.segs ++ bodySegs pen cs }⟩ := by
  induction cs generalizing pen c with
  | nil => simp [eventsFrom, bodySegs, bodyEdges]
  | cons a cs ih =>
    have hrest : ∀ c ∈ cs, ∀ p, c ≠ .moveto p := fun c hc => hok c (by simp [hc])
    rw [eventsFrom, List.foldl_cons]
    have hstep : Path.deliver (intakeFuncs pt) (some (⟨rings, some c⟩ : Intake K)) ⟨pen, a⟩ =
        some ⟨rings, some { c with segs := c.segs ++ (cmdEdges pen a).map Prod.snd }⟩ := by
      cases a with
      | moveto p => exact absurd rfl (hok _ (by simp) p)
      | lineto q =>
        simp only [Path.deliver, intakeFuncs, Option.bind_some, readLineto, cmdEdges]
        split <;> simp [Intake.append]
      | cubicto c1 c2 q =>
        simp only [Path.deliver, intakeFuncs, Option.bind_some, readCubicto, cmdEdges]
        split
        · simp only [readLineto]
          split <;> simp [Intake.append]
        · rw [foldlM_append, cubicSegs_eq]
    rw [hstep, ih hrest]
    simp [bodySegs, bodyEdges]

/-- What `insert_vertex_list` gets for a drawn contour. -/
def Drawn.contour (d : Drawn K) : Contour K := ⟨d.start, bodySegs d.start d.body⟩

theorem Intake.finish_cur (d : Intake K) (pt : PathType) : (d.finish pt).cur = none := by
  unfold Intake.finish
  split
  · assumption
  · split <;> rfl

theorem deliver_all (pt : PathType) (ds : List (Drawn K)) (hok : ∀ d ∈ ds, d.Ok) (pen : Vec2 K) (d0 : Intake K) :
    ∃ d1, (eventsFrom pen (ds.flatMap Drawn.cmds)).foldl (Path.deliver (intakeFuncs pt)) (some d0) = some d1 ∧
      (d1.finish pt).rings = (d0.finish pt).rings ++ ds.filterMap (fun d => insertVertexList d.contour pt) := by
  induction ds generalizing pen d0 with
  | nil => exact ⟨d0, by simp [eventsFrom], by simp⟩
  | cons d ds ih =>
    have hd := hok d (by simp)
    have hsplit : ∀ (l m : List (Cmd K)) (p : Vec2 K), ∃ p', eventsFrom p (l ++ m) = eventsFrom p l ++ eventsFrom p' m := by
      intro l m p
      induction l generalizing p with
      | nil => exact ⟨p, rfl⟩
      | cons a l ih =>
        obtain ⟨p', h⟩ := ih a.target
        exact ⟨p', by simp [eventsFrom, h]⟩
    rw [List.flatMap_cons]
    obtain ⟨p', hp⟩ := hsplit d.cmds (ds.flatMap Drawn.cmds) pen
    rw [hp, List.foldl_append]
    have h1 : (eventsFrom pen d.cmds).foldl (Path.deliver (intakeFuncs pt)) (some d0) =
        some ⟨(d0.finish pt).rings, some d.contour⟩ := by
      rw [Drawn.cmds, eventsFrom, List.foldl_cons]
      have : Path.deliver (intakeFuncs pt) (some d0) ⟨pen, .moveto d.start⟩ =
          some ⟨(d0.finish pt).rings, some ⟨d.start, []⟩⟩ := by
        simp [Path.deliver, intakeFuncs, readMoveto]
      rw [this, Cmd.target, deliver_body pt d.body hd]
      simp [Drawn.contour]
    rw [h1]
    obtain ⟨d1, h2, h3⟩ := ih (fun x hx => hok x (by simp [hx])) p' ⟨(d0.finish pt).rings, some d.contour⟩
    refine ⟨d1, h2, ?_⟩
    rw [h3]
    simp only [Intake.finish, List.filterMap_cons]
    cases insertVertexList d.contour pt with
    | none => simp
    | some r => simp

/-- **C27**: adding a path built through the API stores one ring per accepted contour, in drawing order, after the rings
already there, and never runs into undefined behaviour if every contour begins with a `moveto`. -/
theorem addPath1_spec (pt : PathType) (rings : List (Ring K)) (ds : List (Drawn K)) (hok : ∀ d ∈ ds, d.Ok) :
    addPath1 pt rings (Path.build (ds.flatMap Drawn.cmds)) =
      some (rings ++ ds.filterMap (fun d => insertVertexList d.contour pt)) := by
  obtain ⟨d1, h1, h2⟩ := deliver_all pt ds hok ⟨FNum.lit 0, FNum.lit 0⟩ ⟨rings, none⟩
  unfold addPath1
  rw [Path.traverse, Path.traverse_build, h1]
  simp only [Option.map_some]
  rw [h2]; rfl

/-- A path with at most one number stored is empty, so skipping it (`add_path(const paths&)`) loses nothing. -/
theorem build_small (cs : List (Cmd K)) (h : (Path.build cs).data.length ≤ 1) : cs = [] := by
  cases cs with
  | nil => rfl
  | cons c cs =>
    exfalso
    have hmono : ∀ (l : List (Cmd K)) (p : Path K), p.data.length ≤ (l.foldl Path.issue p).data.length := by
      intro l
      induction l with
      | nil => intro p; exact Nat.le_refl _
      | cons a l ih =>
        intro p
        refine Nat.le_trans ?_ (ih (Path.issue p a))
        cases a <;> simp [Path.issue, Path.moveto, Path.lineto, Path.cubicto]
    have h2 : 2 ≤ (Path.issue Path.empty c).data.length := by
      cases c <;> simp [Path.issue, Path.moveto, Path.lineto, Path.cubicto, Path.empty]
    have := hmono cs (Path.issue Path.empty c)
    have e : Path.build (c :: cs) = cs.foldl Path.issue (Path.issue Path.empty c) := rfl
    rw [e] at h
    omega

/-- **C27**: adding several paths adds the contours of all of them. -/
theorem addPaths_spec (pt : PathType) (rings : List (Ring K)) (dss : List (List (Drawn K)))
    (hok : ∀ ds ∈ dss, ∀ d ∈ ds, d.Ok) :
    addPaths pt rings (dss.map (fun ds => Path.build (ds.flatMap Drawn.cmds))) =
      some (rings ++ dss.flatten.filterMap (fun d => insertVertexList d.contour pt)) := by
  induction dss generalizing rings with
  | nil => simp [addPaths]
  | cons ds dss ih =>
    rw [List.map_cons, addPaths]
    split
    · rw [addPath1_spec pt rings ds (hok ds (by simp))]
      simp only [Option.bind_some]
      rw [ih _ (fun x hx => hok x (by simp [hx]))]
      simp
    · rename_i hs
      have hnil := build_small _ (Nat.le_of_not_gt hs)
      have : ds = [] := by
        cases ds with
        | nil => rfl
        | cons d ds => simp [Drawn.cmds] at hnil
      subst this
      rw [ih _ (fun x hx => hok x (by simp [hx]))]
      simp

theorem deliver_none (pt : PathType) (evs : List (Event K)) :
    evs.foldl (Path.deliver (intakeFuncs pt)) none = none := by
  induction evs with
  | nil => rfl
  | cons e evs ih =>
    rw [List.foldl_cons]
    have : Path.deliver (intakeFuncs (K := K) pt) none e = none := by
      unfold Path.deliver
      cases e.cmd <;> rfl
    rw [this, ih]

/-- **C27** (defect): a path whose first command is a `lineto` away from the origin makes `add_path` follow a null
pointer. -/
theorem addPath1_lineto_first (pt : PathType) (rings : List (Ring K)) (q : Vec2 K) (cs : List (Cmd K))
    (hq : Vec2.bne ⟨FNum.lit 0, FNum.lit 0⟩ q = true) : addPath1 pt rings (Path.build (.lineto q :: cs)) = none := by
  unfold addPath1
  rw [Path.traverse, Path.traverse_build, eventsFrom, List.foldl_cons]
  have : Path.deliver (intakeFuncs pt) (some (⟨rings, none⟩ : Intake K)) ⟨⟨FNum.lit 0, FNum.lit 0⟩, .lineto q⟩ = none := by
    simp [Path.deliver, intakeFuncs, readLineto, hq, Intake.append]
  rw [this, deliver_none]
  rfl

end any

section ordered
variable {K : Type} [FTrans K] [LinearOrder K] [LawfulOrd K]

/-- A stored ring has the vertices and segments of the closed contour. -/
theorem insertVertexList_nodes (c : Contour K) (pt : PathType) (r : Ring K) (h : insertVertexList c pt = some r) :
    ∃ nodes, closeContour c = some nodes ∧
      r.nodes.map (fun v => (v.pt, v.seg)) = nodes.map (fun v => (v.pt, v.seg)) ∧ r.ptype = pt := by
  unfold insertVertexList at h
  cases hc : closeContour c with
  | none => rw [hc] at h; simp at h
  | some nodes =>
    rw [hc] at h; dsimp only at h
    cases hg : goingDown0 nodes with
    | none => rw [hg] at h; simp at h
    | some g0 =>
      rw [hg] at h; simp only [Option.some.injEq] at h
      subst h
      exact ⟨nodes, rfl, flagLoop_pt_seg _ _ _, rfl⟩

theorem bodySegs_lines [DecidableEq K] (p : Vec2 K) (qs : List (Vec2 K)) :
    bodySegs p (qs.map .lineto) = (dedupFrom p qs).map .line := by
  induction qs generalizing p with
  | nil => rfl
  | cons q qs ih =>
    rw [List.map_cons, bodySegs, bodyEdges, List.map_append]
    have ih' := ih q
    rw [bodySegs] at ih'
    rw [Cmd.target, ih', cmdEdges, dedupFrom]
    have hb : Vec2.bne p q = true ↔ p ≠ q := by
      rw [Vec2.bne, Bool.not_eq_true']
      constructor
      · intro h e; rw [(Vec2.beq_iff p q).mpr e] at h; simp at h
      · intro h
        cases hbq : Vec2.beq p q with
        | false => rfl
        | true => exact absurd ((Vec2.beq_iff p q).mp hbq) h
    by_cases h : p = q
    · subst h
      have : ¬ (Vec2.bne p p = true) := by rw [hb]; simp
      simp [this]
    · rw [if_pos (hb.mpr h), if_neg h]; simp

theorem dedupFrom_mem_y [DecidableEq K] (p : Vec2 K) (qs : List (Vec2 K)) :
    ∀ q, (q = p ∨ q ∈ dedupFrom p qs) ↔ (q = p ∨ q ∈ qs) := by
  induction qs generalizing p with
  | nil => intro q; rfl
  | cons a qs ih =>
    intro q
    rw [dedupFrom]
    by_cases h : p = a
    · subst h
      rw [if_pos rfl, ih]; simp
    · rw [if_neg h, List.mem_cons, ih, List.mem_cons]

theorem dedupFrom_chain [DecidableEq K] (p : Vec2 K) (qs : List (Vec2 K)) : (p :: dedupFrom p qs).IsChain (· ≠ ·) := by
  induction qs generalizing p with
  | nil => simp [dedupFrom]
  | cons a qs ih =>
    rw [dedupFrom]
    by_cases h : p = a
    · rw [if_pos h]; exact ih p
    · rw [if_neg h, List.isChain_cons_cons]; exact ⟨h, ih a⟩

theorem closeContour_lines [DecidableEq K] (p : Vec2 K) (qs : List (Vec2 K)) :
    (closeContour ⟨p, (dedupFrom p qs).map Seg.line⟩ = none ↔ ∀ q ∈ qs, q = p) ∧
    ∀ nodes, closeContour ⟨p, (dedupFrom p qs).map Seg.line⟩ = some nodes → nodes.map Vtx.pt = polygonPts p qs ∧
      (∀ q, q ∈ nodes.map Vtx.pt ↔ q = p ∨ q ∈ qs) := by
  have hchain := dedupFrom_chain p qs
  have hmem := dedupFrom_mem_y p qs
  have hdrop : ∀ q, q ∈ polygonPts p qs ↔ q = p ∨ q ∈ qs := by
    intro q
    unfold polygonPts
    dsimp only
    rw [← hmem, ← List.mem_cons]
    split
    · rename_i hh
      obtain ⟨init, hin⟩ := List.getLast?_eq_some_iff.mp hh.2
      rw [hin, List.dropLast_concat, List.mem_append, List.mem_singleton]
      cases init with
      | nil => rw [hin] at hh; simp at hh
      | cons a init =>
        rw [List.cons_append, List.cons.injEq] at hin
        rw [hin.1]
        simp; tauto
    · rfl
  cases hd : (dedupFrom p qs).getLast? with
  | none =>
    rw [List.getLast?_eq_none_iff] at hd
    rw [hd] at hmem ⊢
    refine ⟨⟨fun _ q hq => ?_, fun _ => rfl⟩, fun nodes h => by simp [closeContour] at h⟩
    have := (hmem q).mpr (Or.inr hq)
    simpa using this
  | some l =>
    obtain ⟨init, hin⟩ := List.getLast?_eq_some_iff.mp hd
    have hne : ¬ ∀ q ∈ qs, q = p := by
      intro hall
      cases hdd : dedupFrom p qs with
      | nil => rw [hdd] at hd; simp at hd
      | cons a t =>
        rw [hdd, List.isChain_cons_cons] at hchain
        have ha : a = p ∨ a ∈ qs := (hmem a).mp (Or.inr (by rw [hdd]; simp))
        rcases ha with ha | ha
        · exact hchain.1 ha.symm
        · exact hchain.1 (hall a ha).symm
    have hlast : ((dedupFrom p qs).map Seg.line).getLast? = some (Seg.line l) := by
      rw [List.getLast?_map, hd]; rfl
    have htgt : ((dedupFrom p qs).map Seg.line).map Seg.target = dedupFrom p qs := by
      rw [List.map_map]
      have : (Seg.target ∘ Seg.line : Vec2 K → Vec2 K) = id := rfl
      rw [this, List.map_id]
    have hll : (p :: dedupFrom p qs).getLast? = some l := by rw [hin, ← List.cons_append, List.getLast?_concat]
    have hlen : 0 < (dedupFrom p qs).length := by rw [hin]; simp
    have hb : Vec2.bne p l = true ↔ p ≠ l := by
      rw [Vec2.bne, Bool.not_eq_true']
      constructor
      · intro h e; rw [(Vec2.beq_iff p l).mpr e] at h; simp at h
      · intro h
        cases hbq : Vec2.beq p l with
        | false => rfl
        | true => exact absurd ((Vec2.beq_iff p l).mp hbq) h
    unfold closeContour
    rw [hlast]
    dsimp only
    simp only [Seg.target, htgt]
    by_cases hpl : p = l
    · subst hpl
      have hnb : ¬ (Vec2.bne p p = true) := by rw [hb]; simp
      rw [if_neg hnb]
      have h1 : (List.map Seg.line (dedupFrom p qs)).length ≠ 1 := by
        intro h1
        rw [List.length_map] at h1
        obtain ⟨a, ha⟩ := List.length_eq_one_iff.mp h1
        rw [ha] at hd hchain
        simp at hd hchain
        exact hchain hd.symm
      rw [if_neg h1]
      refine ⟨by simp [hne], ?_⟩
      intro nodes hn
      simp only [Option.some.injEq] at hn
      have e : nodes.map Vtx.pt = polygonPts p qs := by
        subst hn
        rw [List.map_map]
        rw [show (Vtx.pt ∘ fun p : Vec2 K × Seg K => (⟨p.1, p.2, false, false⟩ : Vtx K)) = Prod.fst from rfl]
        unfold polygonPts
        dsimp only
        rw [if_pos ⟨by simp; omega, hll⟩]
        have : (p :: dedupFrom p qs) = (p :: init) ++ [p] := by rw [hin]; rfl
        rw [this, List.dropLast_concat]
        have hz := List.map_fst_zip (l₁ := p :: init) (l₂ := List.map Seg.line (dedupFrom p qs)) (by rw [hin]; simp)
        refine Eq.trans (congrArg (List.map Prod.fst) ?_) hz
        rw [← List.append_nil (List.map Seg.line (dedupFrom p qs)), List.zip_append (by rw [hin]; simp)]
        simp
      exact ⟨e, fun q => by rw [e]; exact hdrop q⟩
    · rw [if_pos (hb.mpr hpl)]
      refine ⟨by simp [hne], ?_⟩
      intro nodes hn
      simp only [Option.some.injEq] at hn
      have e : nodes.map Vtx.pt = polygonPts p qs := by
        subst hn
        rw [List.map_map]
        rw [show (Vtx.pt ∘ fun p : Vec2 K × Seg K => (⟨p.1, p.2, false, false⟩ : Vtx K)) = Prod.fst from rfl]
        unfold polygonPts
        dsimp only
        rw [if_neg (by rw [hll]; simp; intro _ h; exact hpl h.symm)]
        rw [List.map_fst_zip (by simp)]
      exact ⟨e, fun q => by rw [e]; exact hdrop q⟩

/-- **C27**: a polygon drawn with straight lines is ignored exactly when all its points have the same height; otherwise
its ring's vertices are its corners, without consecutive repetitions and without the repeated start. -/
theorem intake_polygon [DecidableEq K] (p : Vec2 K) (qs : List (Vec2 K)) (pt : PathType) :
    (insertVertexList (Drawn.contour ⟨p, qs.map .lineto⟩) pt = none ↔ ∀ q ∈ qs, q.y = p.y) ∧
    ∀ r, insertVertexList (Drawn.contour ⟨p, qs.map .lineto⟩) pt = some r →
      r.nodes.map Vtx.pt = polygonPts p qs ∧ Linked r.nodes ∧ r.ptype = pt := by
  have hc : Drawn.contour (⟨p, qs.map .lineto⟩ : Drawn K) = ⟨p, (dedupFrom p qs).map Seg.line⟩ := by
    unfold Drawn.contour; rw [bodySegs_lines]
  rw [hc]
  obtain ⟨h1, h2⟩ := closeContour_lines p qs
  constructor
  · rw [insertVertexList_none_iff]
    constructor
    · intro hall q hq
      cases hcc : closeContour ⟨p, (dedupFrom p qs).map Seg.line⟩ with
      | none => rw [h1.mp hcc q hq]
      | some nodes =>
        have hm := (h2 nodes hcc).2
        obtain ⟨v, hv, rfl⟩ := List.mem_map.mp ((hm q).mpr (Or.inr hq))
        obtain ⟨w, hw, hwp⟩ := List.mem_map.mp ((hm p).mpr (Or.inl rfl))
        have := hall nodes hcc v hv w hw
        rw [← hwp]; exact this
    · intro hall nodes hn v hv w hw
      have hm := (h2 nodes hn).2
      have hy : ∀ u ∈ nodes, u.y = p.y := by
        intro u hu
        rcases (hm u.pt).mp (List.mem_map.mpr ⟨u, hu, rfl⟩) with e | e
        · unfold Vtx.y; rw [e]
        · exact hall _ e
      rw [hy v hv, hy w hw]
  · intro r hr
    obtain ⟨nodes, hn, hps, hpt⟩ := insertVertexList_nodes _ pt r hr
    have hps1 : r.nodes.map Vtx.pt = nodes.map Vtx.pt := by
      have := congrArg (List.map Prod.fst) hps
      rw [List.map_map, List.map_map] at this
      exact this
    refine ⟨by rw [hps1]; exact (h2 nodes hn).1, ?_, hpt⟩
    have hlink := (closeContour_spec _ nodes hn).2.2
    have hlen : r.nodes.length = nodes.length := by
      have := congrArg List.length hps; simpa using this
    have hget : ∀ (i : Nat) (v : Vtx K), r.nodes[i]? = some v → ∃ u, nodes[i]? = some u ∧ u.pt = v.pt ∧ u.seg = v.seg := by
      intro i v hv
      have h3 : (r.nodes.map (fun v => (v.pt, v.seg)))[i]? = some (v.pt, v.seg) := by rw [List.getElem?_map, hv]; rfl
      rw [hps, List.getElem?_map, Option.map_eq_some_iff] at h3
      obtain ⟨u, hu, e⟩ := h3
      simp only [Prod.mk.injEq] at e
      exact ⟨u, hu, e.1, e.2⟩
    intro i v w hv hw
    rw [hlen] at hw
    obtain ⟨u, hu, _, hus⟩ := hget i v hv
    obtain ⟨u', hu', hup, _⟩ := hget _ w hw
    rw [← hus, ← hup]
    exact hlink i u u' hu hu'

end ordered

section exact

theorem map_fst_chain {α β : Type} (f : β → α) (start : α) (E : List (α × β))
    (hh : ∀ e ∈ E.head?, e.1 = start) (hc : E.IsChain (fun a b => f a.2 = b.1)) :
    (start :: E.map (fun e => f e.2)).take E.length = E.map Prod.fst := by
  induction E generalizing start with
  | nil => simp
  | cons a E ih =>
    have ha : a.1 = start := hh a (by simp)
    rw [List.length_cons, List.take_succ_cons, List.map_cons, List.map_cons, ← ha]
    rw [List.isChain_cons] at hc
    rw [ih (f a.2) (fun e he => (hc.1 e he).symm) hc.2]

/-- The edges of a contour follow each other from the pen position on. -/
theorem bodyEdges_chain (cs : List (Cmd ℝ)) (hok : ∀ c ∈ cs, ∀ p, c ≠ .moveto p) (pen : Vec2 ℝ) :
    (bodyEdges pen cs).IsChain (fun a b => a.2.target = b.1) ∧ (∀ e ∈ (bodyEdges pen cs).head?, e.1 = pen) := by
  have hcmd : ∀ (pen : Vec2 ℝ) (c : Cmd ℝ), (∀ p, c ≠ .moveto p) →
      (cmdEdges pen c).IsChain (fun a b => a.2.target = b.1) ∧ (∀ e ∈ (cmdEdges pen c).head?, e.1 = pen) ∧
      (∀ e ∈ (cmdEdges pen c).getLast?, e.2.target = c.target) ∧ (cmdEdges pen c = [] → pen = c.target) := by
    intro pen c hc
    have hline : ∀ q : Vec2 ℝ, ((if Vec2.bne pen q then [(pen, Seg.line q)] else []) : List (Vec2 ℝ × Seg ℝ)).IsChain
        (fun a b => a.2.target = b.1) ∧
        (∀ e ∈ ((if Vec2.bne pen q then [(pen, Seg.line q)] else []) : List (Vec2 ℝ × Seg ℝ)).head?, e.1 = pen) ∧
        (∀ e ∈ ((if Vec2.bne pen q then [(pen, Seg.line q)] else []) : List (Vec2 ℝ × Seg ℝ)).getLast?, e.2.target = q) ∧
        (((if Vec2.bne pen q then [(pen, Seg.line q)] else []) : List (Vec2 ℝ × Seg ℝ)) = [] → pen = q) := by
      intro q
      by_cases h : Vec2.bne pen q = true
      · simp [h, Seg.target]
      · have : Vec2.beq pen q = true := by simpa [Vec2.bne] using h
        rw [if_neg h]; simp [(Vec2.beq_iff _ _).mp this]
    cases c with
    | moveto p => exact absurd rfl (hc p)
    | lineto q => exact hline q
    | cubicto c1 c2 q =>
      simp only [cmdEdges]
      split
      · exact hline q
      · obtain ⟨h1, ⟨h, h2, h3⟩, ⟨l, h4, h5⟩⟩ := Cubic.readPieces_joins ⟨pen, c1, c2, q⟩
        refine ⟨?_, ?_, ?_, ?_⟩
        · rw [List.isChain_map]; exact h1
        · intro e he
          rw [List.head?_map, h2] at he
          simp only [Option.map_some, Option.mem_def, Option.some.injEq] at he
          rw [← he]; exact h3
        · intro e he
          rw [List.getLast?_map, h4] at he
          simp only [Option.map_some, Option.mem_def, Option.some.injEq] at he
          rw [← he]; exact h5
        · intro he
          rw [List.map_eq_nil_iff] at he
          rw [he] at h2; simp at h2
  induction cs generalizing pen with
  | nil => simp [bodyEdges]
  | cons c cs ih =>
    obtain ⟨h1, h2, h3, h4⟩ := hcmd pen c (hok c (by simp))
    obtain ⟨i1, i2⟩ := ih (fun x hx => hok x (by simp [hx])) c.target
    rw [bodyEdges]
    refine ⟨?_, ?_⟩
    · rw [List.isChain_append]
      refine ⟨h1, i1, ?_⟩
      intro a ha b hb
      rw [h3 a ha, i2 b hb]
    · intro e he
      cases hE : cmdEdges pen c with
      | nil =>
        rw [hE, List.nil_append] at he
        rw [i2 e he, h4 hE]
      | cons a t =>
        rw [hE] at he h2
        exact h2 e (by simpa using he)

/-- **C27**: with exact arithmetic the ring stored for a contour is its closed outline, edge by edge: every command's
line or curve pieces from the point where the previous one ended, closed by a straight line if needed. -/
theorem intake_outline (d : Drawn ℝ) (hok : d.Ok) (pt : PathType) (r : Ring ℝ)
    (h : insertVertexList d.contour pt = some r) : r.nodes.map (fun v => (v.pt, v.seg)) = outline d ∧ r.ptype = pt := by
  obtain ⟨nodes, hn, hps, hpt⟩ := insertVertexList_nodes _ pt r h
  refine ⟨?_, hpt⟩
  rw [hps]
  obtain ⟨hc, hh⟩ := bodyEdges_chain d.body hok d.start
  unfold outline
  unfold closeContour Drawn.contour bodySegs at hn
  dsimp only at hn
  rw [List.getLast?_map] at hn
  cases hl : (bodyEdges d.start d.body).getLast? with
  | none => rw [hl] at hn; simp at hn
  | some e =>
    obtain ⟨init, hin⟩ := List.getLast?_eq_some_iff.mp hl
    rw [hl] at hn
    simp only [Option.map_some] at hn
    dsimp only
    have key := map_fst_chain Seg.target d.start _ hh hc
    have htt : (bodyEdges d.start d.body).map (fun e => e.2.target) =
        ((bodyEdges d.start d.body).map Prod.snd).map Seg.target := by rw [List.map_map]; rfl
    have hfull : d.start :: (bodyEdges d.start d.body).map (fun e => e.2.target) =
        (bodyEdges d.start d.body).map Prod.fst ++ [e.2.target] := by
      have h1 := List.take_append_drop (bodyEdges d.start d.body).length
        (d.start :: (bodyEdges d.start d.body).map (fun e => e.2.target))
      rw [key] at h1
      rw [← h1]
      congr 1
      rw [hin]
      simp
    split at hn
    · rename_i hb
      rw [if_pos hb]
      simp only [Option.some.injEq] at hn
      subst hn
      rw [List.map_map]
      rw [show ((fun v : Vtx ℝ => (v.pt, v.seg)) ∘ fun p : Vec2 ℝ × Seg ℝ => (⟨p.1, p.2, false, false⟩ : Vtx ℝ)) = id from rfl,
        List.map_id, ← htt, hfull, List.zip_append (by simp)]
      congr 1
      exact (List.zip_of_prod rfl rfl).symm
    · rename_i hb
      rw [if_neg hb]
      split at hn
      · simp at hn
      · simp only [Option.some.injEq] at hn
        subst hn
        rw [List.map_map]
        rw [show ((fun v : Vtx ℝ => (v.pt, v.seg)) ∘ fun p : Vec2 ℝ × Seg ℝ => (⟨p.1, p.2, false, false⟩ : Vtx ℝ)) = id from rfl,
          List.map_id]
        have heq : d.start = e.2.target := by
          have : Vec2.beq d.start e.2.target = true := by simpa [Vec2.bne] using hb
          exact (Vec2.beq_iff _ _).mp this
        rw [← heq, ← htt, hfull]
        rw [← List.append_nil ((bodyEdges d.start d.body).map Prod.snd), List.zip_append (by simp)]
        rw [List.zip_nil_right, List.append_nil]
        exact (List.zip_of_prod rfl rfl).symm

end exact

/-! ## Concrete cases -/

/-- A square with a repeated corner and its start drawn again: four vertices, one minimum and one maximum. -/
example : (addPath1 (K := ℚ) .subject [] (Path.build
      [.moveto ⟨0, 0⟩, .lineto ⟨4, 0⟩, .lineto ⟨4, 0⟩, .lineto ⟨4, 4⟩, .lineto ⟨0, 4⟩, .lineto ⟨0, 0⟩])).map
    (fun rs => rs.map (fun r => r.nodes.map (fun v => (v.pt.x, v.pt.y, v.lmin, v.lmax)))) =
    some [[(0, 0, false, false), (4, 0, true, false), (4, 4, false, false), (0, 4, false, true)]] := by decide +kernel

example : (⟨⟨0, 0⟩, [.lineto ⟨4, 0⟩, .lineto ⟨4, 4⟩]⟩ : Drawn ℝ).Ok := by
  intro c hc p; simp at hc; rcases hc with rfl | rfl <;> simp

end River
