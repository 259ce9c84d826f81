import Verif.Lemmas.UprightCut

/-! # Contours that cross, after breaking -/

namespace River.Upright
variable {K : Type}

attribute [local instance 10000] FTrans.toFNum

theorem flatten_pos {α : Type} (chunks : List (List α)) (i : Nat) (w : α) (h : chunks.flatten[i]? = some w) :
    ∃ n k c, chunks[n]? = some c ∧ c[k]? = some w ∧ i = ((chunks.take n).map List.length).sum + k := by
  induction chunks generalizing i with
  | nil => simp at h
  | cons c cs ih =>
    rw [List.flatten_cons] at h
    by_cases hi : i < c.length
    · rw [List.getElem?_append_left hi] at h
      exact ⟨0, i, c, rfl, h, by simp⟩
    · rw [List.getElem?_append_right (by omega)] at h
      obtain ⟨n, k, d, h1, h2, h3⟩ := ih _ h
      exact ⟨n + 1, k, d, by simpa using h1, h2, by rw [List.take_succ_cons, List.map_cons, List.sum_cons]; omega⟩

section
variable [Field K] [LinearOrder K] [IsStrictOrderedRing K]
variable {A : Vtx K} {ts : List K} {c : List (Vtx K)}

theorem pieces_ne (h : CurvePieces A ts c) : c ≠ [] := by
  intro e
  have := h.len
  rw [e] at this; simp at this

theorem pieces_part (h : CurvePieces A ts c) {w : Vtx K} (hw : w ∈ c) : ∃ a b, IsPart (A.pt, A.seg) (w.pt, w.seg) a b := by
  obtain ⟨k, hk⟩ := List.getElem?_of_mem hw
  obtain ⟨a, b, _, _, hp⟩ := h.piece k w hk
  exact ⟨a, b, hp⟩

theorem pieces_up (h : CurvePieces A ts c) (hA : Climbs (A.pt, A.seg) ∨ Drops (A.pt, A.seg)) {w : Vtx K} (hw : w ∈ c) :
    (w.pt.y < w.seg.target.y ↔ A.pt.y < A.seg.target.y) ∧ (w.seg.target.y < w.pt.y ↔ A.seg.target.y < A.pt.y) := by
  obtain ⟨a, b, hp⟩ := pieces_part h hw
  exact part_up hp hA

theorem pieces_links (h : CurvePieces A ts c) : c.IsChain (fun u v => u.seg.target = v.pt) := by
  rw [List.isChain_iff_getElem]
  intro i hi
  obtain ⟨a, b, h1, h2, h3⟩ := h.piece i _ (List.getElem?_eq_getElem (by omega))
  obtain ⟨a', b', h1', h2', h3'⟩ := h.piece (i + 1) _ (List.getElem?_eq_getElem hi)
  rw [h2] at h1'
  cases h1'
  exact h3.ends.2.trans h3'.ends.1.symm

theorem pieces_flagged (h : CurvePieces A ts c) (hA : Climbs (A.pt, A.seg) ∨ Drops (A.pt, A.seg)) : c.IsChain FlagStep := by
  rw [List.isChain_iff_getElem]
  intro i hi
  obtain ⟨u1, u2⟩ := pieces_up h hA (List.getElem_mem (show i < c.length by omega))
  obtain ⟨v1, v2⟩ := pieces_up h hA (List.getElem_mem hi)
  have hf := h.flags (i + 1) _ (List.getElem?_eq_getElem hi)
  rw [if_neg (by omega), Prod.mk.injEq] at hf
  unfold FlagStep
  rw [hf.1, hf.2, u1, u2, v1, v2]
  refine ⟨⟨by simp, fun q => absurd (q.1.trans q.2) (lt_irrefl _)⟩, ⟨by simp, fun q => absurd (q.1.trans q.2) (lt_irrefl _)⟩⟩

theorem pieces_join {A' : Vtx K} {ts' : List K} {c' : List (Vtx K)} (h : CurvePieces A ts c) (h' : CurvePieces A' ts' c') (hA : Climbs (A.pt, A.seg) ∨ Drops (A.pt, A.seg))
    (hA' : Climbs (A'.pt, A'.seg) ∨ Drops (A'.pt, A'.seg)) (hs : FlagStep A A') {z a : Vtx K} (hz : z ∈ c.getLast?) (ha : a ∈ c'.head?) : FlagStep z a := by
  obtain ⟨u1, u2⟩ := pieces_up h hA (List.mem_of_getLast? hz)
  obtain ⟨v1, v2⟩ := pieces_up h' hA' (List.mem_of_head? ha)
  rw [List.head?_eq_getElem?] at ha
  have hf := h'.flags 0 a ha
  rw [if_pos rfl, Prod.mk.injEq] at hf
  unfold FlagStep at hs ⊢
  rw [hf.1, hf.2, u1, u2, v1, v2]
  exact hs

open Classical in
/-- What a side that is not horizontal contributes to a winding number. -/
theorem curveWinding_step (X y : K) {s : Vec2 K × Seg K} (hs : s.1.y ≠ s.2.target.y) :
    curveWinding X y s = if LeftAt X y s then step y s.2.target.y - step y s.1.y else 0 := by
  unfold curveWinding step
  by_cases hx : LeftAt X y s
  · rw [if_pos hx, if_pos hx]
    rcases lt_or_gt_of_ne hs with h | h
    · by_cases h1 : s.1.y ≤ y <;> by_cases h2 : s.2.target.y ≤ y
      · simp [h1, h2, h1.not_gt, h2.not_gt]
      · simp [h1, h2, not_le.1 h2]
      · exact absurd (h.le.trans h2) h1
      · simp [h1, h2]
    · by_cases h1 : s.1.y ≤ y <;> by_cases h2 : s.2.target.y ≤ y
      · simp [h1, h2, h1.not_gt, h2.not_gt]
      · exact absurd (h.le.trans h1) h2
      · simp [h1, h2, not_le.1 h1]
      · simp [h1, h2]
  · rw [if_neg hx, if_neg hx]

end

/-- A part is to the left of a point at one of its heights just if the whole side is. -/
theorem part_left {s w : Vec2 ℝ × Seg ℝ} {a b : ℝ} (h : IsPart s w a b) (hs : Climbs s ∨ Drops s) {X y : ℝ} (h1 : lowest w ≤ y) (h2 : y ≤ highest w) :
    LeftAt X y w ↔ LeftAt X y s := by
  have ha := h.low
  have hb := h.high
  have hp := sub_pos.2 h.lt
  constructor
  · rintro ⟨r, r0, r1, e, hx⟩
    rw [h.trace] at e hx
    exact ⟨_, by nlinarith, by nlinarith, e, hx⟩
  · rintro ⟨r, r0, r1, e, hx⟩
    obtain ⟨p, t, p1, p2, t0, t1, p3, p4, _⟩ := part_range h (reaches_real w) h1 h2
    have : r = p := runs_inj hs r0 r1 (ha.trans p1) (p2.trans hb) (e.trans p4.symm)
    subst this
    exact ⟨t, t0, t1, by rw [p3]; exact e, by rw [p3]; exact hx⟩

theorem pieces_winding {A : Vtx ℝ} {ts : List ℝ} {c : List (Vtx ℝ)} (h : CurvePieces A ts c) (hA : Climbs (A.pt, A.seg) ∨ Drops (A.pt, A.seg)) (X y : ℝ) :
    (c.map (fun w => curveWinding X y (w.pt, w.seg))).sum = curveWinding X y (A.pt, A.seg) := by
  classical
  have e : c.map (fun w => curveWinding X y (w.pt, w.seg)) =
      c.map (fun w => if LeftAt X y (A.pt, A.seg) then step y w.seg.target.y - step y w.pt.y else 0) := by
    refine List.map_congr_left (fun w hw => ?_)
    obtain ⟨a, b, hp⟩ := pieces_part h hw
    rw [curveWinding_step X y (runs_steep (part_runs hp hA))]
    simp only
    by_cases hr : lowest (w.pt, w.seg) ≤ y ∧ y ≤ highest (w.pt, w.seg)
    · have hl : LeftAt X y (w.pt, w.seg) ↔ LeftAt X y (A.pt, A.seg) := part_left hp hA hr.1 hr.2
      by_cases hx : LeftAt X y (A.pt, A.seg)
      · rw [if_pos hx, if_pos (hl.2 hx)]
      · rw [if_neg hx, if_neg (fun q => hx (hl.1 q))]
    · have : step y w.seg.target.y - step y w.pt.y = 0 := by
        unfold lowest highest at hr
        simp only at hr
        unfold step
        by_cases h1 : w.pt.y ≤ y <;> by_cases h2 : w.seg.target.y ≤ y
        · simp [h1, h2]
        · exact absurd ⟨(min_le_left _ _).trans h1, (not_le.1 h2).le.trans (le_max_right _ _)⟩ hr
        · exact absurd ⟨(min_le_right _ _).trans h2, (not_le.1 h1).le.trans (le_max_left _ _)⟩ hr
        · simp [h1, h2]
      rw [this, ite_self, ite_self]
  rw [e, curveWinding_step X y (s := (A.pt, A.seg)) (runs_steep hA)]
  obtain ⟨u, hu⟩ : ∃ u, c.head? = some u := ⟨_, List.head?_eq_some_head (pieces_ne h)⟩
  obtain ⟨z, hz⟩ : ∃ z, c.getLast? = some z := ⟨_, List.getLast?_eq_some_getLast (pieces_ne h)⟩
  by_cases hx : LeftAt X y (A.pt, A.seg)
  · simp only [hx, if_true]
    rw [telescope (step y) c (pieces_links h) u z hu hz]
    rw [List.head?_eq_getElem?] at hu
    obtain ⟨a, b, h1, _, h3⟩ := h.piece 0 u hu
    cases Option.some.inj h1
    rw [List.getLast?_eq_getElem?] at hz
    obtain ⟨a', b', _, h2', h3'⟩ := h.piece _ z hz
    have hb : b' = 1 := by
      rw [h.len, Nat.add_sub_cancel, List.getElem?_cons_succ, List.getElem?_append_right (le_refl _), Nat.sub_self] at h2'
      exact (Option.some.inj h2').symm
    subst hb
    have e1 := h3.ends.1
    have e2 := h3'.ends.2
    rw [(sidePoint_ends _).1] at e1
    rw [(sidePoint_ends _).2] at e2
    simp only at e1 e2
    rw [e1, e2]
  · simp [hx]

/-- Contours that cross: they are broken into sides that do not cross, each a part of a given side between two stops next to each other,
and no winding number changes. -/
theorem broken_tidy {rings : List (Ring ℝ)} (hlink : ∀ r ∈ rings, Linked r.nodes) (hflag : ∀ r ∈ rings, Cyc FlagStep r.nodes)
    (G : NodesGood (allNodes rings)) (env : Env ℝ) (hok : env.Ok) :
    ∃ rings', processIntersect env rings = some rings' ∧ Tidy rings' ∧
      (∀ s ∈ sides rings', ∃ n v a b, (allNodes rings)[n]? = some v ∧ IsPart (v.pt, v.seg) (s.frm, s.seg) a b ∧ NStop (allNodes rings) n v a ∧
        NStop (allNodes rings) n v b ∧ ∀ t, NStop (allNodes rings) n v t → ¬ (a < t ∧ t < b)) ∧
      ∀ X y, List.Forall₂ (fun r r' => r'.ptype = r.ptype ∧ (r'.nodes.map (crossing X y)).sum = (r.nodes.map (crossing X y)).sum) rings rings' := by
  obtain ⟨brks, hb, hT⟩ := collectBreaks_true G.toNodesCross env hok
  obtain ⟨rings', hr'⟩ : ∃ r, r = breakRings env.tsort (breakGroups env brks) 0 rings := ⟨_, rfl⟩
  have hp : processIntersect env rings = some rings' := by unfold processIntersect; rw [hb, hr']; rfl
  obtain ⟨N, hN⟩ : ∃ N, N = allNodes rings := ⟨_, rfl⟩
  rw [← hN] at G hT
  obtain ⟨chunks, hch⟩ : ∃ c, c = (N.zipIdx 0).map (fun vi => chunkOf env brks vi.2 vi.1) := ⟨_, rfl⟩
  obtain ⟨tss, htss⟩ : ∃ tss : Nat → List ℝ, ∀ n v, N[n]? = some v → tss n = cutParams env brks n v := by
    refine ⟨fun n => match N[n]? with
      | some v => cutParams env brks n v
      | none => [], fun n v h => by simp only [h]⟩
  have hget : ∀ n v, N[n]? = some v → chunks[n]? = some (chunkOf env brks n v) := by
    intro n v h
    rw [hch, List.getElem?_map, List.getElem?_zipIdx, h]
    simp
  have hflat : allNodes rings' = chunks.flatten := by
    rw [hr', breakRings_flat env hok brks rings hlink 0, hch, hN]
  have C : Cut N chunks tss := by
    refine ⟨by rw [hch]; simp, fun n v c hv hc => ?_, fun n v hv t => ?_⟩
    · rw [hget n v hv] at hc
      cases hc
      rw [htss n v hv]
      exact (chunk_pieces hT env hok hv).1
    · rw [htss n v hv]
      exact (chunk_pieces hT env hok hv).2 t
  have loc : ∀ s ∈ sides rings', ∃ i n k v a b, (sides rings')[i]? = some s ∧ i = ((chunks.take n).map List.length).sum + k ∧
      At N tss n k (s.frm, s.seg) v a b := by
    intro s hs
    obtain ⟨i, hi⟩ := List.getElem?_of_mem hs
    have h1 : ((sides rings').map (fun s => (s.frm, s.seg)))[i]? = some (s.frm, s.seg) := by rw [List.getElem?_map, hi]; rfl
    rw [sides_geo, List.getElem?_map] at h1
    obtain ⟨w, hw, ew⟩ := Option.map_eq_some_iff.1 h1
    rw [hflat] at hw
    obtain ⟨n, k, c, c1, c2, c3⟩ := flatten_pos chunks i w hw
    obtain ⟨v, a, b, hat⟩ := C.mem c1 c2
    rw [ew] at hat
    exact ⟨i, n, k, v, a, b, hi, c3, hat⟩
  have each := breakRings_each env hok brks rings hlink []
  rw [show (allNodes ([] : List (Ring ℝ))).length = 0 from rfl, ← hr'] at each
  simp only [List.nil_append] at each
  rw [← hN] at each
  have fN : ∀ v ∈ N, Fine (v.pt, v.seg) := G.fine
  have hmemN : ∀ r ∈ rings, ∀ v ∈ r.nodes, v ∈ N := fun r hr v hv => by rw [hN]; exact List.mem_flatMap.2 ⟨r, hr, hv⟩
  obtain ⟨chunks0, _, _, _, hF⟩ := breakRings_spec env hok brks rings hlink 0
  rw [← hr'] at hF
  refine ⟨rings', hp, ⟨?_, ?_, ?_, ?_, ?_, ?_⟩, ?_, ?_⟩
  · -- linked
    intro r' hr
    obtain ⟨i, hi⟩ := List.getElem?_of_mem hr
    obtain ⟨hl, hfa⟩ := List.forall₂_iff_get.1 hF
    obtain ⟨hi', e⟩ := List.getElem?_eq_some_iff.1 hi
    have := hfa i (by omega) hi'
    rw [← e]
    exact this.2.2.1
  · -- flags
    intro r' hr
    obtain ⟨i, hi⟩ := List.getElem?_of_mem hr
    obtain ⟨hl, hfa⟩ := List.forall₂_iff_get.1 each
    obtain ⟨hi', e⟩ := List.getElem?_eq_some_iff.1 hi
    obtain ⟨_, cs, c1, c2, c3⟩ := hfa i (by omega) hi'
    rw [List.get_eq_getElem, e] at c1
    rw [List.get_eq_getElem] at c2 c3
    have hr0 : rings[i] ∈ rings := List.getElem_mem (by omega)
    rw [c1]
    refine cyc_flatten FlagStep FlagStep (fun v c => (Climbs (v.pt, v.seg) ∨ Drops (v.pt, v.seg)) ∧ ∃ ts, CurvePieces v ts c) _ cs c2 (hflag _ hr0) ?_ ?_ ?_ ?_
    · intro k v c hv hc
      obtain ⟨n, hn, rfl⟩ := c3 k v c hv hc
      exact ⟨(fN v (List.mem_of_getElem? hn)).runs, _, (chunk_pieces hT env hok hn).1⟩
    · rintro v c ⟨_, ts, h⟩
      exact pieces_ne h
    · rintro v c ⟨hv, ts, h⟩
      exact pieces_flagged h hv
    · rintro v w c d hs ⟨hv, ts, h⟩ ⟨hw, ts', h'⟩ z hz a ha
      exact pieces_join h h' hv hw hs hz ha
  · -- low
    intro s hs
    obtain ⟨_, n, k, v, a, b, _, _, hat⟩ := loc s hs
    have hv := List.mem_of_getElem? hat.node
    exact (G.low v hv).trans_le (part_lowest hat.part (fN v hv)).1
  · intro s hs
    obtain ⟨_, n, k, v, a, b, _, _, hat⟩ := loc s hs
    exact hat.fine C G
  · intro s hs t ht hne
    obtain ⟨i, n, k, v, a, b, hi, ei, hat⟩ := loc s hs
    obtain ⟨j, m, l, w, c, d, hj, ej, hat'⟩ := loc t ht
    refine hat.clear hat' C G (fun e => hne ?_)
    cases e
    rw [← ej] at ei
    subst ei
    exact Option.some.inj (hi.symm.trans hj)
  · intro s hs t ht u hu e1 e2
    obtain ⟨i, n, k, v, a, b, hi, ei, hat⟩ := loc s hs
    obtain ⟨j, m, l, w, c, d, hj, ej, hat'⟩ := loc t ht
    obtain ⟨p, o, q, x, e, f, hp, ep, hat''⟩ := loc u hu
    rcases hat.feet hat' hat'' C G e1 e2 with h | h | h
    · left
      cases h
      rw [← ej] at ei
      subst ei
      exact Option.some.inj (hi.symm.trans hj)
    · right; left
      cases h
      rw [← ep] at ei
      subst ei
      exact Option.some.inj (hi.symm.trans hp)
    · right; right
      cases h
      rw [← ep] at ej
      subst ej
      exact Option.some.inj (hj.symm.trans hp)
  · intro s hs
    obtain ⟨_, n, k, v, a, b, _, _, hat⟩ := loc s hs
    rw [← hN]
    refine ⟨n, v, a, b, hat.node, hat.part, C.stop_mem hat.node (List.mem_of_getElem? hat.frm), C.stop_mem hat.node (List.mem_of_getElem? hat.upto), ?_⟩
    rintro t ht ⟨t1, t2⟩
    have hm : t ∈ 0 :: (tss n ++ [1]) := by
      rcases ht with rfl | rfl | ⟨j, w, hj, hw, r, hr⟩
      · simp
      · simp
      · exact C.meet_mem G hat.node hw hj.symm hr
    rcases C.outside hat hm t1.le t2.le with e | e
    · exact t1.ne' e
    · exact t2.ne e
  · intro X y
    refine List.Forall₂.imp ?_ each
    rintro r r' ⟨e, cs, c1, c2, c3⟩
    refine ⟨e, ?_⟩
    rw [c1, sum_flatten _ (fun c => (c.map (River.crossing X y)).sum) (fun _ => rfl)]
    congr 1
    apply List.ext_getElem?
    intro i
    rw [List.getElem?_map, List.getElem?_map]
    cases hi : cs[i]? with
    | none =>
      rw [List.getElem?_eq_none_iff, c2, ← List.getElem?_eq_none_iff] at hi
      rw [hi]; rfl
    | some c =>
      have hlt : i < r.nodes.length := c2 ▸ (List.getElem?_eq_some_iff.1 hi).1
      have hv := List.getElem?_eq_getElem hlt
      obtain ⟨n, hn, rfl⟩ := c3 i _ c hv hi
      have hcp := (chunk_pieces hT env hok hn).1
      have fv := fN _ (List.mem_of_getElem? hn)
      rw [hv]
      refine congrArg some ?_
      rw [crossing_curve X y fv, ← pieces_winding hcp fv.runs X y]
      refine congrArg List.sum (List.map_congr_left (fun w hw => crossing_curve X y ?_))
      obtain ⟨k, hk⟩ := List.getElem?_of_mem hw
      obtain ⟨v, a, b, hat⟩ := C.mem (hget n _ hn) hk
      exact hat.fine C G

end River.Upright
