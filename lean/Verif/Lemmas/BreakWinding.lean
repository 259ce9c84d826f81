import Verif.Lemmas.BrokenArranged
import Verif.Props.Region

/-! # Breaking contours leaves winding numbers as they are -/

namespace River
variable {K : Type}

attribute [local instance 10000] FTrans.toFNum

/-- What the segment of a vertex contributes to the winding number at `(X, y)`. -/
def crossing [FTrans K] [LinearOrder K] [Absc K] (X y : K) (v : Vtx K) : Int :=
  if (⟨0, 0, v.pt, v.seg, .subject⟩ : Side K).Above y ∧ (⟨0, 0, v.pt, v.seg, .subject⟩ : Side K).x y < X then
    (⟨0, 0, v.pt, v.seg, .subject⟩ : Side K).dx else 0

theorem wnS_crossing [FTrans K] [LinearOrder K] [Absc K] (X y : K) (t : PathType) (rings : List (Ring K)) :
    wnS t ((sides rings).filter (fun s => decide (s.Above y ∧ s.x y < X))) =
      (rings.map (fun r => if r.ptype = t then (r.nodes.map (crossing X y)).sum else 0)).sum := by
  have e : ∀ l : List (Side K), wnS t (l.filter (fun s => decide (s.Above y ∧ s.x y < X))) =
      (l.map (fun s => if s.ptype = t then crossing X y ⟨s.frm, s.seg, false, false⟩ else 0)).sum := by
    intro l
    induction l with
    | nil => rfl
    | cons s l ih =>
      rw [List.map_cons, List.sum_cons, ← ih]
      unfold wnS
      rw [List.filter_cons]
      have hc : crossing X y ⟨s.frm, s.seg, false, false⟩ = if s.Above y ∧ s.x y < X then s.dx else 0 := rfl
      rw [hc]
      by_cases hA : s.Above y ∧ s.x y < X
      · rw [if_pos (by simpa using hA), List.filter_cons]
        by_cases ht : s.ptype = t <;> simp [ht, hA]
      · rw [if_neg (by simpa using hA)]
        by_cases ht : s.ptype = t <;> simp [ht, hA]
  rw [e]
  have key : ∀ n : Nat, (((rings.zipIdx n).flatMap (fun r => r.1.nodes.zipIdx.map (fun v => (⟨r.2, v.2, v.1.pt, v.1.seg, r.1.ptype⟩ : Side K)))).map
      (fun s => if s.ptype = t then crossing X y ⟨s.frm, s.seg, false, false⟩ else 0)).sum =
      (rings.map (fun r => if r.ptype = t then (r.nodes.map (crossing X y)).sum else 0)).sum := by
    clear e
    induction rings with
    | nil => intro n; rfl
    | cons r rs ih =>
      intro n
      rw [List.zipIdx_cons, List.flatMap_cons, List.map_append, List.sum_append, ih, List.map_cons, List.sum_cons]
      congr 1
      rw [List.map_map]
      have : ∀ (l : List (Vtx K)) (m : Nat), ((l.zipIdx m).map ((fun s : Side K => if s.ptype = t then crossing X y ⟨s.frm, s.seg, false, false⟩ else 0) ∘
          (fun v : Vtx K × Nat => (⟨n, v.2, v.1.pt, v.1.seg, r.ptype⟩ : Side K)))).sum = if r.ptype = t then (l.map (crossing X y)).sum else 0 := by
        intro l
        induction l with
        | nil => intro m; simp
        | cons v l ih =>
          intro m
          rw [List.zipIdx_cons, List.map_cons, List.sum_cons, ih, List.map_cons, List.sum_cons]
          simp only [Function.comp]
          have hc : crossing X y ⟨v.pt, v.seg, false, false⟩ = crossing X y v := rfl
          rw [hc]
          by_cases ht : r.ptype = t <;> simp [ht]
      exact this r.nodes 0
  exact key 0

variable [Field K] [LinearOrder K] [IsStrictOrderedRing K] [FTrans K] [LawfulOrd K] [Exact K]

/-- 1 at and above a height. -/
def step (y h : K) : Int := if h ≤ y then 1 else 0

/-- The contribution of a straight segment. -/
theorem crossing_line (X y : K) {v : Vtx K} (hs : v.seg = .line v.seg.target) (hl : v.pt.y ≠ v.seg.target.y) :
    crossing X y v = if lineX v.pt v.seg.target y < X then step y v.seg.target.y - step y v.pt.y else 0 := by
  obtain ⟨s, hs'⟩ : ∃ s : Side K, s = ⟨0, 0, v.pt, v.seg, .subject⟩ := ⟨_, rfl⟩
  have e : crossing X y v = if s.Above y ∧ s.x y < X then s.dx else 0 := by rw [hs']; rfl
  have e1 : v.pt = s.frm := by rw [hs']
  have e2 : v.seg = s.seg := by rw [hs']
  rw [e1, e2] at hl
  have hx := Side.x_line (s := s) (by unfold Side.Straight; rw [← e2]; exact hs) hl y
  rw [e, e1, e2, hx]
  clear e e1 e2 hs' hx hs
  unfold Side.Above Side.dx step Side.bot Side.top Side.up
  rcases lt_or_gt_of_ne hl with h | h
  · simp only [h, decide_true, if_true]
    by_cases h1 : s.frm.y ≤ y <;> by_cases h2 : s.seg.target.y ≤ y <;> by_cases h3 : lineX s.frm s.seg.target y < X <;> simp [h1, h2, h3]
    exact absurd (h.le.trans h2) h1
  · simp only [not_lt.2 h.le, decide_false, Bool.false_eq_true, if_false]
    rw [lineX_symm hl]
    by_cases h1 : s.frm.y ≤ y <;> by_cases h2 : s.seg.target.y ≤ y <;> by_cases h3 : lineX s.seg.target s.frm y < X <;> simp [h1, h2, h3]
    exact absurd (h.le.trans h1) h2

omit [Field K] [IsStrictOrderedRing K] [LawfulOrd K] [Exact K] in
/-- A horizontal segment contributes nothing. -/
theorem crossing_flat (X y : K) {v : Vtx K} (hl : v.pt.y = v.seg.target.y) : crossing X y v = 0 := by
  unfold crossing
  rw [if_neg]
  rintro ⟨h, _⟩
  exact Side.Above.steep h hl

omit [FTrans K] [LawfulOrd K] [Exact K] in
theorem SubPiece.lineX_eq {A w : Vtx K} {a b : K} (h : SubPiece A w a b) (hl : A.pt.y ≠ A.seg.target.y) (y : K) :
    lineX w.pt w.seg.target y = lineX A.pt A.seg.target y := by
  have hd : A.seg.target.y - A.pt.y ≠ 0 := sub_ne_zero.2 hl.symm
  have hb : b - a ≠ 0 := (sub_pos.2 h.lt).ne'
  rw [h.pt, show w.seg.target = lerp A.pt A.seg.target b by rw [h.seg]; rfl]
  simp only [lineX, lerp]
  have : A.pt.y + b * (A.seg.target.y - A.pt.y) - (A.pt.y + a * (A.seg.target.y - A.pt.y)) = (b - a) * (A.seg.target.y - A.pt.y) := by ring
  rw [this]
  field_simp
  ring

omit [Field K] [LinearOrder K] [IsStrictOrderedRing K] [FTrans K] [LawfulOrd K] [Exact K] in
theorem telescope (F : K → Int) (c : List (Vtx K)) (h : c.IsChain (fun a b => a.seg.target = b.pt)) (u z : Vtx K) (hu : c.head? = some u)
    (hz : c.getLast? = some z) : (c.map (fun w => F w.seg.target.y - F w.pt.y)).sum = F z.seg.target.y - F u.pt.y := by
  induction c generalizing u with
  | nil => simp at hu
  | cons a c ih =>
    cases Option.some.inj hu
    cases c with
    | nil =>
      cases Option.some.inj hz
      simp
    | cons b c =>
      rw [List.isChain_cons_cons] at h
      rw [List.map_cons, List.sum_cons, ih h.2 b rfl (by rw [List.getLast?_cons_cons] at hz; exact hz), h.1]
      omega

/-- The pieces of a segment contribute what the segment contributes. -/
theorem Pieces.crossing {A : Vtx K} {ts : List K} {c : List (Vtx K)} (h : Pieces A ts c) (hs : A.seg = .line A.seg.target)
    (X y : K) : (c.map (River.crossing X y)).sum = River.crossing X y A := by
  have hsub : ∀ w ∈ c, ∃ a b, SubPiece A w a b := by
    intro w hw
    obtain ⟨k, hk⟩ := List.getElem?_of_mem hw
    obtain ⟨a, b, _, _, hp⟩ := h.piece k w hk
    exact ⟨a, b, hp⟩
  by_cases hl : A.pt.y = A.seg.target.y
  · rw [crossing_flat X y hl]
    refine List.sum_eq_zero (fun n hn => ?_)
    obtain ⟨w, hw, rfl⟩ := List.mem_map.1 hn
    obtain ⟨a, b, hp⟩ := hsub w hw
    refine crossing_flat X y ?_
    rw [hp.ys.1, hp.ys.2, hl, sub_self, mul_zero, mul_zero]
  have e : c.map (River.crossing X y) = c.map (fun w => if lineX A.pt A.seg.target y < X then step y w.seg.target.y - step y w.pt.y else 0) := by
    refine List.map_congr_left (fun w hw => ?_)
    obtain ⟨a, b, hp⟩ := hsub w hw
    rw [crossing_line X y (by rw [hp.seg]; rfl) ?_, hp.lineX_eq hl]
    rcases lt_or_gt_of_ne hl with h' | h'
    · exact (hp.up.1.2 h').ne
    · exact (hp.up.2.2 h').ne'
  rw [e, crossing_line X y hs hl]
  have hne : c ≠ [] := by
    intro e
    have := h.len
    rw [e] at this; simp at this
  obtain ⟨u, hu⟩ : ∃ u, c.head? = some u := ⟨_, List.head?_eq_some_head hne⟩
  obtain ⟨z, hz⟩ : ∃ z, c.getLast? = some z := ⟨_, List.getLast?_eq_some_getLast hne⟩
  by_cases hx : lineX A.pt A.seg.target y < X
  · simp only [hx, if_true]
    rw [telescope (step y) c (h.chain.imp (fun _ _ ⟨_, _, _, h⟩ => h.link)) u z hu hz]
    obtain ⟨b, hb, _⟩ := h.first hu
    obtain ⟨a, ha⟩ := h.last hz
    rw [hb.pt, lerp_zero, ha.seg]
    show step y (lerp A.pt A.seg.target 1).y - _ = _
    rw [lerp_one]
  · simp [hx]

omit [Field K] [LinearOrder K] [IsStrictOrderedRing K] [FTrans K] [LawfulOrd K] [Exact K] in
theorem sum_flatten {α : Type} (f : α → Int) (g : List α → Int) (h : ∀ c, g c = (c.map f).sum) (chunks : List (List α)) :
    (chunks.flatten.map f).sum = (chunks.map g).sum := by
  induction chunks with
  | nil => rfl
  | cons c cs ih => rw [List.flatten_cons, List.map_append, List.sum_append, ih, List.map_cons, List.sum_cons, h]

/-- Breaking leaves the winding number of every contour as it is. -/
theorem BrokenInto.ring {rings rings' : List (Ring K)} (h : BrokenInto rings rings') (hN : NodesOk (allNodes rings)) (X y : K) :
    List.Forall₂ (fun r r' => r'.ptype = r.ptype ∧ (r'.nodes.map (River.crossing X y)).sum = (r.nodes.map (River.crossing X y)).sum) rings rings' := by
  have hp := h.pieces
  clear h
  replace hN := hN.line
  induction hp with
  | nil => exact .nil
  | @cons r r' rs rs' h1 h2 ih =>
    have hsplit : allNodes (r :: rs) = r.nodes ++ allNodes rs := List.flatMap_cons
    have hN' : ∀ v ∈ allNodes rs, v.seg = .line v.seg.target := fun v hv => hN v (by rw [hsplit]; exact List.mem_append_right _ hv)
    refine .cons ?_ (ih hN')
    obtain ⟨e, chunks, c1, c2, c3⟩ := h1
    refine ⟨e, ?_⟩
    rw [c1, sum_flatten _ (fun c => (c.map (River.crossing X y)).sum) (fun _ => rfl)]
    have : chunks.map (fun c => (c.map (River.crossing X y)).sum) = r.nodes.map (River.crossing X y) := by
      apply List.ext_getElem?
      intro i
      rw [List.getElem?_map, List.getElem?_map]
      cases hi : chunks[i]? with
      | none =>
        rw [List.getElem?_eq_none_iff, c2, ← List.getElem?_eq_none_iff] at hi
        rw [hi]; rfl
      | some c =>
        have hlt : i < r.nodes.length := c2 ▸ (List.getElem?_eq_some_iff.1 hi).1
        have hv := List.getElem?_eq_getElem hlt
        obtain ⟨ts, hts⟩ := c3 i _ c hv hi
        have hm : r.nodes[i] ∈ allNodes (r :: rs) := by rw [hsplit]; exact List.mem_append_left _ (List.getElem_mem hlt)
        rw [hv]
        exact congrArg some (hts.crossing (hN _ hm) X y)
    rw [this]

/-- Breaking leaves every winding number as it is. -/
theorem BrokenInto.wnS {rings rings' : List (Ring K)} (h : BrokenInto rings rings') (hN : NodesOk (allNodes rings)) (t : PathType) (X y : K) :
    River.wnS t ((sides rings').filter (fun s => decide (s.Above y ∧ s.x y < X))) =
      River.wnS t ((sides rings).filter (fun s => decide (s.Above y ∧ s.x y < X))) := by
  rw [wnS_crossing, wnS_crossing]
  have := h.ring hN X y
  clear h hN
  induction this with
  | nil => rfl
  | cons h1 _ ih => rw [List.map_cons, List.sum_cons, List.map_cons, List.sum_cons, ih, h1.1, h1.2]

theorem BrokenInto.pointIn {rings rings' : List (Ring K)} (h : BrokenInto rings rings') (hN : NodesOk (allNodes rings)) (ct : ClipType) (fr : FillRule)
    (X y : K) : PointIn rings' ct fr X y ↔ PointIn rings ct fr X y := by
  unfold PointIn inResultS
  rw [h.wnS hN, h.wnS hN]

end River
