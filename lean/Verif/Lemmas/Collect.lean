import Verif.Lemmas.LineExact
import Verif.Props.Break
import Verif.Props.ScanLine

/-! # The break records of straight contours in exact arithmetic -/

namespace River
variable {K : Type}

attribute [local instance 10000] FTrans.toFNum

variable [Field K] [LinearOrder K] [IsStrictOrderedRing K] [FTrans K] [LawfulOrd K] [Exact K]

/-- What is asked of the list of all vertices. -/
structure NodesOk (N : List (Vtx K)) : Prop where
  line : ∀ v ∈ N, v.seg = .line v.seg.target
  proper : ∀ v ∈ N, v.pt ≠ v.seg.target
  range : ∀ v ∈ N, InDoubles v.pt ∧ InDoubles v.seg.target
  meet : ∀ (i j : Nat) (v w : Vtx K), i ≠ j → N[i]? = some v → N[j]? = some w → MeetOk v.pt v.seg.target w.pt w.seg.target
  along : ∀ v ∈ N, ∀ w ∈ N, w.pt.y ≠ w.seg.target.y → Parallel v.pt v.seg.target w.pt w.seg.target →
    ∀ p, p = v.pt ∨ p = v.seg.target → InsideSeg p w.pt w.seg.target →
      ∃ u ∈ N, ¬ Parallel u.pt u.seg.target w.pt w.seg.target ∧ OnSeg p u.pt u.seg.target

/-- Where a break may come from: a point of another segment `w`, and if that is parallel to the broken segment `v`, an end of it. -/
def Source (v w : Vtx K) (p : Vec2 K) : Prop :=
  OnSeg p w.pt w.seg.target ∧ (Parallel v.pt v.seg.target w.pt w.seg.target → p = w.pt ∨ p = w.seg.target)

theorem inUnit_iff (t : K) : inUnit t = true ↔ 1 / 1000000 < t ∧ t < 1 - 1 / 1000000 := by
  unfold inUnit
  rw [Bool.and_eq_true, lt_eq_decide, lt_eq_decide, decide_eq_true_eq, decide_eq_true_eq, exact_zero, exact_one, Exact.add_eq,
    Exact.sub_eq, Exact.lit_eq]
  norm_num

omit [IsStrictOrderedRing K] [Exact K] in
/-- A point of a segment lies in its box. -/
theorem boundary_mem {v : Vtx K} [IsStrictOrderedRing K] (hl : v.seg = .line v.seg.target) (h1 : InDoubles v.pt) (h2 : InDoubles v.seg.target) :
    (v.seg.boundary v.pt).Valid ∧ ∀ a, 0 ≤ a → a ≤ 1 → (v.seg.boundary v.pt).Mem (lerp v.pt v.seg.target a) := by
  obtain ⟨t, ht⟩ : ∃ t, t = v.seg.target := ⟨_, rfl⟩
  have hb : v.seg.boundary v.pt = Rect.of [t, v.pt] := by rw [hl, ht]; rfl
  have bb := Rect.of_isBBox [t, v.pt] (by simp) (by
    intro p hp
    simp only [List.mem_cons, List.not_mem_nil, or_false] at hp
    rcases hp with rfl | rfl
    · rw [ht]; exact h2
    · exact h1)
  rw [hb]
  refine ⟨bb.valid, fun a a0 a1 => ?_⟩
  have m1 := bb.mem v.pt (by simp)
  have m2 := bb.mem t (by simp)
  have conv : ∀ lo hi x y : K, lo ≤ x → x ≤ hi → lo ≤ y → y ≤ hi → lo ≤ x + a * (y - x) ∧ x + a * (y - x) ≤ hi := by
    intro lo hi x y b1 b2 b3 b4
    have e : x + a * (y - x) = (1 - a) * x + a * y := by ring
    have c0 : 0 ≤ 1 - a := sub_nonneg.2 a1
    rw [e]
    constructor
    · have := mul_le_mul_of_nonneg_left b1 c0
      have := mul_le_mul_of_nonneg_left b3 a0
      linarith
    · have := mul_le_mul_of_nonneg_left b2 c0
      have := mul_le_mul_of_nonneg_left b4 a0
      linarith
  obtain ⟨x1, x2, x3, x4⟩ := m1
  obtain ⟨y1, y2, y3, y4⟩ := m2
  rw [← ht]
  obtain ⟨c1, c2⟩ := conv _ _ _ _ x1 x2 y1 y2
  obtain ⟨c3, c4⟩ := conv _ _ _ _ x3 x4 y3 y4
  exact ⟨c1, c2, c3, c4⟩

/-- One call of `clipper::intersect`. -/
theorem intersectVtx_exact {N : List (Vtx K)} (h : NodesOk N) (csort : List (Cell K × Cell K) → List (Cell K × Cell K)) (i j : Nat) (v w : Vtx K) (hij : i ≠ j)
    (hv : N[i]? = some v) (hw : N[j]? = some w) :
    ∃ bs, intersectVtx csort i j v w = some bs ∧
      (∀ b ∈ bs, inUnit b.t = true ∧ ((b.vert = i ∧ b.pt = lerp v.pt v.seg.target b.t ∧ Source v w b.pt) ∨
        (b.vert = j ∧ b.pt = lerp w.pt w.seg.target b.t ∧ Source w v b.pt))) ∧
      (¬ Parallel v.pt v.seg.target w.pt w.seg.target → ∀ a b, 0 ≤ a → a ≤ 1 → 0 ≤ b → b ≤ 1 →
        lerp v.pt v.seg.target a = lerp w.pt w.seg.target b →
        (inUnit a = true → (⟨i, lerp v.pt v.seg.target a, a⟩ : Brk K) ∈ bs) ∧ (inUnit b = true → (⟨j, lerp w.pt w.seg.target b, b⟩ : Brk K) ∈ bs)) := by
  have mv := List.mem_of_getElem? hv
  have mw := List.mem_of_getElem? hw
  have e : intersectVtx csort i j v w = (lineIntersect v.pt v.seg.target w.pt w.seg.target).map (pushBreaks i j) := by
    obtain ⟨t, ht⟩ : ∃ t, t = v.seg.target := ⟨_, rfl⟩
    obtain ⟨u, hu⟩ : ∃ t, t = w.seg.target := ⟨_, rfl⟩
    unfold intersectVtx
    rw [h.line v mv, h.line w mw, ← ht, ← hu]
    rfl
  rw [e]
  by_cases hp : Parallel v.pt v.seg.target w.pt w.seg.target
  · obtain ⟨l, e1, e2⟩ := lineIntersect_along hp (h.proper v mv) (h.proper w mw) (h.range v mv).1 (h.range v mv).2 (h.range w mw).1 (h.range w mw).2
    rw [e1]
    refine ⟨_, rfl, ?_, fun hn => absurd hp hn⟩
    intro b hb
    obtain ⟨d, hd, hx⟩ := (mem_pushBreaks i j l b).1 hb
    obtain ⟨a0, a1, b0, b1, p1, p2, hend⟩ := e2 d hd
    have inner : ∀ t : K, inUnit t = true → t ≠ 0 ∧ t ≠ 1 := by
      intro t ht
      rw [inUnit_iff] at ht
      constructor <;> rintro rfl <;> norm_num at ht
    rcases hx with ⟨hu, rfl⟩ | ⟨hu, rfl⟩
    · refine ⟨hu, Or.inl ⟨rfl, p1, ⟨d.t1, b0, b1, p2⟩, fun _ => ?_⟩⟩
      rcases hend with e | e | e | e
      · exact absurd e (inner _ hu).1
      · exact absurd e (inner _ hu).2
      · left; simp only; rw [p2, e, lerp_zero]
      · right; simp only; rw [p2, e, lerp_one]
    · refine ⟨hu, Or.inr ⟨rfl, p2, ⟨d.t0, a0, a1, p1⟩, fun _ => ?_⟩⟩
      rcases hend with e | e | e | e
      · left; simp only; rw [p1, e, lerp_zero]
      · right; simp only; rw [p1, e, lerp_one]
      · exact absurd e (inner _ hu).1
      · exact absurd e (inner _ hu).2
  · obtain ⟨l, e1, e2, e3⟩ := lineIntersect_exact hp
    rw [e1]
    refine ⟨_, rfl, ?_, fun _ a b a0 a1 b0 b1 hab => ?_⟩
    · intro b hb
      obtain ⟨d, hd, hx⟩ := (mem_pushBreaks i j l b).1 hb
      obtain ⟨a0, a1, b0, b1, p1, p2⟩ := e2 d hd
      rcases hx with ⟨hu, rfl⟩ | ⟨hu, rfl⟩
      · exact ⟨hu, Or.inl ⟨rfl, p1, ⟨d.t1, b0, b1, p2⟩, fun q => absurd q hp⟩⟩
      · refine ⟨hu, Or.inr ⟨rfl, p2, ⟨d.t0, a0, a1, p1⟩, fun q => absurd ?_ hp⟩⟩
        unfold Parallel at q ⊢
        linear_combination -q
    · have hm := e3 a b a0 a1 b0 b1 hab
      refine ⟨fun hu => (mem_pushBreaks i j l _).2 ⟨_, hm, Or.inl ⟨hu, rfl⟩⟩, fun hu => (mem_pushBreaks i j l _).2 ⟨_, hm, Or.inr ⟨hu, ?_⟩⟩⟩
      rw [hab]

omit [Field K] [LinearOrder K] [IsStrictOrderedRing K] [LawfulOrd K] [Exact K] [FTrans K] in
theorem foldlM_collect {α β : Type} (f : α → Option (List β)) (F : List β → α → Option (List β)) (l : List α) (acc : List β)
    (hF : ∀ c ∈ l, ∀ acc, F acc c = (f c).map (acc ++ ·)) (hd : ∀ c ∈ l, ∃ bs, f c = some bs) :
    ∃ r, l.foldlM F acc = some r ∧ ∀ x, x ∈ r ↔ x ∈ acc ∨ ∃ c ∈ l, ∃ bs, f c = some bs ∧ x ∈ bs := by
  induction l generalizing acc with
  | nil => exact ⟨acc, rfl, by simp⟩
  | cons c l ih =>
    obtain ⟨bs, hbs⟩ := hd c List.mem_cons_self
    obtain ⟨r, h1, h2⟩ := ih (acc ++ bs) (fun c hc => hF c (List.mem_cons_of_mem _ hc)) (fun c hc => hd c (List.mem_cons_of_mem _ hc))
    refine ⟨r, ?_, fun x => ?_⟩
    · rw [List.foldlM_cons, hF c List.mem_cons_self, hbs]
      exact h1
    · rw [h2, List.mem_append]
      constructor
      · rintro ((h | h) | ⟨d, hd', b, e1, e2⟩)
        · exact Or.inl h
        · exact Or.inr ⟨c, List.mem_cons_self, bs, hbs, h⟩
        · exact Or.inr ⟨d, List.mem_cons_of_mem _ hd', b, e1, e2⟩
      · rintro (h | ⟨d, hd', b, e1, e2⟩)
        · exact Or.inl (Or.inl h)
        · rcases List.mem_cons.1 hd' with rfl | hd'
          · rw [hbs] at e1; cases e1; exact Or.inl (Or.inr e2)
          · exact Or.inr ⟨d, hd', b, e1, e2⟩

/-- The break records: all lie on their segments away from the ends, and every crossing of two segments that are not parallel is
recorded for each segment in whose interior it lies. -/
theorem collectBreaks_exact {N : List (Vtx K)} (h : NodesOk N) (env : Env K) (hok : env.Ok) :
    ∃ brks, collectBreaks env N = some brks ∧
      (∀ b ∈ brks, ∃ v, N[b.vert]? = some v ∧ inUnit b.t = true ∧ b.pt = lerp v.pt v.seg.target b.t ∧ ∃ w ∈ N, Source v w b.pt) ∧
      (∀ (i j : Nat) (v w : Vtx K), i ≠ j → N[i]? = some v → N[j]? = some w → ¬ Parallel v.pt v.seg.target w.pt w.seg.target →
        ∀ a b, 0 ≤ a → a ≤ 1 → 0 ≤ b → b ≤ 1 → lerp v.pt v.seg.target a = lerp w.pt w.seg.target b → inUnit a = true →
          (⟨i, lerp v.pt v.seg.target a, a⟩ : Brk K) ∈ brks) := by
  obtain ⟨s1, s2, s3⟩ := scanProcess_spec env.segAddr hok.segAddr (N.map (fun v => v.seg.boundary v.pt))
    ⟨⟨FNum.lit 0, FNum.lit 0⟩, ⟨FNum.lit 0, FNum.lit 0⟩⟩
  unfold collectBreaks
  obtain ⟨calls, hcalls⟩ : ∃ calls, calls = scanProcess env.segAddr (N.map (fun v => v.seg.boundary v.pt))
    ⟨⟨FNum.lit 0, FNum.lit 0⟩, ⟨FNum.lit 0, FNum.lit 0⟩⟩ := ⟨_, rfl⟩
  rw [← hcalls] at s1 s2 s3 ⊢
  have hc : ∀ c ∈ calls, c.1 ≠ c.2 ∧ ∃ v w, N[c.1]? = some v ∧ N[c.2]? = some w := by
    intro c hc
    obtain ⟨h1, h2, h3, _⟩ := s2 c.1 c.2 hc
    rw [List.length_map] at h1 h2
    exact ⟨h3, _, _, List.getElem?_eq_getElem h1, List.getElem?_eq_getElem h2⟩
  obtain ⟨f, hf⟩ : ∃ f : Nat × Nat → Option (List (Brk K)), ∀ c v w, N[c.1]? = some v → N[c.2]? = some w →
      f c = intersectVtx env.csort c.1 c.2 v w := by
    refine ⟨fun c => match N[c.1]?, N[c.2]? with
      | some v, some w => intersectVtx env.csort c.1 c.2 v w
      | _, _ => none, ?_⟩
    intro c v w h1 h2
    simp only [h1, h2]
  obtain ⟨r, r1, r2⟩ := foldlM_collect f (fun acc c =>
      match N[c.1]?, N[c.2]? with
      | some vl, some vr => (intersectVtx env.csort c.1 c.2 vl vr).map (acc ++ ·)
      | _, _ => some acc) calls [] (by
      intro c hcc acc
      obtain ⟨_, v, w, h1, h2⟩ := hc c hcc
      rw [hf c v w h1 h2]
      simp only [h1, h2]) (by
      intro c hcc
      obtain ⟨h0, v, w, h1, h2⟩ := hc c hcc
      obtain ⟨bs, hbs, _⟩ := intersectVtx_exact h env.csort c.1 c.2 v w h0 h1 h2
      exact ⟨bs, by rw [hf c v w h1 h2, hbs]⟩)
  refine ⟨r, r1, ?_, ?_⟩
  · intro b hb
    rcases (r2 b).1 hb with h' | ⟨c, hcc, bs, hbs, hbm⟩
    · simp at h'
    · obtain ⟨h0, v, w, h1, h2⟩ := hc c hcc
      obtain ⟨bs', hbs', q1, _⟩ := intersectVtx_exact h env.csort c.1 c.2 v w h0 h1 h2
      rw [hf c v w h1 h2, hbs'] at hbs
      cases hbs
      obtain ⟨hu, ⟨hv, hp, hs⟩ | ⟨hv, hp, hs⟩⟩ := q1 b hbm
      · exact ⟨v, by rw [hv]; exact h1, hu, hp, w, List.mem_of_getElem? h2, hs⟩
      · exact ⟨w, by rw [hv]; exact h2, hu, hp, v, List.mem_of_getElem? h1, hs⟩
  · intro i j v w hij hv hw hn a b a0 a1 b0 b1 hab hu
    have hi := (List.getElem?_eq_some_iff.1 hv).1
    have hj := (List.getElem?_eq_some_iff.1 hw).1
    have mv := List.mem_of_getElem? hv
    have mw := List.mem_of_getElem? hw
    obtain ⟨vv, vm⟩ := boundary_mem (h.line v mv) (h.range v mv).1 (h.range v mv).2
    obtain ⟨wv, wm⟩ := boundary_mem (h.line w mw) (h.range w mw).1 (h.range w mw).2
    have hbox : (v.seg.boundary v.pt).intersect (w.seg.boundary w.pt) = true :=
      (Rect.intersect_iff _ _ vv wv).2 ⟨_, vm a a0 a1, by rw [hab]; exact wm b b0 b1⟩
    have hcall := (s3 i j (by simpa using hi) (by simpa using hj) hij).2 (by
      rw [List.getElem_map, List.getElem_map, (List.getElem?_eq_some_iff.1 hv).2, (List.getElem?_eq_some_iff.1 hw).2]; exact hbox)
    rw [r2]
    right
    rcases hcall with hm | hm
    · obtain ⟨bs, hbs, _, q2⟩ := intersectVtx_exact h env.csort i j v w hij hv hw
      exact ⟨(i, j), hm, bs, by rw [hf (i, j) v w hv hw]; exact hbs, (q2 hn a b a0 a1 b0 b1 hab).1 hu⟩
    · obtain ⟨bs, hbs, _, q2⟩ := intersectVtx_exact h env.csort j i w v hij.symm hw hv
      refine ⟨(j, i), hm, bs, by rw [hf (j, i) w v hw hv]; exact hbs, (q2 ?_ b a b0 b1 a0 a1 hab.symm).2 hu⟩
      intro hp
      apply hn
      unfold Parallel at hp ⊢
      linear_combination -hp

end River
