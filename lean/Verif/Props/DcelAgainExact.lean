import Verif.Lemmas.DcelClean

/-! # Processing the half-edge structure again, in exact arithmetic (C96) -/

namespace River
variable {K : Type}

attribute [local instance 10000] FTrans.toFNum

variable [Field K] [LinearOrder K] [IsStrictOrderedRing K] [FTrans K] [LawfulOrd K] [Exact K]

/-- Two lines that are not parallel and have a common point: it is recorded for both. -/
theorem dcelIntersect_cross {p0 p1 p2 p3 X : Vec2 K} (hp : ¬ Parallel p0 p1 p2 p3) (h1 : OnSeg X p0 p1) (h2 : OnSeg X p2 p3) :
    dcelIntersect p0 p1 p2 p3 = some ([X], [X]) := by
  obtain ⟨l, hl, _, k2⟩ := lineIntersect_exact hp
  have hlen := lineIntersect_single hp hl
  obtain ⟨a, a0, a1, rfl⟩ := h1
  obtain ⟨b, b0, b1, he⟩ := h2
  have hm := k2 a b a0 a1 b0 b1 he
  rcases l with _ | ⟨i, _ | ⟨j, l⟩⟩
  · simp at hm
  · rw [List.mem_singleton] at hm
    unfold dcelIntersect
    rw [hl, ← hm]
    rfl
  · simp at hlen

/-- Two lines that are not parallel and have no common point: nothing is recorded. -/
theorem dcelIntersect_miss {p0 p1 p2 p3 : Vec2 K} (hp : ¬ Parallel p0 p1 p2 p3) (h : ∀ X, OnSeg X p0 p1 → ¬ OnSeg X p2 p3) :
    dcelIntersect p0 p1 p2 p3 = some ([], []) := by
  obtain ⟨l, hl, k1, _⟩ := lineIntersect_exact hp
  rcases l with _ | ⟨i, l⟩
  · unfold dcelIntersect
    rw [hl]
    rfl
  · obtain ⟨a0, a1, b0, b1, e1, e2⟩ := k1 i List.mem_cons_self
    exact absurd ⟨_, b0, b1, e2⟩ (h i.p ⟨_, a0, a1, e1⟩)

/-- Parallel lines that do not overlap: nothing is recorded. -/
theorem dcelIntersect_parallel {p0 p1 p2 p3 : Vec2 K} (hp : Parallel p0 p1 p2 p3) (hm : MeetAtEnds p0 p1 p2 p3) (n01 : p0 ≠ p1) (n23 : p2 ≠ p3)
    (r0 : InDoubles p0) (r1 : InDoubles p1) (r2 : InDoubles p2) (r3 : InDoubles p3) : dcelIntersect p0 p1 p2 p3 = some ([], []) := by
  unfold dcelIntersect
  rw [lineIntersect_apart hp n01 n23 r0 r1 r2 r3]
  · rfl
  · intro a b a0 a1 b0 b1 he
    obtain ⟨k1, k2⟩ := hm (lerp p0 p1 a) ⟨a, a0, a1, rfl⟩ ⟨b, b0, b1, he⟩
    constructor
    · rcases k1 with k | k
      · exact .inl (lerp_inj n01 (by rw [lerp_at_zero]; exact k))
      · exact .inr (lerp_inj n01 (by rw [lerp_at_one]; exact k))
    · rw [he] at k2
      rcases k2 with k | k
      · exact .inl (lerp_inj n23 (by rw [lerp_at_zero]; exact k))
      · exact .inr (lerp_inj n23 (by rw [lerp_at_one]; exact k))

/-- The same line in the same or in the opposite direction: nothing is recorded. -/
theorem dcelIntersect_same {p0 p1 p2 p3 : Vec2 K} (h : (p0 = p2 ∧ p1 = p3) ∨ (p0 = p3 ∧ p1 = p2)) : dcelIntersect p0 p1 p2 p3 = some ([], []) := by
  have hb : ∀ p : Vec2 K, p.bne p = false := by
    intro p
    simp [Vec2.bne, Vec2.beq, eq_eq_decide]
  have hl : lineIntersect p0 p1 p2 p3 = some [] := by
    unfold lineIntersect
    rcases h with ⟨rfl, rfl⟩ | ⟨rfl, rfl⟩
    · have hD : (p1.y - p0.y) * (p0.x - p1.x) - (p1.x - p0.x) * (p0.y - p1.y) = 0 := by ring
      simp only [Vec2.sub, Exact.sub_eq, Exact.mul_eq, exact_zero, eq_eq_decide]
      rw [hD, if_pos (by simp)]
      simp only [hb, Bool.and_false, Bool.false_and, Bool.false_eq_true, if_false, ite_self]
    · have hD : (p1.y - p0.y) * (p1.x - p0.x) - (p1.x - p0.x) * (p1.y - p0.y) = 0 := by ring
      simp only [Vec2.sub, Exact.sub_eq, Exact.mul_eq, exact_zero, eq_eq_decide]
      rw [hD, if_pos (by simp)]
      simp only [hb, Bool.and_false, Bool.false_and, Bool.false_eq_true, if_false, ite_self]
  unfold dcelIntersect
  rw [hl]
  rfl

/-- **C96, when it goes wrong**: if, when `process` is called again, a half edge left by the last call has a point in common with any half
edge or new line that is not parallel to it — a common end is enough —, the call is undefined behaviour. -/
theorem dcel_again_undefined {o : DOrder K} (ho : o.Ok) (steps : List (DStep K)) (d1 : Dcel K) (s : WalkSt)
    (h : Dcel.history o (steps ++ [.process]) = some (d1, s)) (calls : List (DCall K)) {i j : Nat} {a b c e X : Vec2 K}
    (hi : i ∈ d1.live) (hij : i ≠ j) (h1 : (calls.foldl DCall.run d1).Leads i a b) (h2 : (calls.foldl DCall.run d1).Leads j c e)
    (hp : ¬ Parallel a b c e) (hX : OnSeg X a b) (hX' : OnSeg X c e) :
    Dcel.history o (steps ++ [.process] ++ calls.map .call ++ [.process]) = none := by
  obtain ⟨hlast, w, S, cs, F, T⟩ := again_setup ho h calls
  have hclean : (calls.foldl DCall.run d1).Clean := clean_calls calls (clean_history ho _ (r := (⟨.subject, [], []⟩, WalkSt.fresh)) clean_empty h)
  rw [leads_iff] at h1 h2
  generalize hd : calls.foldl DCall.run d1 = d at *
  rw [hlast]
  by_contra hne
  have hsome : (d.processAgain o s).isSome := Option.isSome_iff_ne_none.2 hne
  obtain ⟨d2, hb⟩ : ∃ d2, d.processBreak o = some d2 := by
    obtain ⟨r, hr⟩ := Option.isSome_iff_exists.1 hsome
    unfold Dcel.processAgain at hr
    obtain ⟨d2, h2, _⟩ := Option.bind_eq_some_iff.1 hr
    exact ⟨d2, h2⟩
  have hl := processAgain_needs w S F T hb hsome i hi
  have li : i ∈ d.live := by
    obtain ⟨x, hx, _⟩ := (ends_iff _ _ _ _).1 h1
    exact (mem_live _ _).2 ⟨x, hx⟩
  have lj : j ∈ d.live := by
    obtain ⟨x, hx, _⟩ := (ends_iff _ _ _ _).1 h2
    exact (mem_live _ _).2 ⟨x, hx⟩
  unfold Dcel.processBreak at hb
  obtain ⟨dm, k1, k2⟩ := Option.bind_eq_some_iff.1 hb
  obtain ⟨_, lv, _, _, br⟩ := meetAll_breaks (d.pairs o (o.iter d.live)) d dm (by intro i; rw [hclean i]; exact List.Pairwise.nil) k1
  have hbr : dm.breaksOf i ≠ [] := by
    apply List.ne_nil_of_mem (a := X)
    rw [br i li X]
    right
    rcases pairs_complete ho ((ho.iter _).mem_iff.2 li) ((ho.iter _).mem_iff.2 lj) hij h1 h2 hX hX' with hc | hc
    · exact ⟨_, hc, a, b, c, e, [X], [X], h1, h2, dcelIntersect_cross hp hX hX', .inl ⟨rfl, by simp⟩⟩
    · exact ⟨_, hc, c, e, a, b, [X], [X], h2, h1, dcelIntersect_cross (fun hq => hp (parallel_symm hq)) hX' hX, .inr ⟨rfl, by simp⟩⟩
  have lim : i ∈ dm.live := by rw [lv]; exact li
  have hdead := (breakAll_fate ho.sortB _ k2).1 i (live_lt lim)
  rw [if_pos ⟨(ho.iter _).mem_iff.2 lim, hbr⟩] at hdead
  obtain ⟨x, hx⟩ := (mem_live _ _).1 hl
  rw [hdead] at hx
  simp at hx

/-- Half edges are lines with finite coordinates; two of them do not overlap unless they are the same line. -/
structure Dcel.Plain (d : Dcel K) : Prop where
  line : ∀ i a b, d.Leads i a b → a ≠ b ∧ InDoubles a ∧ InDoubles b
  apart : ∀ i j a b c e, d.Leads i a b → d.Leads j c e → i ≠ j → NoOverlap (a, b) (c, e) ∨ (a = c ∧ b = e) ∨ (a = e ∧ b = c)

omit [IsStrictOrderedRing K] [LawfulOrd K] [Exact K] in
theorem fits_of_intersect {d : Dcel K} (h : ∀ i j a b c e, d.ends i = some (a, b) → d.ends j = some (c, e) → i ≠ j →
    ∃ r, dcelIntersect a b c e = some r) : d.Fits := by
  intro i j p0 p1 p2 p3 hij h1 h2
  obtain ⟨r, hr⟩ := h i j p0 p1 p2 p3 h1 h2 hij
  unfold dcelIntersect at hr
  obtain ⟨x, hx, _⟩ := Option.bind_eq_some_iff.1 hr
  rw [hx]; rfl

theorem plain_intersect {d : Dcel K} (hP : d.Plain) {i j : Nat} {a b c e : Vec2 K} (h1 : d.ends i = some (a, b)) (h2 : d.ends j = some (c, e))
    (hij : i ≠ j) : (¬ Parallel a b c e ∧ ∃ X, OnSeg X a b ∧ OnSeg X c e ∧ dcelIntersect a b c e = some ([X], [X])) ∨
      dcelIntersect a b c e = some ([], []) := by
  rw [← leads_iff] at h1 h2
  obtain ⟨n1, ra, rb⟩ := hP.line i a b h1
  obtain ⟨n2, rc, re⟩ := hP.line j c e h2
  rcases hP.apart i j a b c e h1 h2 hij with hn | hs
  · by_cases hp : Parallel a b c e
    · exact .inr (dcelIntersect_parallel hp (hn hp) n1 n2 ra rb rc re)
    · by_cases hX : ∃ X, OnSeg X a b ∧ OnSeg X c e
      · obtain ⟨X, k1, k2⟩ := hX
        exact .inl ⟨hp, X, k1, k2, dcelIntersect_cross hp k1 k2⟩
      · exact .inr (dcelIntersect_miss hp (fun X k1 k2 => hX ⟨X, k1, k2⟩))
  · exact .inr (dcelIntersect_same hs)

/-- **C96, exactly when**: where half edges do not overlap (except with the same line in either direction), the next call of `process`
ends without undefined behaviour **if and only if** no half edge left by the last call has a point in common with another half edge or
new line that is not parallel to it. -/
theorem dcel_again_exact {o : DOrder K} (ho : o.Ok) (steps : List (DStep K)) (d1 : Dcel K) (s : WalkSt)
    (h : Dcel.history o (steps ++ [.process]) = some (d1, s)) (calls : List (DCall K)) (hP : (calls.foldl DCall.run d1).Plain) :
    (Dcel.history o (steps ++ [.process] ++ calls.map .call ++ [.process])).isSome ↔
      ∀ i j a b c e X, i ∈ d1.live → i ≠ j → (calls.foldl DCall.run d1).Leads i a b → (calls.foldl DCall.run d1).Leads j c e →
        OnSeg X a b → OnSeg X c e → Parallel a b c e := by
  constructor
  · intro hs i j a b c e X hi hij h1 h2 hX hX'
    by_contra hp
    rw [dcel_again_undefined ho steps d1 s h calls hi hij h1 h2 hp hX hX'] at hs
    simp at hs
  · intro hpar
    obtain ⟨d2, hb, hiff, _⟩ := dcel_again_partial ho steps d1 s h calls (fits_of_intersect (by
      intro i j a b c e h1 h2 hij
      rcases plain_intersect hP h1 h2 hij with ⟨_, X, _, _, hh⟩ | hh
      · exact ⟨_, hh⟩
      · exact ⟨_, hh⟩))
    rw [hiff]
    obtain ⟨_, w, S, cs, F, T⟩ := again_setup ho h calls
    have hclean : (calls.foldl DCall.run d1).Clean := clean_calls calls (clean_history ho _ (r := (⟨.subject, [], []⟩, WalkSt.fresh)) clean_empty h)
    have hlive : ∀ i ∈ d1.live, i ∈ (calls.foldl DCall.run d1).live := by
      have w1 : d1.Wf := (left_history ho _ left_fresh h).1
      exact fun i hi => live_of_prefix (run_calls_left calls w1 (List.prefix_refl d1.edges)).2 hi
    intro i hi
    have li := hlive i hi
    generalize hd : calls.foldl DCall.run d1 = d at *
    unfold Dcel.processBreak at hb
    obtain ⟨dm, k1, k2⟩ := Option.bind_eq_some_iff.1 hb
    have hnd : (o.iter d.live).Nodup := (ho.iter _).nodup_iff.2 (live_nodup d)
    obtain ⟨_, lv, _, _, br⟩ := meetAll_breaks (d.pairs o (o.iter d.live)) d dm (by intro i; rw [hclean i]; exact List.Pairwise.nil) k1
    have hbr : dm.breaksOf i = [] := by
      rw [List.eq_nil_iff_forall_not_mem]
      intro z hz
      rcases (br i li z).1 hz with hz | ⟨⟨m, n⟩, hc, p0, p1, p2, p3, bl, br', f1, f2, f3, hzz⟩
      · rw [hclean i] at hz; simp at hz
      · obtain ⟨_, _, hmn⟩ := pairs_sub o d _ hnd m n hc
        dsimp only at f1 f2 hzz
        rcases plain_intersect hP f1 f2 hmn with ⟨hp, X, x1, x2, _⟩ | hh
        · rcases hzz with ⟨rfl, _⟩ | ⟨rfl, _⟩
          · exact hp (hpar i n p0 p1 p2 p3 X hi hmn ((leads_iff _ _ _ _).2 f1) ((leads_iff _ _ _ _).2 f2) x1 x2)
          · exact hp (parallel_symm (hpar i m p2 p3 p0 p1 X hi (Ne.symm hmn) ((leads_iff _ _ _ _).2 f2) ((leads_iff _ _ _ _).2 f1) x2 x1))
        · rw [hh] at f3
          simp only [Option.some.injEq, Prod.mk.injEq] at f3
          obtain ⟨rfl, rfl⟩ := f3
          simp at hzz
    have lim : i ∈ dm.live := by rw [lv]; exact li
    have hkeep := (breakAll_fate ho.sortB _ k2).1 i (live_lt lim)
    rw [if_neg (fun hh => hh.2 hbr)] at hkeep
    obtain ⟨x, hx⟩ := (mem_live _ _).1 lim
    exact (mem_live _ _).2 ⟨x, by rw [hkeep]; exact hx⟩

/-! ## Lines without common points -/

/-- Half edges are lines of `L`, in one of the two directions. -/
structure Dcel.From (d : Dcel K) (L : List (Vec2 K × Vec2 K)) : Prop where
  nodup : (d.points.map (·.p)).Nodup
  clean : d.Clean
  ends : ∀ i a b, d.ends i = some (a, b) → (a, b) ∈ L ∨ (b, a) ∈ L

omit [Field K] [IsStrictOrderedRing K] [Exact K] in
theorem from_addLine {d : Dcel K} {L : List (Vec2 K × Vec2 K)} (w : d.Wf) (h : d.From L) (x1 y1 x2 y2 : K)
    (hL : ¬ (x1 = x2 ∧ y1 = y2) → ((⟨x1, y1⟩ : Vec2 K), (⟨x2, y2⟩ : Vec2 K)) ∈ L) : (d.addLine x1 y1 x2 y2).From L := by
  have hcl := clean_run h.clean (.line x1 y1 x2 y2)
  change (d.addLine x1 y1 x2 y2).Clean at hcl
  by_cases hne : x1 = x2 ∧ y1 = y2
  · have : d.addLine x1 y1 x2 y2 = d := by
      unfold Dcel.addLine
      rw [if_pos (by simp [eq_eq_decide, hne])]
    rw [this]; exact h
  have hc : ((x1 ==. x2) && (y1 ==. y2)) = false := by
    rw [Bool.eq_false_iff]
    simp only [eq_eq_decide, ne_eq, Bool.and_eq_true, decide_eq_true_eq]
    exact hne
  have g1 := findOrAdd_grows d ⟨x1, y1⟩ h.nodup
  have s1 := findOrAdd_spec d ⟨x1, y1⟩ h.nodup
  have heq : d.addLine x1 y1 x2 y2 = (((d.findOrAdd ⟨x1, y1⟩).1.findOrAdd ⟨x2, y2⟩).1.newLine (d.findOrAdd ⟨x1, y1⟩).2
      ((d.findOrAdd ⟨x1, y1⟩).1.findOrAdd ⟨x2, y2⟩).2).1 := by
    unfold Dcel.addLine; rw [hc]; rfl
  rw [heq] at hcl ⊢
  obtain ⟨d1, hd1⟩ : ∃ d1, d1 = (d.findOrAdd ⟨x1, y1⟩).1 := ⟨_, rfl⟩
  rw [← hd1] at g1 s1 hcl ⊢
  have g2 := findOrAdd_grows d1 ⟨x2, y2⟩ g1.nodup
  have s2 := findOrAdd_spec d1 ⟨x2, y2⟩ g1.nodup
  obtain ⟨d2, hd2⟩ : ∃ d2, d2 = (d1.findOrAdd ⟨x2, y2⟩).1 := ⟨_, rfl⟩
  rw [← hd2] at g2 s2 hcl ⊢
  obtain ⟨m, hm⟩ : ∃ m, m = (d.findOrAdd ⟨x1, y1⟩).2 := ⟨_, rfl⟩
  obtain ⟨n, hn⟩ : ∃ n, n = (d1.findOrAdd ⟨x2, y2⟩).2 := ⟨_, rfl⟩
  rw [← hm] at s1 hcl ⊢
  rw [← hn] at s2 hcl ⊢
  have g3 := newLine_grows d2 m n g2.nodup
  have e3 := newLine_edge d2 m n
  have hE : (d2.newLine m n).1.edges = d.edges ++ [some ⟨m, n, none, d2.cur, []⟩] := by
    show d2.edges ++ _ = _
    rw [s2.2.2.1, s1.2.2.1]
  have hid : (d2.newLine m n).2 = d.edges.length := by
    show d2.edges.length = _
    rw [s2.2.2.1, s1.2.2.1]
  rw [hid] at e3
  refine ⟨g3.nodup, hcl, ?_⟩
  intro i a b hab
  obtain ⟨x, hx, _, _⟩ := (ends_iff _ _ _ _).1 hab
  have hlt := (List.getElem?_eq_some_iff.1 hx).1
  rw [hE, List.length_append, List.length_singleton] at hlt
  rcases Nat.lt_or_ge i d.edges.length with hi | hi
  · rw [hE, List.getElem?_append_left hi] at hx
    obtain ⟨a', b', hab'⟩ := ends_of_live w ((mem_live _ _).2 ⟨x, hx⟩)
    have := g3.ends (g2.ends (g1.ends hab'))
    rw [hab] at this
    simp only [Option.some.injEq, Prod.mk.injEq] at this
    obtain ⟨rfl, rfl⟩ := this
    exact h.ends i a b hab'
  · have : i = d.edges.length := by omega
    subst this
    have hab' : (d2.newLine m n).1.ends d.edges.length = some (⟨x1, y1⟩, ⟨x2, y2⟩) := by
      rw [ends_iff]
      exact ⟨_, e3, g3.point _ _ (g2.point _ _ s1.2.1), g3.point _ _ s2.2.1⟩
    rw [hab] at hab'
    simp only [Option.some.injEq, Prod.mk.injEq] at hab'
    rw [hab'.1, hab'.2]
    exact .inl (hL hne)

omit [Field K] [IsStrictOrderedRing K] [Exact K] in
theorem buildTwins_pts (ids : List Nat) : ∀ {d d' : Dcel K}, d.buildTwins ids = some d' → d'.points.map (·.p) = d.points.map (·.p) := by
  induction ids with
  | nil => intro d d' h; simp only [Dcel.buildTwins, Option.some.injEq] at h; rw [h]
  | cons id ids ih =>
    intro d d' h
    obtain ⟨d1, h1, h2⟩ := Option.bind_eq_some_iff.1 h
    rw [ih h2]
    unfold Dcel.buildTwin at h1
    obtain ⟨o, _, h1⟩ := Option.bind_eq_some_iff.1 h1
    obtain ⟨e, _, h1⟩ := Option.bind_eq_some_iff.1 h1
    simp only [Option.some.injEq] at h1
    rw [← h1]
    dsimp only
    rw [newLine_points]

/-- Nothing to break: `process_break` changes neither the half edges nor where they lead. -/
theorem processBreak_idle {o : DOrder K} (ho : o.Ok) {d : Dcel K} (w : d.Wf) (hc : d.Clean)
    (h : ∀ i j a b c e, d.ends i = some (a, b) → d.ends j = some (c, e) → i ≠ j → dcelIntersect a b c e = some ([], [])) :
    ∃ d2, d.processBreak o = some d2 ∧ d2.live = d.live ∧ (∀ i, d2.ends i = d.ends i) ∧ d2.points = d.points ∧ d2.Clean := by
  obtain ⟨d2, hb⟩ := processBreak_defined ho w (fits_of_intersect (fun i j a b c e h1 h2 hij => ⟨_, h i j a b c e h1 h2 hij⟩))
  refine ⟨d2, hb, ?_⟩
  have hb' := hb
  unfold Dcel.processBreak at hb
  obtain ⟨dm, k1, k2⟩ := Option.bind_eq_some_iff.1 hb
  have hnd : (o.iter d.live).Nodup := (ho.iter _).nodup_iff.2 (live_nodup d)
  obtain ⟨_, lv, en, pt, br⟩ := meetAll_breaks (d.pairs o (o.iter d.live)) d dm (by intro i; rw [hc i]; exact List.Pairwise.nil) k1
  have hcm : dm.Clean := by
    intro i
    by_contra hne
    have li : i ∈ d.live := by rw [← lv]; exact live_of_breaks hne
    obtain ⟨z, hz⟩ := List.exists_mem_of_ne_nil _ hne
    rcases (br i li z).1 hz with hz | ⟨⟨m, n⟩, hm, p0, p1, p2, p3, bl, br', f1, f2, f3, hzz⟩
    · rw [hc i] at hz; simp at hz
    · obtain ⟨_, _, hmn⟩ := pairs_sub o d _ hnd m n hm
      rw [h m n p0 p1 p2 p3 f1 f2 hmn] at f3
      simp only [Option.some.injEq, Prod.mk.injEq] at f3
      obtain ⟨rfl, rfl⟩ := f3
      simp at hzz
  have e2 := (breakAll_fate ho.sortB _ k2).2.2 hcm
  subst e2
  exact ⟨lv, en, pt, hcm⟩

/-- **C96, when it goes well**: if no two different lines of a history have a point in common, `process` may be called any number of
times in it, with lines added in between: nothing is undefined, half edges are lines that were added, in one of both directions (so they are as `dcel_again_exact` asks),
and after `process` twins and faces are as they should be. -/
theorem dcel_apart_always {o : DOrder K} (ho : o.Ok) (steps : List (DStep K)) (hr : ∀ l ∈ linesOf (DStep.calls steps), InDoubles l.1 ∧ InDoubles l.2)
    (ha : ∀ l ∈ linesOf (DStep.calls steps), ∀ m ∈ linesOf (DStep.calls steps), l ≠ m → ∀ X, OnSeg X l.1 l.2 → ¬ OnSeg X m.1 m.2) :
    ∃ d s, Dcel.history o steps = some (d, s) ∧
      (∀ i a b, d.Leads i a b → (a, b) ∈ linesOf (DStep.calls steps) ∨ (b, a) ∈ linesOf (DStep.calls steps)) ∧ d.Plain ∧
      ∀ before, steps = before ++ [.process] → (∀ i ∈ d.live, ∃ j ∈ d.live, Twins d.edges i j) ∧ ∃ cs, d.Faced s cs := by
  obtain ⟨L, hL⟩ : ∃ L, L = linesOf (DStep.calls steps) := ⟨_, rfl⟩
  have hn : ∀ l ∈ L, l.1 ≠ l.2 := by rw [hL]; exact fun l hl => linesOf_proper hl
  rw [← hL] at hr ha ⊢
  have onswap : ∀ {X a b : Vec2 K}, OnSeg X a b → OnSeg X b a := by
    rintro X a b ⟨t, t0, t1, rfl⟩
    refine ⟨1 - t, by linarith, by linarith, ?_⟩
    unfold lerp
    simp only [Vec2.mk.injEq]
    constructor <;> ring
  have hint : ∀ {d : Dcel K}, d.From L → ∀ i j a b c e, d.ends i = some (a, b) → d.ends j = some (c, e) → i ≠ j →
      dcelIntersect a b c e = some ([], []) := by
    intro d hd i j a b c e h1 h2 _
    have key : ∃ l ∈ L, ∃ m ∈ L, ((a, b) = l ∨ (b, a) = l) ∧ ((c, e) = m ∨ (e, c) = m) := by
      rcases hd.ends i a b h1 with k | k <;> rcases hd.ends j c e h2 with k' | k'
      · exact ⟨_, k, _, k', .inl rfl, .inl rfl⟩
      · exact ⟨_, k, _, k', .inl rfl, .inr rfl⟩
      · exact ⟨_, k, _, k', .inr rfl, .inl rfl⟩
      · exact ⟨_, k, _, k', .inr rfl, .inr rfl⟩
    obtain ⟨l, hl, m, hm, h3, h4⟩ := key
    by_cases hlm : l = m
    · subst hlm
      apply dcelIntersect_same
      rcases h3 with rfl | rfl <;> rcases h4 with h4 | h4 <;> simp only [Prod.mk.injEq] at h4 <;> tauto
    · have hno : ∀ X, OnSeg X a b → ¬ OnSeg X c e := by
        intro X x1 x2
        have := ha l hl m hm hlm X
        rcases h3 with rfl | rfl <;> rcases h4 with rfl | rfl
        · exact this x1 x2
        · exact this x1 (onswap x2)
        · exact this (onswap x1) x2
        · exact this (onswap x1) (onswap x2)
      by_cases hp : Parallel a b c e
      · have n1 := hn l hl
        have n2 := hn m hm
        have r1 := hr l hl
        have r2 := hr m hm
        refine dcelIntersect_parallel hp (fun X x1 x2 => absurd x2 (hno X x1)) ?_ ?_ ?_ ?_ ?_ ?_ <;>
          rcases h3 with rfl | rfl <;> rcases h4 with rfl | rfl <;> first
            | exact n1 | exact n1.symm | exact n2 | exact n2.symm | exact r1.1 | exact r1.2 | exact r2.1 | exact r2.2
      · exact dcelIntersect_miss hp hno
  have main : ∀ (steps : List (DStep K)) (d : Dcel K) (s : WalkSt), (∀ l ∈ linesOf (DStep.calls steps), l ∈ L) → d.Left s → d.From L →
      ∃ r, steps.foldlM (DStep.run o) (d, s) = some r ∧ r.1.From L := by
    intro steps
    induction steps with
    | nil => intro d s _ _ h2; exact ⟨(d, s), rfl, h2⟩
    | cons c steps ih =>
      intro d s hsub h1 h2
      rw [List.foldlM_cons]
      cases c with
      | call c =>
        have hl' : ∀ l ∈ linesOf (DStep.calls steps), l ∈ L := by
          intro l hl
          apply hsub
          have : DStep.calls (DStep.call c :: steps) = c :: DStep.calls steps := rfl
          rw [this]
          unfold linesOf at hl ⊢
          rw [List.filterMap_cons]
          split
          · exact hl
          · exact List.mem_cons_of_mem _ hl
        refine ih (c.run d) s hl' (left_step ho h1 (.call c) rfl) ?_
        cases c with
        | type t => exact ⟨h2.nodup, h2.clean, h2.ends⟩
        | line x1 y1 x2 y2 =>
          refine from_addLine h1.1 h2 x1 y1 x2 y2 (fun hne => hsub _ ?_)
          have : DStep.calls (DStep.call (.line x1 y1 x2 y2) :: steps) = .line x1 y1 x2 y2 :: DStep.calls steps := rfl
          rw [this]
          unfold linesOf
          rw [List.filterMap_cons]
          simp [hne]
      | process =>
        obtain ⟨w, d0, cs, hs, hl, hF, hT⟩ := h1
        obtain ⟨d2, hb, lv, en, pt, hc2⟩ := processBreak_idle ho w h2.clean (hint h2)
        obtain ⟨d', s', cs', k1, k2, k3, k4, k5⟩ := processAgain_spec ho w hs hF hT hb (fun i hi => by rw [lv]; exact hl i hi)
        change ∃ r, (d.processAgain o s).bind _ = some r ∧ _
        rw [k1, Option.bind_some]
        refine ih d' s' hsub ⟨k2, d', cs', Dcel.Since.refl _, fun _ h => h, k4, k5⟩ ?_
        have k1' := k1
        unfold Dcel.processAgain at k1'
        rw [hb, Option.bind_some] at k1'
        obtain ⟨d3, h3, k1'⟩ := Option.bind_eq_some_iff.1 k1'
        obtain ⟨_, _, k1'⟩ := Option.map_eq_some_iff.1 k1'
        simp only [Prod.mk.injEq] at k1'
        rw [← k1'.1]
        refine ⟨by rw [buildTwins_pts _ h3, pt]; exact h2.nodup, clean_buildTwins _ hc2 h3, ?_⟩
        intro i a b hab
        obtain ⟨k, _, hk⟩ := (buildTwins_ends (ho.iter _) h3).2 i a b hab
        rcases hk with ⟨_, hk⟩ | ⟨_, hk⟩
        · rw [en] at hk; exact h2.ends k a b hk
        · rw [en] at hk; exact (h2.ends k b a hk).symm
  obtain ⟨r, hr1, hr2⟩ := main steps _ _ (by rw [hL]; exact fun l hl => hl) left_fresh ⟨by simp, clean_empty, by intro i a b h; simp [Dcel.ends] at h⟩
  refine ⟨r.1, r.2, hr1, ?_, ⟨?_, ?_⟩, ?_⟩
  · intro i a b hab
    exact hr2.ends i a b ((leads_iff _ _ _ _).1 hab)
  · intro i a b hab
    rcases hr2.ends i a b ((leads_iff _ _ _ _).1 hab) with k | k
    · exact ⟨hn _ k, (hr _ k).1, (hr _ k).2⟩
    · exact ⟨(hn _ k).symm, (hr _ k).2, (hr _ k).1⟩
  · intro i j a b c e h1 h2 _
    have e1 := hr2.ends i a b ((leads_iff _ _ _ _).1 h1)
    have e2 := hr2.ends j c e ((leads_iff _ _ _ _).1 h2)
    by_cases hs : (a = c ∧ b = e) ∨ (a = e ∧ b = c)
    · exact .inr hs
    · left
      intro _ X x1 x2
      exfalso
      rcases e1 with k | k <;> rcases e2 with k' | k'
      · exact ha _ k _ k' (fun h => hs (.inl (Prod.mk.inj h))) X x1 x2
      · exact ha _ k _ k' (fun h => hs (.inr (Prod.mk.inj h))) X x1 (onswap x2)
      · exact ha _ k _ k' (fun h => hs (.inr ⟨(Prod.mk.inj h).2, (Prod.mk.inj h).1⟩)) X (onswap x1) x2
      · exact ha _ k _ k' (fun h => hs (.inl ⟨(Prod.mk.inj h).2, (Prod.mk.inj h).1⟩)) X (onswap x1) (onswap x2)
  · intro before hs
    exact dcel_history_faced ho before r.1 r.2 (by rw [← hs]; exact hr1)

/-- Two lines without common points, processed, and a third one: the hypotheses of `dcel_apart_always`. -/
def apartSteps : List (DStep ℚ) := [.call (.line 0 0 4 4), .call (.line 1 0 5 4), .process, .process, .call (.line 2 0 6 3), .process]

theorem apartSteps_apart : (∀ l ∈ linesOf (DStep.calls apartSteps), InDoubles l.1 ∧ InDoubles l.2) ∧
    ∀ l ∈ linesOf (DStep.calls apartSteps), ∀ m ∈ linesOf (DStep.calls apartSteps), l ≠ m → ∀ X, OnSeg X l.1 l.2 → ¬ OnSeg X m.1 m.2 := by
  have hl : linesOf (DStep.calls apartSteps) = [(⟨0, 0⟩, ⟨4, 4⟩), (⟨1, 0⟩, ⟨5, 4⟩), (⟨2, 0⟩, ⟨6, 3⟩)] := by decide +kernel
  rw [hl]
  refine ⟨by unfold InDoubles; decide +kernel, ?_⟩
  rintro l hl m hm hne X ⟨t, t0, t1, ht⟩ ⟨u, u0, u1, hu⟩
  rw [ht] at hu
  simp only [List.mem_cons, List.not_mem_nil, or_false] at hl hm
  unfold lerp at hu
  simp only [Vec2.mk.injEq] at hu
  rcases hl with rfl | rfl | rfl <;> rcases hm with rfl | rfl | rfl <;> first
    | exact hne rfl
    | (obtain ⟨hx, hy⟩ := hu; norm_num at hx hy; linarith)

theorem apartSteps_runs : ∃ d s, Dcel.history plainOrder apartSteps = some (d, s) ∧ d.live.length = 18 ∧ s.faces.length = 9 := by
  have : (Dcel.history plainOrder apartSteps).map (fun r => (r.1.live.length, r.2.faces.length)) = some (18, 9) := by decide +kernel
  obtain ⟨⟨d, s⟩, h, e⟩ := Option.map_eq_some_iff.1 this
  simp only [Prod.mk.injEq] at e
  exact ⟨d, s, h, e⟩

end River
