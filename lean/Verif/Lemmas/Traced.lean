import Verif.Spec.Traced
import Verif.Lemmas.Consistent
import Verif.Lemmas.Round

/-! # The sides of the output lie on the sides of the input and do not cross -/

namespace River
variable {K : Type}

attribute [local instance 10000] FTrans.toFNum
variable [Field K] [LinearOrder K] [IsStrictOrderedRing K] [FTrans K] [LawfulOrd K] [Exact K]
variable {rings : List (Ring K)}

omit [FTrans K] [LawfulOrd K] [Exact K] in
theorem exists_near (l : List K) {m M : K} (h : m < M) : ∃ X, m < X ∧ X ≤ M ∧ ∀ z ∈ l, z ≤ X → z ≤ m := by
  induction l with
  | nil => exact ⟨M, h, le_refl _, by simp⟩
  | cons z l ih =>
    obtain ⟨X, h1, h2, h3⟩ := ih
    by_cases hz : z ≤ m
    · refine ⟨X, h1, h2, ?_⟩
      intro w hw hX
      rcases List.mem_cons.1 hw with rfl | hw
      · exact hz
      · exact h3 w hw hX
    · have hz := not_le.1 hz
      refine ⟨min X ((m + z) / 2), lt_min h1 (by linarith), (min_le_left _ _).trans h2, ?_⟩
      intro w hw hX
      rcases List.mem_cons.1 hw with rfl | hw
      · have := hX.trans (min_le_right _ _)
        linarith
      · exact h3 w hw (hX.trans (min_le_left _ _))

omit [Field K] [IsStrictOrderedRing K] [FTrans K] [LawfulOrd K] [Exact K] in
theorem straddles_iff {a b y X : K} : Straddles X ((⟨a, y⟩, .line ⟨b, y⟩) : Vec2 K × Seg K) ↔ min a b < X ∧ X ≤ max a b := by
  unfold Straddles
  simp only [Seg.target]
  rcases le_total a b with h | h
  · rw [min_eq_left h, max_eq_right h]
    constructor
    · intro hn
      by_cases h1 : a < X
      · exact ⟨h1, not_lt.1 (fun h2 => hn ⟨fun _ => h2, fun _ => h1⟩)⟩
      · exact absurd ⟨fun h2 => absurd h2 h1, fun h2 => h.trans_lt h2⟩ hn
    · rintro ⟨h1, h2⟩ hn
      exact absurd (hn.1 h1) (not_lt.2 h2)
  · rw [min_eq_right h, max_eq_left h]
    constructor
    · intro hn
      by_cases h1 : b < X
      · exact ⟨h1, not_lt.1 (fun h2 => hn ⟨fun _ => h1, fun _ => h2⟩)⟩
      · exact absurd ⟨fun h2 => h.trans_lt h2, fun h2 => absurd h2 h1⟩ hn
    · rintro ⟨h1, h2⟩ hn
      exact absurd (hn.2 h1) (not_lt.2 h2)

/-- Horizontal pieces of the boundary lie on horizontal sides. -/
theorem HBoundary.covered (A : Arranged rings) {ct : ClipType} {fr : FillRule} {H : List (Vec2 K × Seg K)}
    (hH : HBoundary rings ct fr (H : Multiset (Vec2 K × Seg K))) {a b y : K} (hp : ((⟨a, y⟩, .line ⟨b, y⟩) : Vec2 K × Seg K) ∈ H) (hab : a ≠ b)
    {X : K} (h1 : min a b ≤ X) (h2 : X ≤ max a b) : ∃ f ∈ sides rings, f.Flat ∧ f.frm.y = y ∧ f.Covers X := by
  classical
  have key : ∀ X, min a b < X → X ≤ max a b → ∃ f ∈ sides rings, f.Flat ∧ f.frm.y = y ∧ f.Covers X := by
    intro X h1 h2
    by_contra hn
    push Not at hn
    have hs : InBelow rings ct fr y X ↔ InAbove rings ct fr y X := by
      refine A.same_result ct fr (fun f hf hfl hy => ?_)
      have hc := hn f hf hfl hy
      unfold Side.Covers at hc
      rw [not_and_or, not_le, not_le] at hc
      rcases hc with hc | hc
      · have := lt_min_iff.1 hc
        exact ⟨fun h => absurd h this.1.not_gt, fun h => absurd h this.2.not_gt⟩
      · have := max_lt_iff.1 hc
        exact ⟨fun _ => this.2, fun _ => this.1⟩
    have := hH.once y X
    rw [if_pos hs, Multiset.countP_eq_zero] at this
    exact this _ (Multiset.mem_coe.2 hp) ⟨rfl, straddles_iff.2 ⟨h1, h2⟩⟩
  rcases eq_or_lt_of_le h1 with rfl | h1
  · obtain ⟨X, x1, x2, x3⟩ := exists_near ((sides rings).map (fun f => min f.frm.x f.seg.target.x)) (min_lt_max.2 hab)
    obtain ⟨f, f1, f2, f3, f4⟩ := key X x1 x2
    exact ⟨f, f1, f2, f3, x3 _ (List.mem_map.2 ⟨f, f1, rfl⟩) f4.1, x1.le.trans f4.2⟩
  · exact key X h1 h2

omit [Field K] [IsStrictOrderedRing K] [LawfulOrd K] [Exact K] in
/-- Horizontal pieces of the boundary do not overlap. -/
theorem HBoundary.once' {ct : ClipType} {fr : FillRule} {H : List (Vec2 K × Seg K)}
    (hH : HBoundary rings ct fr (H : Multiset (Vec2 K × Seg K))) :
    H.Pairwise (fun p q => p.1.y = q.1.y → ∀ X, ¬ (Straddles X p ∧ Straddles X q)) := by
  have h : ∀ y X, H.countP (fun p => decide (p.1.y = y ∧ Straddles X p)) ≤ 1 := by
    intro y X
    have := hH.once y X
    rw [Multiset.coe_countP] at this
    have e : H.countP (fun p => decide (p.1.y = y ∧ Straddles X p)) ≤ 1 := by
      refine le_trans (le_of_eq ?_) (this.le.trans (by split <;> omega))
      refine List.countP_congr (fun p _ => by simp)
    exact e
  clear hH
  induction H with
  | nil => exact List.Pairwise.nil
  | cons p H ih =>
    refine List.Pairwise.cons ?_ (ih (fun y X => ((List.sublist_cons_self p H).countP_le).trans (h y X)))
    rintro q hq e X ⟨h1, h2⟩
    have := h p.1.y X
    rw [List.countP_cons_of_pos (by simp [h1])] at this
    have h0 : 0 < H.countP (fun r => decide (r.1.y = p.1.y ∧ Straddles X r)) :=
      List.countP_pos_iff.2 ⟨q, hq, by simp [h2, e]⟩
    omega

omit [IsStrictOrderedRing K] [FTrans K] [LawfulOrd K] [Exact K] in
theorem onSeg_level [IsStrictOrderedRing K] {a b y : K} {p : Vec2 K} (h : OnSeg p ⟨a, y⟩ ⟨b, y⟩) : p.y = y ∧ min a b ≤ p.x ∧ p.x ≤ max a b := by
  obtain ⟨t, t0, t1, rfl⟩ := h
  simp only [lerp]
  refine ⟨by ring, ?_, ?_⟩
  · rcases le_total a b with h | h
    · rw [min_eq_left h]; nlinarith
    · rw [min_eq_right h]; nlinarith
  · rcases le_total a b with h | h
    · rw [max_eq_right h]; nlinarith
    · rw [max_eq_left h]; nlinarith

/-- How two sides of the output may meet. -/
def MeetTraced (s t : Vec2 K × Vec2 K) : Prop := ∀ p, OnSeg p s.1 s.2 → OnSeg p t.1 t.2 →
  ((p = s.1 ∨ p = s.2) ∧ (p = t.1 ∨ p = t.2)) ∨
    (s.1.y = s.2.y ∧ t.1.y ≠ t.2.y ∧ (p = t.1 ∨ p = t.2)) ∨ (t.1.y = t.2.y ∧ s.1.y ≠ s.2.y ∧ (p = s.1 ∨ p = s.2))

omit [IsStrictOrderedRing K] [FTrans K] [LawfulOrd K] [Exact K] in
theorem MeetTraced.symm {s t : Vec2 K × Vec2 K} (h : MeetTraced s t) : MeetTraced t s := by
  intro p hp hq
  rcases h p hq hp with h | h | h
  · exact Or.inl ⟨h.2, h.1⟩
  · exact Or.inr (Or.inr h)
  · exact Or.inr (Or.inl h)

theorem meet_outline {rings' : List (Ring K)} (B : BrokenInto rings rings') (A : Arranged rings') {ct : ClipType} {fr : FillRule} {σ : Int} {Bd : List (Side K)}
    (hB : Outline rings' ct fr σ Bd) {H : List (Vec2 K × Seg K)} (hH : HBoundary rings' ct fr (H : Multiset (Vec2 K × Seg K))) :
    (Bd.map (fun s => (s.frm, s.seg.target)) ++ H.map (fun p => (p.1, p.2.target))).Pairwise MeetTraced := by
  rw [List.pairwise_append]
  refine ⟨?_, ?_, ?_⟩
  · rw [List.pairwise_map]
    refine hB.once.imp_of_mem ?_
    rintro s t hs ht ⟨hne, htw⟩ p hp hq
    obtain ⟨s1, s2, _⟩ := hB.mem s hs
    obtain ⟨t1, t2, _⟩ := hB.mem t ht
    rcases B.ends s s1 t t1 hne with h | h | h
    · exact absurd h.1 s2
    · exfalso
      have hspan : s.bot = t.bot ∧ s.top = t.top := by
        unfold Side.bot Side.top Side.up
        unfold Side.Flat at s2 t2
        rcases h with ⟨e1, e2⟩ | ⟨e1, e2⟩
        · rw [e1, e2]; exact ⟨rfl, rfl⟩
        · rw [e1, e2] at s2 ⊢
          rcases lt_or_gt_of_ne s2 with h | h
          · rw [decide_eq_true h, decide_eq_false h.not_gt]; exact ⟨rfl, rfl⟩
          · rw [decide_eq_true h, decide_eq_false h.not_gt]; exact ⟨rfl, rfl⟩
      exact htw (twin_of_span (B.straight s s1) (B.straight t t1) s2 t2 hspan.1 hspan.2)
    · exact Or.inl (h p hp hq)
  · rw [List.pairwise_map]
    refine hH.once'.imp_of_mem ?_
    intro p q hp hq h X h1 h2
    obtain ⟨y, a, b, hab, rfl⟩ := hH.level p (Multiset.mem_coe.2 hp)
    obtain ⟨y', a', b', hab', rfl⟩ := hH.level q (Multiset.mem_coe.2 hq)
    simp only [Seg.target] at h1 h2 ⊢
    obtain ⟨e1, l1, u1⟩ := onSeg_level h1
    obtain ⟨e2, l2, u2⟩ := onSeg_level h2
    have hy : y = y' := e1.symm.trans e2
    subst hy
    have hd := h rfl
    simp only [straddles_iff] at hd
    left
    have m1 := min_lt_max.2 hab
    have m2 := min_lt_max.2 hab'
    have hsep : max a b ≤ min a' b' ∨ max a' b' ≤ min a b := by
      by_contra hn
      push Not at hn
      refine hd (min (max a b) (max a' b')) ⟨⟨lt_min m1 hn.2, min_le_left _ _⟩, lt_min hn.1 m2, min_le_right _ _⟩
    have ends : ∀ a b : K, X.x = min a b ∨ X.x = max a b → X = ⟨a, y⟩ ∨ X = ⟨b, y⟩ := by
      intro a b h
      have hX : X = ⟨X.x, y⟩ := Vec2.ext rfl e1
      rw [hX]
      rcases h with h | h
      · rcases min_choice a b with e | e <;> rw [h, e] <;> simp
      · rcases max_choice a b with e | e <;> rw [h, e] <;> simp
    rcases hsep with hs | hs
    · exact ⟨ends a b (Or.inr (le_antisymm u1 (hs.trans l2))), ends a' b' (Or.inl (le_antisymm (u1.trans hs) l2))⟩
    · exact ⟨ends a b (Or.inl (le_antisymm (u2.trans hs) l1)), ends a' b' (Or.inr (le_antisymm u2 (hs.trans l1)))⟩
  · intro s hs q hq X h1 h2
    obtain ⟨s, hs', rfl⟩ := List.mem_map.1 hs
    obtain ⟨q, hq', rfl⟩ := List.mem_map.1 hq
    clear hs hq
    have hs := hs'
    have hq := hq'
    obtain ⟨y, a, b, hab, rfl⟩ := hH.level q (Multiset.mem_coe.2 hq)
    obtain ⟨s1, s2, _⟩ := hB.mem s hs
    simp only [Seg.target] at h2 ⊢
    obtain ⟨e1, l1, u1⟩ := onSeg_level h2
    obtain ⟨f, f1, f2, f3, f4⟩ := hH.covered A hq hab l1 u1
    have hon := f2.onSeg f4
    rw [f3, ← e1] at hon
    right; right
    refine ⟨trivial, s2, ?_⟩
    have hne : s ≠ f := fun h => s2 (h ▸ f2)
    rcases B.ends s s1 f f1 hne with h | h | h
    · exact absurd h.1 s2
    · exfalso
      unfold Side.Flat at s2 f2
      rcases h with ⟨e, e'⟩ | ⟨e, e'⟩
      · rw [e, e'] at s2; exact s2 f2
      · rw [e, e'] at s2; exact s2 f2.symm
    · exact (h X h1 hon).1

/-- The sides of the output are traced out on the polygons stored. -/
theorem traced_of_outline {L : List (PathType × List (Vec2 K))} {Ps out : List (List (Vec2 K))} (hS : StoresAll L rings) (hL : L.map Prod.snd = Ps)
    {rings' : List (Ring K)} {ct : ClipType} {fr : FillRule} {σ : Int} {Bd : List (Side K)} {H : List (Vec2 K × Seg K)}
    (B : BrokenInto rings rings') (A : Arranged rings') (hB : Outline rings' ct fr σ Bd) (hH : HBoundary rings' ct fr (H : Multiset (Vec2 K × Seg K)))
    (hp : (out.flatMap polySides).Perm (Bd.map (fun s => (s.frm, s.seg.target)) ++ H.map (fun p => (p.1, p.2.target)))) : Traced Ps out := by
  -- nodes are sides of polygons
  have hnode : ∀ v ∈ allNodes rings, (v.pt, v.seg.target) ∈ Ps.flatMap polySides := by
    intro v hv
    have : (v.pt, v.seg) ∈ (sides rings).map (fun s => (s.frm, s.seg)) := by rw [sides_geo]; exact List.mem_map.2 ⟨v, hv, rfl⟩
    obtain ⟨s, hs, e⟩ := List.mem_map.1 this
    obtain ⟨q, hq, h1, h2⟩ := hS.side hs
    have e1 := congrArg Prod.fst e
    have e2 := congrArg Prod.snd e
    simp only at e1 e2
    rw [← e1, ← e2, h1, h2, ← hL]
    exact hq
  have hpiece : ∀ s ∈ sides rings', ∃ w ∈ allNodes rings', s.frm = w.pt ∧ s.seg = w.seg := by
    intro s hs
    have : (s.frm, s.seg) ∈ (allNodes rings').map (fun v => (v.pt, v.seg)) := by rw [← sides_geo]; exact List.mem_map.2 ⟨s, hs, rfl⟩
    obtain ⟨w, hw, e⟩ := List.mem_map.1 this
    exact ⟨w, hw, (congrArg Prod.fst e).symm, (congrArg Prod.snd e).symm⟩
  have hcorner : ∀ s ∈ Ps.flatMap polySides, ∃ P ∈ Ps, s.1 ∈ P ∧ s.2 ∈ P := by
    intro s hs
    obtain ⟨P, hP, hsP⟩ := List.mem_flatMap.1 hs
    have := List.of_mem_zip (show (s.1, s.2) ∈ P.zip (P.rotate 1) from hsP)
    exact ⟨P, hP, this.1, List.mem_rotate.1 this.2⟩
  have hknot : ∀ v ∈ allNodes rings, ∀ a, 0 ≤ a → a ≤ 1 → BreakAt (allNodes rings) v a → Knot Ps (lerp v.pt v.seg.target a) := by
    intro v hv a a0 a1 h
    obtain ⟨P, hP, p1, p2⟩ := hcorner _ (hnode v hv)
    rcases h with rfl | rfl | ⟨u, hu, h1, h2⟩
    · rw [lerp_zero]; exact Or.inl ⟨P, hP, p1⟩
    · rw [lerp_one]; exact Or.inl ⟨P, hP, p2⟩
    · by_cases hpar : Parallel v.pt v.seg.target u.pt u.seg.target
      · obtain ⟨Q, hQ, q1, q2⟩ := hcorner _ (hnode u hu)
        rcases h2 hpar with h | h
        · rw [h]; exact Or.inl ⟨Q, hQ, q1⟩
        · rw [h]; exact Or.inl ⟨Q, hQ, q2⟩
      · exact Or.inr ⟨_, hnode v hv, _, hnode u hu, hpar, ⟨a, a0, a1, rfl⟩, h1⟩
  refine ⟨?_, ?_, ?_⟩
  · intro t ht hy
    rcases List.mem_append.1 (hp.mem_iff.1 ht) with h | h
    · obtain ⟨s, hs, rfl⟩ := List.mem_map.1 h
      obtain ⟨w, hw, e1, e2⟩ := hpiece s (hB.mem s hs).1
      obtain ⟨v, hv, a, b, hab, ka, kb⟩ := B.knots w hw
      simp only
      rw [e1, e2, hab.pt, hab.seg]
      exact ⟨hknot v hv a hab.low (hab.lt.le.trans hab.high) ka, hknot v hv b (hab.low.trans hab.lt.le) hab.high kb, _, hnode v hv, a, b, hab.low, hab.lt, hab.high, rfl⟩
    · obtain ⟨q, hq, rfl⟩ := List.mem_map.1 h
      obtain ⟨y, a, b, hab, rfl⟩ := hH.level q (Multiset.mem_coe.2 hq)
      exact absurd rfl hy
  · intro t ht hy
    rcases List.mem_append.1 (hp.mem_iff.1 ht) with h | h
    · obtain ⟨s, hs, rfl⟩ := List.mem_map.1 h
      exact absurd hy (hB.mem s hs).2.1
    · obtain ⟨q, hq, rfl⟩ := List.mem_map.1 h
      obtain ⟨y, a, b, hab, rfl⟩ := hH.level q (Multiset.mem_coe.2 hq)
      refine ⟨fun h => hab (congrArg Vec2.x h), fun p hp => ?_⟩
      obtain ⟨e1, l1, u1⟩ := onSeg_level (show OnSeg p ⟨a, y⟩ ⟨b, y⟩ from hp)
      obtain ⟨f, f1, f2, f3, f4⟩ := hH.covered A hq hab l1 u1
      have hon := f2.onSeg f4
      rw [f3, ← e1] at hon
      obtain ⟨w, hw, g1, g2⟩ := hpiece f f1
      obtain ⟨v, hv, c, d, hcd, _⟩ := B.knots w hw
      have hpt := hcd.pt
      have hsg := hcd.seg
      rw [g1, g2] at hon
      refine ⟨_, hnode v hv, ?_, ?_⟩
      · unfold Side.Flat at f2
        have hst : w.seg.target = lerp v.pt v.seg.target d := by rw [hsg]; rfl
        rw [g1, g2, hpt, hst] at f2
        simp only [lerp] at f2 ⊢
        have h0 : (d - c) * (v.seg.target.y - v.pt.y) = 0 := by linear_combination -f2
        rcases mul_eq_zero.1 h0 with h | h
        · exact absurd h (sub_pos.2 hcd.lt).ne'
        · exact (sub_eq_zero.1 h).symm
      · obtain ⟨t, t1, t2, e⟩ := (hcd.onSeg p).1 hon
        exact ⟨t, hcd.low.trans t1, t2.trans hcd.high, e⟩
  · have hs : Std.Symm (MeetTraced (K := K)) := ⟨fun _ _ h => h.symm⟩
    exact (hp.pairwise_iff (fun h => MeetTraced.symm h)).2 (meet_outline B A hB hH)

end River
