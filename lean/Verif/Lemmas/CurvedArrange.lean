import Verif.Lemmas.CurvedBreak
import Verif.Lemmas.Traced
import Verif.Props.Region

/-! # Contours that do not cross are arranged -/

namespace River
variable {K : Type}

attribute [local instance 10000] FTrans.toFNum

/-- The rings store the contours (with their types), in this order. -/
def StoresLoops [LT K] (L : List (PathType × Loop K)) (rings : List (Ring K)) : Prop := List.Forall₂ (fun p r => StoresLoop p.1 p.2 r) L rings

theorem StoresLoops.get [LT K] {L : List (PathType × Loop K)} {rings : List (Ring K)} (h : StoresLoops L rings) {k : Nat} {r : Ring K}
    (hr : rings[k]? = some r) : ∃ p, L[k]? = some p ∧ StoresLoop p.1 p.2 r := by
  obtain ⟨h1, h2⟩ := List.forall₂_iff_get.1 h
  obtain ⟨hk, e⟩ := List.getElem?_eq_some_iff.1 hr
  have := h2 k (h1 ▸ hk) hk
  rw [List.get_eq_getElem, List.get_eq_getElem, e] at this
  exact ⟨_, List.getElem?_eq_getElem (h1 ▸ hk), this⟩

theorem StoresLoops.nodes [LT K] {L : List (PathType × Loop K)} {rings : List (Ring K)} (h : StoresLoops L rings) :
    (allNodes rings).map (fun v => (v.pt, v.seg)) = (L.map Prod.snd).flatMap Loop.sides := by
  induction h with
  | nil => rfl
  | @cons p r L rs h1 _ ih =>
    rw [show allNodes (r :: rs) = r.nodes ++ allNodes rs from List.flatMap_cons, List.map_append, ih, List.map_cons, List.flatMap_cons, h1.geo]

theorem StoresLoops.geo [LT K] {L : List (PathType × Loop K)} {rings : List (Ring K)} (h : StoresLoops L rings) :
    (sides rings).map (fun s => (s.frm, s.seg)) = (L.map Prod.snd).flatMap Loop.sides := by
  rw [sides_geo, h.nodes]

theorem StoresLoops.side [LT K] {L : List (PathType × Loop K)} {rings : List (Ring K)} (h : StoresLoops L rings) {s : Side K} (hs : s ∈ sides rings) :
    (s.frm, s.seg) ∈ (L.map Prod.snd).flatMap Loop.sides := by
  rw [← h.geo]; exact List.mem_map.2 ⟨s, hs, rfl⟩

theorem StoresLoops.pairwise [LT K] {L : List (PathType × Loop K)} {rings : List (Ring K)} (h : StoresLoops L rings)
    {R : Vec2 K × Seg K → Vec2 K × Seg K → Prop} (hR : ∀ x y, R x y → R y x) (hp : ((L.map Prod.snd).flatMap Loop.sides).Pairwise R) :
    ∀ s ∈ sides rings, ∀ t ∈ sides rings, s ≠ t → R (s.frm, s.seg) (t.frm, t.seg) := by
  intro s hs t ht hne
  rw [← h.geo, List.pairwise_map] at hp
  have : Std.Symm (fun a b : Side K => R (a.frm, a.seg) (b.frm, b.seg)) := ⟨fun _ _ h => hR _ _ h⟩
  exact hp.forall hs ht hne

section
variable [Field K] [LinearOrder K] [IsStrictOrderedRing K] [FTrans K] [LawfulOrd K] [Exact K]

omit [IsStrictOrderedRing K] [LawfulOrd K] [Exact K] in
theorem NonCrossing.fine {Ls : List (Loop K)} (h : NonCrossing Ls) {s : Vec2 K × Seg K} (hs : s ∈ Ls.flatMap Loop.sides) : Fine s :=
  ⟨h.steep s hs, h.tall s hs, h.even s hs⟩

omit [LawfulOrd K] in
theorem NonCrossing.inDoubles {Ls : List (Loop K)} (h : NonCrossing Ls) {s : Vec2 K × Seg K} (hs : s ∈ Ls.flatMap Loop.sides) :
    ∀ z ∈ sidePoints s, InDoubles z := by
  intro z hz
  obtain ⟨r1, r2, r3, r4⟩ := h.range s hs z hz
  unfold InDoubles
  rw [Exact.neg_eq, show (FNum.maxNum : K) = (dblMax : K) from Exact.max_eq]
  exact ⟨r1, r2, r3.le, r4⟩

theorem StoresLoops.clear {L : List (PathType × Loop K)} {rings : List (Ring K)} (h : StoresLoops L rings) (N : NonCrossing (L.map Prod.snd)) :
    NodesClear (allNodes rings) := by
  have hm : ∀ v ∈ allNodes rings, (v.pt, v.seg) ∈ (L.map Prod.snd).flatMap Loop.sides := by
    intro v hv
    rw [← h.nodes]; exact List.mem_map.2 ⟨v, hv, rfl⟩
  have pw : ∀ {R : Vec2 K × Seg K → Vec2 K × Seg K → Prop}, ((L.map Prod.snd).flatMap Loop.sides).Pairwise R → ∀ (i j : Nat) (v w : Vtx K), i ≠ j →
      (allNodes rings)[i]? = some v → (allNodes rings)[j]? = some w → R (v.pt, v.seg) (w.pt, w.seg) ∨ R (w.pt, w.seg) (v.pt, v.seg) := by
    intro R hR i j v w hij hi hj
    rw [← h.nodes, List.pairwise_map, List.pairwise_iff_getElem] at hR
    obtain ⟨h1, e1⟩ := List.getElem?_eq_some_iff.1 hi
    obtain ⟨h2, e2⟩ := List.getElem?_eq_some_iff.1 hj
    rcases Nat.lt_or_gt_of_ne hij with hlt | hlt
    · left; have := hR i j h1 h2 hlt; rwa [e1, e2] at this
    · right; have := hR j i h2 h1 hlt; rwa [e1, e2] at this
  refine ⟨fun v hv => N.fine (hm v hv), fun v hv => N.inDoubles (hm v hv), ?_, ?_⟩
  · intro i j v w hij hi hj
    rcases pw N.apart i j v w hij hi hj with h | h
    · exact h
    · exact Clear2.symm h
  · intro i j v w hij hi hj
    rcases pw N.quiet i j v w hij hi hj with (h | h) | h | h
    · exact Or.inl (Or.inl h)
    · exact Or.inr (Or.inl h)
    · exact Or.inl (Or.inr h)
    · exact Or.inr (Or.inr h)

omit [FTrans K] [LawfulOrd K] [Exact K] in
theorem sameSpan_half {s t : Side K} (h : SameSpan s t) : sidePoint (s.frm, s.seg) (1 / 2) = sidePoint (t.frm, t.seg) (1 / 2) := by
  obtain ⟨r, i, p, g, a⟩ := s
  obtain ⟨r', i', p', g', a'⟩ := t
  obtain ⟨h1, h2, h3⟩ := h
  have hends : (p = p' ∧ g.target = g'.target) ∨ (p = g'.target ∧ g.target = p') := by
    unfold Side.bot at h1
    unfold Side.top at h2
    by_cases u : (⟨r, i, p, g, a⟩ : Side K).up = true <;> by_cases u' : (⟨r', i', p', g', a'⟩ : Side K).up = true
    · rw [if_pos u, if_pos u'] at h1 h2; exact Or.inl ⟨h1, h2⟩
    · rw [if_pos u, if_neg u'] at h1 h2; exact Or.inr ⟨h1, h2⟩
    · rw [if_neg u, if_pos u'] at h1 h2; exact Or.inr ⟨h2, h1⟩
    · rw [if_neg u, if_neg u'] at h1 h2; exact Or.inl ⟨h2, h1⟩
  cases g with
  | line q => cases g' with
    | cubic d1 d2 q' => exact absurd h3 (by simp)
    | line q' =>
      simp only [Seg.target] at hends
      rcases hends with ⟨rfl, rfl⟩ | ⟨rfl, rfl⟩
      · rfl
      · simp only [sidePoint, lerp, Vec2.mk.injEq]; constructor <;> ring
  | cubic c1 c2 q => cases g' with
    | line q' => exact absurd h3 (by simp)
    | cubic d1 d2 q' =>
      simp only [Seg.target] at hends
      simp only at h3
      rcases hends with ⟨rfl, rfl⟩ | ⟨rfl, rfl⟩ <;> rcases h3 with ⟨rfl, rfl⟩ | ⟨rfl, rfl⟩ <;>
        simp only [sidePoint, Cubic.eval, bern, Vec2.mk.injEq] <;> constructor <;> ring

omit [FTrans K] [LawfulOrd K] [Exact K] in
theorem clear_not_same {s t : Side K} (fs : Fine (s.frm, s.seg)) (ft : Fine (t.frm, t.seg)) (h : Clear2 (s.frm, s.seg) (t.frm, t.seg)) :
    ¬ SameSpan s t := by
  intro hss
  rcases (meet_ends fs ft h (by norm_num) (by norm_num) (by norm_num) (by norm_num) (sameSpan_half hss)).1 with e | e <;> norm_num at e

/-! ## rings of sides that do not cross -/

/-- The flags of a vertex follow from the directions of the sides before and after it. -/
def FlagStep (u v : Vtx K) : Prop :=
  (v.lmin = true ↔ u.seg.target.y < u.pt.y ∧ v.pt.y < v.seg.target.y) ∧ (v.lmax = true ↔ u.pt.y < u.seg.target.y ∧ v.seg.target.y < v.pt.y)

/-- Rings of sides that do not cross. -/
structure Tidy (rings : List (Ring K)) : Prop where
  linked : ∀ r ∈ rings, Linked r.nodes
  flags : ∀ r ∈ rings, Cyc FlagStep r.nodes
  low : ∀ s ∈ sides rings, -(dblMax : K) < s.frm.y
  fine : ∀ s ∈ sides rings, Fine (s.frm, s.seg)
  clear : ∀ s ∈ sides rings, ∀ t ∈ sides rings, s ≠ t → Clear2 (s.frm, s.seg) (t.frm, t.seg)
  feet : ∀ s ∈ sides rings, ∀ t ∈ sides rings, ∀ u ∈ sides rings, foot (s.frm, s.seg) = foot (t.frm, t.seg) →
    foot (t.frm, t.seg) = foot (u.frm, u.seg) → s = t ∨ s = u ∨ t = u

theorem Tidy.arranged {rings : List (Ring K)} (T : Tidy rings) : Arranged rings := by
  have hfine := T.fine
  have hst : ∀ s ∈ sides rings, ¬ s.Flat := fun s hs => (hfine s hs).steep
  have hclear := T.clear
  have hsame : ∀ s ∈ sides rings, ∀ t ∈ sides rings, s ≠ t → ¬ SameSpan s t :=
    fun s hs t ht hne => clear_not_same (hfine s hs) (hfine t ht) (hclear s hs t ht hne)
  have hlink := T.linked
  refine ⟨hlink, ?_, ?_, ?_, ?_, ?_, ?_, fun f hf hfl => absurd hfl (hst f hf), fun f hf hfl => absurd hfl (hst f hf), fun f hf hfl => absurd hfl (hst f hf),
    fun f hf hfl => absurd hfl (hst f hf), ?_, fun _ _ _ _ _ _ _ _ => rfl, fun _ _ _ _ _ _ _ _ => rfl, fun f hf _ _ hfl => absurd hfl (hst f hf)⟩
  · intro s hs
    rw [Exact.neg_eq, show (FNum.maxNum : K) = (dblMax : K) from Exact.max_eq]
    exact T.low s hs
  · intro t ht v hv
    obtain ⟨r, v', h1, h2, h3, h4, _⟩ := (mem_sides rings t).1 ht
    rw [(nodeAt_eq h1 _).1, h2] at hv
    cases Option.some.inj hv
    have hfl := hst t ht
    obtain ⟨s, hadj⟩ := Adj.exists false ht
    have hf : Follows rings s t := (follows_iff hadj.1 ht).2 ⟨hst s hadj.1, hfl, [], .nil (hadj.rev ht)⟩
    have uniq : ∀ u : Bool, (∃ z ∈ sides rings, Follows rings z t ∧ z.up = u) ↔ s.up = u := by
      intro u
      constructor
      · rintro ⟨z, hz, hzf, hzu⟩
        rw [Follows.unique hadj.1 hz ht hf hzf]; exact hzu
      · exact fun q => ⟨s, hadj.1, hf, q⟩
    rw [uniq, uniq]
    obtain ⟨r', u, k1, k2, k3, k4, _⟩ := (mem_sides rings s).1 hadj.1
    rw [hadj.2.1, h1] at k1
    cases Option.some.inj k1
    have hidx : t.idx = (s.idx + 1) % r.nodes.length := by
      have := (hadj.rev ht).2.2
      rw [Bool.not_false, if_pos rfl, hadj.2.1, (nodeAt_eq h1 0).2] at this
      exact this
    obtain ⟨g1, g2⟩ := T.flags r (List.mem_of_getElem? h1) s.idx u v k2 (hidx ▸ h2)
    have hup : ∀ z : Side K, ¬ z.Flat → (z.up = true ↔ z.frm.y < z.seg.target.y) ∧ (z.up = false ↔ z.seg.target.y < z.frm.y) := by
      intro z hz
      unfold Side.up
      rw [decide_eq_true_eq, decide_eq_false_iff_not, not_lt]
      exact ⟨Iff.rfl, ⟨fun q => lt_of_le_of_ne q (Ne.symm hz), le_of_lt⟩⟩
    rw [(hup t hfl).1, (hup t hfl).2, (hup s (hst s hadj.1)).1, (hup s (hst s hadj.1)).2, h3, h4, k3, k4, g1, g2]
    exact ⟨and_comm, and_comm⟩
  · intro s hs t ht _ _ hne h1 h2
    rw [s.ends_y.1, t.ends_y.2.1] at h1
    rw [t.ends_y.1, s.ends_y.2.1] at h2
    rcases hclear s hs t ht hne h1 h2 with hb | hb
    · exact Or.inl (leftOf_of_beside (hfine s hs) (hfine t ht) hb)
    · exact Or.inr (Or.inl (leftOf_of_beside (hfine t ht) (hfine s hs) hb))
  · intro s hs t ht fs ft hne hb
    have h1 := Side.ht fs
    have h2 := Side.ht ft
    rw [← hb] at h2
    rw [fmin_eq_min, Exact.div_eq, Exact.add_eq, Exact.lit_eq]
    have h3 := lt_min h1 h2
    push_cast
    constructor
    · rw [lt_div_iff₀ (by norm_num)]; linarith
    · rw [div_lt_iff₀ (by norm_num)]; linarith
  · exact fun s hs t ht _ _ hne hss => absurd hss (hsame s hs t ht hne)
  · intro a ha b hb hf ha' hb' u hu hua hub habove hbu hor
    have hab : a.bot = b.bot := by
      obtain ⟨sa, sb, fl, hw⟩ := (follows_iff ha hb).1 hf
      cases hw with
      | nil hadj =>
        have : b.frm = a.seg.target := (hadj.point hlink ha).symm
        rw [Side.bot, Side.bot, ha', hb', if_neg (by simp), if_pos rfl, this]
      | cons hadj hfl _ => exact absurd hfl (hst _ hadj.1)
    have fa := hst a ha
    have fb := hst b hb
    have fu := hst u hu
    have hbt := Side.ht fb
    have hat := Side.ht fa
    obtain ⟨l1, l2⟩ := hbu b.bot.y le_rfl habove.1 hbt.le habove.2.le
    have hxa : u.x b.bot.y ≤ a.x b.bot.y := by
      rcases hor with hl | hl
      · exact (hl b.bot.y habove.1 (by rw [hab]) habove.2.le (by rw [← hab]; exact hat.le)).1
      · exact absurd hl.1 (hsame u hu a ha hua)
    have hxb : b.x b.bot.y = b.bot.x := Side.ends_x.1
    have hxa' : a.x b.bot.y = b.bot.x := by rw [← hab]; exact Side.ends_x.1
    have heq : b.x b.bot.y = u.x b.bot.y := le_antisymm l1 (by rw [hxb, ← hxa']; exact hxa)
    have hfoot : b.bot = u.bot := by
      rcases l2 heq with ⟨e, _⟩ | ⟨_, e⟩
      · exact e
      · exact absurd e hbt.ne
    have hab0 : a ≠ b := by
      rintro rfl
      rw [ha'] at hb'; cases hb'
    rcases T.feet a ha b hb u hu (by rw [← a.ends_y.2.2, ← b.ends_y.2.2, hab]) (by rw [← b.ends_y.2.2, ← u.ends_y.2.2, hfoot]) with e | e | e
    · exact hab0 e
    · exact hua e.symm
    · exact hub e.symm
  · rintro s hs t ht _ _ _ _ ⟨f, hf, hfl, _⟩ _
    exact hst f hf hfl

omit [FTrans K] [LawfulOrd K] [Exact K] [IsStrictOrderedRing K] [Field K] in
theorem StoresLoop.steps {pt : PathType} {l : Loop K} {r : Ring K} (h : StoresLoop pt l r) (hs : ∀ s ∈ l.sides, s.1.y ≠ s.2.target.y) : Cyc FlagStep r.nodes := by
  intro i u v hu hv
  have hi := (List.getElem?_eq_some_iff.1 hu).1
  have hj := (List.getElem?_eq_some_iff.1 hv).1
  have hst : ∀ z ∈ r.nodes, z.pt.y ≠ z.seg.target.y := by
    intro z hz
    exact hs (z.pt, z.seg) (by rw [← h.geo]; exact List.mem_map.2 ⟨z, hz, rfl⟩)
  have hne : r.nodes.map Vtx.y ≠ [] := by
    intro e
    have := congrArg List.length e
    simp at this; rw [this] at hi; simp at hi
  obtain ⟨Y, hY⟩ := exists_cyc (r.nodes.map Vtx.y) hne
  obtain ⟨f1, f2⟩ := h.flags Y hY _ v hv
  obtain ⟨j, ej⟩ : ∃ j, j = (i + 1) % r.nodes.length := ⟨_, rfl⟩
  rw [← ej] at hv hj f1 f2
  have y0 : Y j = v.pt.y := hY.at hv (Int.ModEq.refl _)
  have y1 : Y (j + 1) = v.seg.target.y := by
    have hw := List.getElem?_eq_getElem (l := r.nodes) (i := (j + 1) % r.nodes.length) (Nat.mod_lt _ (by omega))
    rw [h.linked j v _ hv hw]
    exact hY.at hw (nextIdx_mod (n := r.nodes.length) (i := j)).symm
  have y2 : Y (j - 1) = u.pt.y := by
    refine hY.at hu ?_
    have := nextIdx_mod (n := r.nodes.length) (i := i)
    unfold nextIdx at this
    rw [← ej] at this
    have := this.sub_right 1
    rwa [add_sub_cancel_right] at this
  have hl : u.seg.target = v.pt := h.linked i u v hu (ej ▸ hv)
  have hu0 := hst u (List.mem_of_getElem? hu)
  rw [hl] at hu0
  have key : ∀ k : Nat, (∀ m : Nat, m ≤ k → Y (j - m) = Y j) → k = 0 := by
    intro k hk
    by_contra hk0
    have := hk 1 (by omega)
    rw [Nat.cast_one, y2, y0] at this
    exact hu0 this
  have d1 : DownInto Y j ↔ v.pt.y < u.pt.y := by
    constructor
    · rintro ⟨k, k1, k2⟩
      have := key k k2
      subst this
      rwa [Nat.cast_zero, zero_add, y2, y0] at k1
    · intro hlt
      refine ⟨0, by rw [Nat.cast_zero, zero_add, y2, y0]; exact hlt, fun m hm => ?_⟩
      rw [Nat.le_zero.1 hm, Nat.cast_zero, sub_zero]
  have d2 : UpInto Y j ↔ u.pt.y < v.pt.y := by
    constructor
    · rintro ⟨k, k1, k2⟩
      have := key k k2
      subst this
      rwa [Nat.cast_zero, zero_add, y2, y0] at k1
    · intro hlt
      refine ⟨0, by rw [Nat.cast_zero, zero_add, y2, y0]; exact hlt, fun m hm => ?_⟩
      rw [Nat.le_zero.1 hm, Nat.cast_zero, sub_zero]
  unfold FlagStep
  rw [f1, f2]
  unfold LocalMin LocalMax
  rw [d1, d2, y1, y0, hl]
  exact ⟨Iff.rfl, Iff.rfl⟩

theorem StoresLoops.arranged {L : List (PathType × Loop K)} {rings : List (Ring K)} (h : StoresLoops L rings) (N : NonCrossing (L.map Prod.snd)) :
    Arranged rings := by
  have hfine : ∀ s ∈ sides rings, Fine (s.frm, s.seg) := fun s hs => N.fine (h.side hs)
  have hclear : ∀ s ∈ sides rings, ∀ t ∈ sides rings, s ≠ t → Clear2 (s.frm, s.seg) (t.frm, t.seg) :=
    h.pairwise (fun _ _ h => Clear2.symm h) N.apart
  have hgeo : ∀ s ∈ sides rings, ∀ t ∈ sides rings, (s.frm, s.seg) = (t.frm, t.seg) → s = t := by
    intro s hs t ht e
    by_contra hne
    have hfr := meet_ends (hfine s hs) (hfine t ht) (hclear s hs t ht hne) (a := 1 / 2) (b := 1 / 2) (by norm_num) (by norm_num) (by norm_num) (by norm_num)
      (by rw [e])
    rcases hfr.1 with e | e <;> norm_num at e
  have hring : ∀ r ∈ rings, ∃ p ∈ L, StoresLoop p.1 p.2 r := by
    intro r hr
    obtain ⟨k, hk⟩ := List.getElem?_of_mem hr
    obtain ⟨p, hp, hS⟩ := h.get hk
    exact ⟨p, List.mem_of_getElem? hp, hS⟩
  refine Tidy.arranged ⟨?_, ?_, ?_, hfine, hclear, ?_⟩
  · intro r hr
    obtain ⟨p, _, hp⟩ := hring r hr
    exact hp.linked
  · intro r hr
    obtain ⟨p, hpL, hp⟩ := hring r hr
    refine hp.steps (fun s hs => N.steep s ?_)
    exact List.mem_flatMap.2 ⟨p.2, List.mem_map.2 ⟨p, hpL, rfl⟩, hs⟩
  · intro s hs
    have hm : s.frm ∈ sidePoints (s.frm, s.seg) := by
      unfold sidePoints; cases s.seg <;> simp
    exact (N.range _ (h.side hs) _ hm).2.2.1
  · intro a ha b hb u hu e1 e2
    rcases N.feet _ (h.side ha) _ (h.side hb) _ (h.side hu) e1 e2 with e | e | e
    · exact Or.inl (hgeo _ ha _ hb e)
    · exact Or.inr (Or.inl (hgeo _ ha _ hu e))
    · exact Or.inr (Or.inr (hgeo _ hb _ hu e))

theorem crossing_curve (X y : K) {v : Vtx K} (h : Fine (v.pt, v.seg)) : crossing X y v = curveWinding X y (v.pt, v.seg) := by
  obtain ⟨s, hs⟩ : ∃ s : Side K, s = ⟨0, 0, v.pt, v.seg, .subject⟩ := ⟨_, rfl⟩
  have fs : Fine (s.frm, s.seg) := by rw [hs]; exact h
  have key : (if s.Above y ∧ s.x y < X then s.dx else 0) = curveWinding X y (s.frm, s.seg) := by
    obtain ⟨e1, e2, _⟩ := s.ends_y
    have hst : s.frm.y ≠ s.seg.target.y := fs.steep
    unfold curveWinding
    have hab : s.Above y ↔ lowest (s.frm, s.seg) ≤ y ∧ y < highest (s.frm, s.seg) := by unfold Side.Above; rw [e1, e2]
    unfold Side.dx Side.up
    simp only [hab]
    by_cases ha : lowest (s.frm, s.seg) ≤ y ∧ y < highest (s.frm, s.seg)
    · rw [Side.x_fine fs ha.1 ha.2.le]
      unfold lowest highest at ha
      simp only at ha ⊢
      by_cases hx : abscissa (s.frm, s.seg) y < X
      · rw [if_pos ⟨ha, hx⟩, if_pos hx]
        rcases lt_or_gt_of_ne hst with hl | hl
        · rw [min_eq_left hl.le, max_eq_right hl.le] at ha
          simp [hl, ha, not_le.2 ha.2]
        · rw [min_eq_right hl.le, max_eq_left hl.le] at ha
          simp [not_lt.2 hl.le, ha]
      · rw [if_neg (fun h => hx h.2), if_neg hx]
    · rw [if_neg (fun h => ha h.1)]
      unfold lowest highest at ha
      simp only at ha ⊢
      have n1 : ¬ (s.seg.target.y ≤ y ∧ y < s.frm.y) := fun h => ha ⟨(min_le_right _ _).trans h.1, h.2.trans_le (le_max_left _ _)⟩
      have n2 : ¬ (s.frm.y ≤ y ∧ y < s.seg.target.y) := fun h => ha ⟨(min_le_left _ _).trans h.1, h.2.trans_le (le_max_right _ _)⟩
      simp only [if_neg n1, if_neg n2, ite_self]
  rw [hs] at key
  exact key

theorem StoresLoops.winding {L : List (PathType × Loop K)} {rings : List (Ring K)} (h : StoresLoops L rings)
    (hf : ∀ s ∈ (L.map Prod.snd).flatMap Loop.sides, Fine s) (t : PathType) (X y : K) :
    wnS t ((sides rings).filter (fun s => decide (s.Above y ∧ s.x y < X))) =
      loopWinding ((L.filter (fun p => decide (p.1 = t))).map Prod.snd) X y := by
  rw [wnS_crossing]
  unfold loopWinding sidesWinding
  induction h with
  | nil => rfl
  | @cons p r L rs h1 _ ih =>
    have e : (r.nodes.map (crossing X y)).sum = (p.2.sides.map (curveWinding X y)).sum := by
      rw [← h1.geo, List.map_map]
      congr 1
      refine List.map_congr_left (fun v hv => crossing_curve X y (hf _ ?_))
      rw [List.map_cons, List.flatMap_cons, ← h1.geo]
      exact List.mem_append_left _ (List.mem_map.2 ⟨v, hv, rfl⟩)
    rw [List.map_cons, List.sum_cons, ih (fun s hs => hf s (by rw [List.map_cons, List.flatMap_cons]; exact List.mem_append_right _ hs)), h1.ptype, e,
      List.filter_cons]
    by_cases hp : p.1 = t
    · simp [hp]
    · simp [hp]

/-! ## adding contours -/

theorem addLoops (pt : PathType) (Ls : List (Loop K)) (hc : ∀ l ∈ Ls, l.Closed) (hf : ∀ s ∈ Ls.flatMap Loop.sides, Fine s) (rings : List (Ring K)) :
    ∃ rs, addPaths pt rings (Ls.map (fun l => Path.build l.cmds)) = some (rings ++ rs) ∧ StoresLoops (Ls.map (fun l => (pt, l))) rs := by
  obtain ⟨ds, hds, hok⟩ : ∃ ds : List (Drawn K), Ls.map (fun l => Path.build l.cmds) = (ds.map (fun d => [d])).map (fun ds => Path.build (ds.flatMap Drawn.cmds)) ∧
      (∀ d ∈ ds, d.Ok) ∧ StoresLoops (Ls.map (fun l => (pt, l))) (ds.filterMap (fun d => insertVertexList d.contour pt)) := by
    induction Ls with
    | nil => exact ⟨[], rfl, by simp, List.Forall₂.nil⟩
    | cons l Ls ih =>
      obtain ⟨ds, h1, h2, h3⟩ := ih (fun Q hQ => hc Q (by simp [hQ])) (fun s hs => hf s (by rw [List.flatMap_cons]; exact List.mem_append_right _ hs))
      obtain ⟨r, hr, hS⟩ := intake_loop pt l (hc l (by simp)) (fun s hs => hf s (by rw [List.flatMap_cons]; exact List.mem_append_left _ hs))
      refine ⟨⟨l.start, l.segs.map drawCmd⟩ :: ds, ?_, ?_, ?_⟩
      · rw [List.map_cons, List.map_cons, List.map_cons, h1]
        simp [Drawn.cmds, Loop.cmds]
      · intro d hd
        rcases List.mem_cons.1 hd with rfl | hd
        · intro c hc q
          obtain ⟨x, _, rfl⟩ := List.mem_map.1 hc
          cases x <;> simp [drawCmd]
        · exact h2 d hd
      · rw [List.filterMap_cons, hr, List.map_cons]
        exact List.Forall₂.cons hS h3
  refine ⟨_, ?_, hok.2⟩
  rw [hds, addPaths_spec pt rings _ (by
    intro x hx d hd
    obtain ⟨e, he, rfl⟩ := List.mem_map.1 hx
    rw [List.mem_singleton.1 hd]; exact hok.1 e he)]
  rw [show (ds.map (fun d => [d])).flatten = ds from flatten_singletons ds]

end

end River
