import Verif.Lemmas.Beam4
import Verif.Lemmas.Match
import Verif.Props.SameEdge

/-! # The edges used for output, at one height and from one scan line to the next -/

namespace River
variable {K : Type} [FTrans K] [LinearOrder K] [Absc K] [LawfulOrd K] {rings : List (Ring K)}

/-! ## where sides meet -/

theorem Arranged.meet_above (A : Arranged rings) {s t : Side K} (hs : s ∈ sides rings) (ht : t ∈ sides rings) {y : K} (as : s.Above y)
    (at_ : t.Above y) (hx : s.x y = t.x y) : Twin s t ∨ (s.bot = t.bot ∧ y = s.bot.y) := by
  by_cases hne : s = t
  · subst hne; exact Or.inl (Twin.refl s)
  · rcases A.total3 hs ht hne as at_ with h | h | h
    · exact Or.inr (h.eq as at_ hx)
    · obtain ⟨h1, h2⟩ := h.eq at_ as hx.symm
      exact Or.inr ⟨h1.symm, by rw [← h1]; exact h2⟩
    · exact Or.inl h

omit [LawfulOrd K] in
theorem Arranged.meet_below (A : Arranged rings) {s t : Side K} (hs : s ∈ sides rings) (ht : t ∈ sides rings) {y : K} (bs : s.Below y)
    (bt : t.Below y) (hx : s.x y = t.x y) : Twin s t ∨ (s.top = t.top ∧ y = s.top.y) := by
  by_cases hne : s = t
  · subst hne; exact Or.inl (Twin.refl s)
  · rcases A.apart s hs t ht bs.steep bt.steep hne (lt_of_lt_of_le bs.1 bt.2) (lt_of_lt_of_le bt.1 bs.2) with h | h | h
    · right
      rcases (h y bs.1.le bt.1.le bs.2 bt.2).2 hx with ⟨_, h2⟩ | h2
      · exact absurd h2 bs.1.ne'
      · exact h2
    · right
      rcases (h y bt.1.le bs.1.le bt.2 bs.2).2 hx.symm with ⟨_, h2⟩ | ⟨h1, h2⟩
      · exact absurd h2 bt.1.ne'
      · exact ⟨h1.symm, by rw [← h1]; exact h2⟩
    · exact Or.inl h

omit [LawfulOrd K] in
theorem Arranged.meet (A : Arranged rings) {s t : Side K} (hs : s ∈ sides rings) (ht : t ∈ sides rings) {y : K} (bs : s.Below y)
    (at_ : t.Above y) (hx : s.x y = t.x y) : Twin s t ∨ (s.top = t.bot ∧ s.top.y = y) := by
  by_cases hne : s = t
  · subst hne; exact Or.inl (Twin.refl s)
  · by_cases htw : Twin s t
    · exact Or.inl htw
    right
    have hno : ∀ h : t.bot.y < s.top.y, False := by
      intro hlt
      rcases A.apart s hs t ht bs.steep at_.steep hne (bs.1.trans at_.2) hlt with h | h | h
      · rcases (h y bs.1.le at_.1 bs.2 at_.2.le).2 hx with ⟨h1, h2⟩ | ⟨h1, h2⟩
        · exact absurd h2 bs.1.ne'
        · rw [h1] at h2; exact absurd h2 at_.2.ne
      · rcases (h y at_.1 bs.1.le at_.2.le bs.2).2 hx.symm with ⟨h1, h2⟩ | ⟨h1, h2⟩
        · rw [h1] at h2; exact absurd h2 bs.1.ne'
        · exact absurd h2 at_.2.ne
      · exact htw h
    have h1 : s.top.y ≤ t.bot.y := not_lt.1 hno
    have h2 : s.top.y = y := le_antisymm (h1.trans at_.1) bs.2
    have h3 : t.bot.y = y := le_antisymm at_.1 (h2 ▸ h1)
    refine ⟨Vec2.ext ?_ (by rw [h2, h3]), h2⟩
    have e1 : s.x y = s.top.x := by rw [← h2]; exact Side.x_top (Side.ht bs.steep)
    have e2 : t.x y = t.bot.x := by rw [← h3]; exact Side.x_bot t
    rw [← e1, ← e2, hx]

/-! ## belonging to the boundary does not change along a side -/

theorem Arranged.left_same (A : Arranged rings) (t : PathType) (s : Side K) (hs : s ∈ sides rings) (n : Nat) : ∀ (y y' : K),
    ((((sides rings).map (fun u => u.bot.y)) ++ ((sides rings).map (fun u => u.top.y))).filter (fun z => decide (y < z ∧ z < y'))).length = n →
    s.bot.y ≤ y → y < y' → y' < s.top.y → wnS t (leftSides rings s y) = wnS t (leftSides rings s y') := by
  classical
  induction n using Nat.strong_induction_on with
  | _ n ih =>
    intro y y' hn h1 h2 h3
    generalize hH : (((sides rings).map (fun u => u.bot.y)) ++ ((sides rings).map (fun u => u.top.y))) = H at hn ih
    have step : ∀ z, s.bot.y ≤ z → z < y' → (∀ w ∈ H, ¬ (z < w ∧ w < y')) → wnS t (leftSides rings s z) = wnS t (leftSides rings s y') := by
      intro z z1 z2 z3
      rw [← A.left_const t y' s hs (lt_of_le_of_lt z1 z2) h3]
      unfold leftSides
      congr 1
      refine List.filter_congr (fun u hu => ?_)
      have hb : u.bot.y ∈ H := by rw [← hH]; exact List.mem_append_left _ (List.mem_map_of_mem hu)
      have ht : u.top.y ∈ H := by rw [← hH]; exact List.mem_append_right _ (List.mem_map_of_mem hu)
      have hiff : u.Above z ↔ u.Below y' := by
        constructor
        · rintro ⟨a1, a2⟩
          refine ⟨lt_of_le_of_lt a1 z2, ?_⟩
          by_contra hc
          exact z3 _ ht ⟨a2, not_le.1 hc⟩
        · rintro ⟨a1, a2⟩
          refine ⟨?_, lt_of_lt_of_le z2 a2⟩
          by_contra hc
          exact z3 _ hb ⟨not_le.1 hc, a1⟩
      simp only [hiff]
    by_cases hex : ∃ w ∈ H, y < w ∧ w < y'
    · obtain ⟨w0, hw0, hw1⟩ := hex
      obtain ⟨w, ⟨hw, w1, w2⟩, hmx⟩ := Set.exists_max_image {w : K | w ∈ H ∧ y < w ∧ w < y'} (fun w => w)
        ((List.finite_toSet H).subset (fun w hw => hw.1)) ⟨w0, hw0, hw1⟩
      rw [← step w (h1.trans w1.le) w2 (fun v hv hc => absurd (hmx v ⟨hv, w1.trans hc.1, hc.2⟩) (not_le.2 hc.1))]
      refine ih _ ?_ y w rfl h1 w1 (w2.trans h3)
      rw [← hn]
      have hsub : (H.filter (fun z => decide (y < z ∧ z < w))).Sublist (H.filter (fun z => decide (y < z ∧ z < y'))) := by
        refine List.monotone_filter_right H (fun z hz => ?_)
        simp only [decide_eq_true_eq] at hz ⊢
        exact ⟨hz.1, hz.2.trans w2⟩
      refine lt_of_le_of_ne hsub.length_le (fun hc => ?_)
      have := hsub.eq_of_length hc
      have hm : w ∈ H.filter (fun z => decide (y < z ∧ z < y')) := by simp [hw, w1, w2]
      rw [← this] at hm
      simp at hm
    · push Not at hex
      exact step y h1 h2 (fun w hw hc => absurd (hex w hw hc.1) (not_le.2 hc.2))

theorem Arranged.left_same' (A : Arranged rings) (t : PathType) {s : Side K} (hs : s ∈ sides rings) {y y' : K} (h1 : s.Above y)
    (h2 : s.Above y') : wnS t (leftSides rings s y) = wnS t (leftSides rings s y') := by
  rcases lt_trichotomy y y' with h | h | h
  · exact A.left_same t s hs _ y y' rfl h1.1 h h2.2
  · rw [h]
  · exact (A.left_same t s hs _ y' y rfl h2.1 h h1.2).symm

theorem Arranged.boundary_same (A : Arranged rings) (ct : ClipType) (fr : FillRule) {s : Side K} (hs : s ∈ sides rings) {y y' : K}
    (h1 : s.Above y) (h2 : s.Above y') : Boundary rings ct fr s y ↔ Boundary rings ct fr s y' := by
  unfold Boundary inResultS
  simp only [wnS_append, A.left_same' _ hs h1 h2]

/-! ## edges and the boundary -/

theorem Beam.left (A : Arranged rings) {fr : FillRule} {y : K} {ael : List (Edge K)} (b : Beam rings fr y ael) {pre post : List (Edge K)}
    {e : Edge K} (hl : ael = pre ++ e :: post) :
    ∃ C D, (C ++ D).Perm (twins rings (sideOf rings e)) ∧ (pre.map (sideOf rings)).Perm (leftSides rings (sideOf rings e) y ++ C) := by
  classical
  have hg := b.good
  have hp : ∀ u ∈ pre, u ∈ ael := fun u hu => by rw [hl]; simp [hu]
  have he : e ∈ ael := by rw [hl]; simp
  have hd := b.diff
  have hs := b.sorted
  have hpost : ∀ u ∈ post, u ∈ ael := fun u hu => by rw [hl]; simp [hu]
  have f0 := perm_above A b.good b.diff b.complete
  have f1 := f0.filter (fun s => decide (s ≠ sideOf rings e ∧ LeftOf s (sideOf rings e)))
  have f3 := f0.filter (fun s => decide (s ≠ sideOf rings e ∧ Twin s (sideOf rings e)))
  rw [List.filter_filter] at f1 f3
  have f2 : leftSides rings (sideOf rings e) y = (sides rings).filter (fun s => decide (s ≠ sideOf rings e ∧ LeftOf s (sideOf rings e)) && decide (s.Above y)) := by
    unfold leftSides
    refine List.filter_congr (fun s hs => ?_)
    rw [← Bool.decide_and]
    congr 1
    rw [eq_iff_iff]; tauto
  have f4 : twins rings (sideOf rings e) = (sides rings).filter (fun s => decide (s ≠ sideOf rings e ∧ Twin s (sideOf rings e)) && decide (s.Above y)) := by
    unfold twins
    refine List.filter_congr (fun s hs => ?_)
    rw [← Bool.decide_and]
    congr 1
    rw [eq_iff_iff]
    constructor
    · intro h; exact ⟨h, (h.2.above).2 (hg e he).above⟩
    · exact fun h => h.1
  rw [hl] at hd hs
  obtain ⟨_, d2, d3⟩ := List.pairwise_append.1 hd
  obtain ⟨_, s2, s3⟩ := List.pairwise_append.1 hs
  refine ⟨(pre.map (sideOf rings)).filter (fun s => decide (s ≠ sideOf rings e ∧ Twin s (sideOf rings e))),
    (post.map (sideOf rings)).filter (fun s => decide (s ≠ sideOf rings e ∧ Twin s (sideOf rings e))), ?_, ?_⟩
  · rw [f4]
    refine List.Perm.trans (List.Perm.of_eq ?_) f3
    rw [hl, List.map_append, List.map_cons, List.filter_append, List.filter_cons]
    simp
  · have e2 : (post.map (sideOf rings)).filter (fun s => decide (s ≠ sideOf rings e ∧ LeftOf s (sideOf rings e))) = [] := by
      rw [List.filter_eq_nil_iff]
      intro s hs
      obtain ⟨u, hu, rfl⟩ := List.mem_map.1 hs
      simp only [decide_eq_true_eq]
      rintro ⟨q1, q2⟩
      exact A.asymmW ((hg u (hpost u hu)).mem A) ((hg e he).mem A) q1 (hg u (hpost u hu)).above (hg e he).above q2
        (List.rel_of_pairwise_cons s2 hu)
    have e3 : (pre.map (sideOf rings)).filter (fun s => decide (s ≠ sideOf rings e ∧ Twin s (sideOf rings e))) =
        (pre.map (sideOf rings)).filter (fun s => !decide (s ≠ sideOf rings e ∧ LeftOf s (sideOf rings e))) := by
      refine List.filter_congr (fun s hs => ?_)
      obtain ⟨u, hu, rfl⟩ := List.mem_map.1 hs
      have hne : sideOf rings u ≠ sideOf rings e := d3 u hu e (by simp)
      rw [← decide_not, decide_eq_decide]
      constructor
      · rintro ⟨_, h⟩ ⟨_, h'⟩
        exact A.not_twin ((hg u (hp u hu)).mem A) ((hg e he).mem A) hne (hg u (hp u hu)).above (hg e he).above h' h
      · intro h
        rcases s3 u hu e (by simp) with h' | h'
        · exact absurd ⟨hne, h'⟩ h
        · exact ⟨hne, h'⟩
    have e4 : (ael.map (sideOf rings)).filter (fun s => decide (s ≠ sideOf rings e ∧ LeftOf s (sideOf rings e))) =
        (pre.map (sideOf rings)).filter (fun s => decide (s ≠ sideOf rings e ∧ LeftOf s (sideOf rings e))) := by
      rw [hl, List.map_append, List.map_cons, List.filter_append, List.filter_cons, e2]
      simp
    rw [e3, f2]
    rw [e4] at f1
    exact (List.filter_append_perm _ _).symm.trans (f1.append_right _)

theorem Beam.result (A : Arranged rings) {fr : FillRule} {y : K} {ael : List (Edge K)} (b : Beam rings fr y ael) (ct : ClipType)
    {pre post : List (Edge K)} {e : Edge K} (hl : ael = pre ++ e :: post) :
    ∃ C D, (C ++ D).Perm (twins rings (sideOf rings e)) ∧ (inResult ct fr pre ↔ inResultS ct fr (leftSides rings (sideOf rings e) y ++ C)) ∧
    (inResult ct fr (pre ++ [e]) ↔ inResultS ct fr (leftSides rings (sideOf rings e) y ++ C ++ [sideOf rings e])) := by
  obtain ⟨C, D, hCD, hp⟩ := b.left A hl
  refine ⟨C, D, hCD, ?_⟩
  have hok : ∀ u ∈ pre ++ [e], EOk rings u := by
    intro u hu
    refine (b.good u ?_).ok
    rw [hl]
    rcases List.mem_append.1 hu with h | h
    · simp [h]
    · simp at h; simp [h]
  have hw : ∀ t, wn t pre = wnS t (leftSides rings (sideOf rings e) y ++ C) := by
    intro t
    rw [wn_sides A.linked t pre (fun u hu => hok u (by simp [hu])), wnS_perm t hp]
  have hw2 : ∀ t, wn t (pre ++ [e]) = wnS t (leftSides rings (sideOf rings e) y ++ C ++ [sideOf rings e]) := by
    intro t
    rw [wn_sides A.linked t (pre ++ [e]) hok, List.map_append, wnS_append, wnS_append, wnS_perm t hp]
    rfl
  unfold inResult inResultS
  simp only [hw, hw2, and_self, iff_self]

/-- Along the active edges the directions of the edges used for output alternate. -/
theorem Beam.alt (A : Arranged rings) {fr : FillRule} {y : K} {ael : List (Edge K)} (b : Beam rings fr y ael) (ct : ClipType) {σ : Int}
    (hσ : σ = 1 ∨ σ = -1) (D : Directed rings ct fr σ) : AltDir Edge.windDx σ (ael.filter (isContributing ct fr)) := by
  classical
  have key : ∀ post pre, ael = pre ++ post →
      AltDir Edge.windDx (if inResult ct fr pre then -σ else σ) (post.filter (isContributing ct fr)) := by
    intro post
    induction post with
    | nil => intro pre _; exact trivial
    | cons e post ih =>
      intro pre hl
      have he : e ∈ ael := by rw [hl]; simp
      have ih := ih (pre ++ [e]) (by rw [hl]; simp)
      obtain ⟨C, C', hCD, h1, h2⟩ := b.result A ct hl
      have hc := contributing_iff_changes ct fr pre e (b.good e he).ok.dir (b.counts pre e post hl)
      cases hce : isContributing ct fr e with
      | false =>
        rw [List.filter_cons_of_neg (by rw [hce]; simp)]
        have : inResult ct fr pre ↔ inResult ct fr (pre ++ [e]) := by
          by_contra hn
          have := hc.2 hn
          rw [hce] at this; cases this
        simp only [this]
        exact ih
      | true =>
        rw [List.filter_cons_of_pos hce]
        have hne := hc.1 hce
        have hD := D _ ((b.good e he).mem A) y (b.good e he).above C C' hCD (by rw [← h1, ← h2]; exact hne)
        rw [((b.good e he).ok.facts A.linked).2.2.2.2.2.1, ← h1] at hD
        have hdir := (b.good e he).ok.dir
        by_cases hin : inResult ct fr pre
        · have hout : ¬ inResult ct fr (pre ++ [e]) := fun hh => hne ⟨fun _ => hh, fun _ => hin⟩
          rw [if_neg hout] at ih
          rw [if_pos hin]
          refine ⟨?_, by rw [neg_neg]; exact ih⟩
          have hnσ : e.windDx ≠ σ := fun hh => hD.1 hh hin
          rcases hdir with d | d <;> rcases hσ with s | s <;> rw [d, s] at hnσ <;> simp_all
        · have hout : inResult ct fr (pre ++ [e]) := by by_contra hh; exact hne ⟨fun h => absurd h hin, fun h => absurd h hh⟩
          rw [if_pos hout] at ih
          rw [if_neg hin]
          exact ⟨hD.2 hin, ih⟩
  have := key ael [] rfl
  rw [if_neg (inResult_nil ct fr)] at this
  exact this

theorem Beam.even (A : Arranged rings) {fr : FillRule} {y : K} {ael : List (Edge K)} (b : Beam rings fr y ael) (ct : ClipType) :
    Even (ael.filter (isContributing ct fr)).length := by
  rw [← List.countP_eq_length_filter]
  refine contributing_even ct fr ael (dirsOk_of_good b.good) b.counts (fun t => ?_)
  rw [wn_sides A.linked t ael (fun e he => (b.good e he).ok), wnS_perm t (perm_above A b.good b.diff b.complete)]
  exact A.balance_all t y

/-- Parity of the number of edges used for output in a left part of the active edges. -/
theorem inside_pred_iff_odd (ct : ClipType) (fr : FillRule) (ael : List (Edge K)) (p : Edge K → Bool)
    (hd : DirsOk ael) (hok : AllCountsOk fr ael) (hs : ael.Pairwise (fun a b => p b = true → p a = true)) :
    inResult ct fr (ael.filter p) ↔ Odd ((ael.filter (isContributing ct fr)).countP p) := by
  have hsplit : ∀ l : List (Edge K), l.Pairwise (fun a b => p b = true → p a = true) →
      l = l.filter p ++ l.filter (fun e => !p e) := by
    intro l hl
    induction l with
    | nil => rfl
    | cons e l ih =>
      obtain ⟨h1, h2⟩ := List.pairwise_cons.mp hl
      by_cases he : p e = true
      · rw [List.filter_cons_of_pos he, List.filter_cons_of_neg (by simpa using he)]
        rw [List.cons_append, ← ih h2]
      · have hnil : l.filter p = [] := by
          simp only [List.filter_eq_nil_iff]
          intro z hz hlt
          exact he (h1 z hz hlt)
        rw [List.filter_cons_of_neg he, List.filter_cons_of_pos (by simpa using he)]
        have := ih h2
        rw [hnil] at this ⊢
        rw [List.nil_append] at this ⊢
        rw [← this]
  have h0 := hsplit ael hs
  have := inside_iff_odd ct fr (ael.filter p) (ael.filter (fun e => !p e)) (by rw [← h0]; exact hd) (by rw [← h0]; exact hok)
  rw [this, List.countP_filter, List.countP_filter]
  simp only [Bool.and_comm]

/-- Parity of the number of edges used for output to the left of `X`, for any abscissas in the order of the edges. -/
theorem inside_key_iff_odd (ct : ClipType) (fr : FillRule) (ael : List (Edge K)) (k : Edge K → K)
    (X : K) (hd : DirsOk ael) (hok : AllCountsOk fr ael) (hs : ael.Pairwise (fun a b => k a ≤ k b)) :
    inResult ct fr (ael.filter (fun e => decide (k e < X))) ↔
      Odd ((ael.filter (isContributing ct fr)).countP (fun e => decide (k e < X))) :=
  inside_pred_iff_odd ct fr ael _ hd hok (hs.imp (fun h h' => by
    simp only [decide_eq_true_eq] at h' ⊢; exact lt_of_le_of_lt h h'))

/-- Parity of the edges used for output that arrive at the next scan line `y'` to the left of `X`. -/
theorem Beam.odd_below (A : Arranged rings) {fr : FillRule} {y y' : K} {ael : List (Edge K)} (b : Beam rings fr y ael)
    (hgap : ∀ s ∈ sides rings, s.Above y ↔ s.Below y') (ct : ClipType) (X : K) :
    Odd ((ael.filter (isContributing ct fr)).countP (fun e => decide ((sideOf rings e).x y' < X))) ↔
      inResultS ct fr ((sides rings).filter (fun s => decide (s.Below y' ∧ s.x y' < X))) := by
  have hbel : ∀ e ∈ ael, (sideOf rings e).Below y' := fun e he => (hgap _ ((b.good e he).mem A)).1 (b.good e he).above
  have h1 := inside_key_iff_odd ct fr ael (fun e => (sideOf rings e).x y') X (dirsOk_of_good b.good) b.counts (by
    refine b.sorted.imp_of_mem ?_
    intro e f he hf h
    exact h.below (hbel e he) (hbel f hf))
  have hw : ∀ t, wn t (ael.filter (fun e => decide ((sideOf rings e).x y' < X))) =
      wnS t ((sides rings).filter (fun s => decide (s.Below y' ∧ s.x y' < X))) := by
    intro t
    rw [wn_sides A.linked t _ (fun e he => (b.good e (List.mem_filter.1 he).1).ok)]
    have p1 := (perm_above A b.good b.diff b.complete).filter (fun s => decide (s.x y' < X))
    rw [List.filter_filter, List.filter_map] at p1
    show wnS t ((ael.filter ((fun s : Side K => decide (s.x y' < X)) ∘ sideOf rings)).map (sideOf rings)) = _
    rw [wnS_perm t p1]
    congr 1
    refine List.filter_congr (fun s hs => ?_)
    rw [← Bool.decide_and, decide_eq_decide, hgap s hs, and_comm]
  rw [← h1]
  unfold inResult inResultS
  simp only [hw]

/-- Parity of the edges used for output that leave the scan line `y` to the left of `X`. -/
theorem Beam.odd_above (A : Arranged rings) {fr : FillRule} {y : K} {ael : List (Edge K)} (b : Beam rings fr y ael) (ct : ClipType) (X : K) :
    Odd ((ael.filter (isContributing ct fr)).countP (fun e => decide (e.currX < X))) ↔
      inResultS ct fr ((sides rings).filter (fun s => decide (s.Above y ∧ s.x y < X))) := by
  have h2 := inside_key_iff_odd ct fr ael Edge.currX X (dirsOk_of_good b.good) b.counts (by
    refine b.sorted.imp_of_mem ?_
    intro e f he hf h
    exact (b.good e he).le (b.good f hf) h)
  have hw : ∀ t, wn t (ael.filter (fun e => decide (e.currX < X))) =
      wnS t ((sides rings).filter (fun s => decide (s.Above y ∧ s.x y < X))) := by
    intro t
    rw [wn_sides A.linked t _ (fun e he => (b.good e (List.mem_filter.1 he).1).ok)]
    have p2 := (perm_above A b.good b.diff b.complete).filter (fun s => decide (s.x y < X))
    rw [List.filter_filter, List.filter_map] at p2
    have q1 : ael.filter (fun e => decide (e.currX < X)) = ael.filter ((fun s : Side K => decide (s.x y < X)) ∘ sideOf rings) := by
      refine List.filter_congr (fun e he => ?_)
      rw [Function.comp_apply, (b.good e he).x]
    rw [q1, wnS_perm t p2]
    congr 1
    refine List.filter_congr (fun s hs => ?_)
    rw [← Bool.decide_and, decide_eq_decide, and_comm]
  rw [← h2]
  unfold inResult inResultS
  simp only [hw]

/-! ## coincident edges -/

omit [LinearOrder K] [LawfulOrd K] in
/-- The loop that collects the edges bounding the result. -/
theorem boundEdges_loop (rings : List (Ring K)) (ct : ClipType) (fr : FillRule) (ael : List (Edge K)) :
    ∃ F : List (Edge K) → Edge K → List (Edge K), boundEdges rings ct fr ael = (ael.foldl F []).reverse ∧
      (∀ acc e, isContributing ct fr e = false → F acc e = acc) ∧
      (∀ e, isContributing ct fr e = true → F [] e = [e]) ∧
      (∀ acc b e, isContributing ct fr e = true → isSame rings e b = true → F (b :: acc) e = acc) ∧
      (∀ acc b e, isContributing ct fr e = true → isSame rings e b = false → F (b :: acc) e = e :: b :: acc) := by
  refine ⟨_, rfl, ?_, ?_, ?_, ?_⟩
  · intro acc e h; simp [h]
  · intro e h; simp [h]
  · intro acc b e h h'; simp [h, h']
  · intro acc b e h h'; simp [h, h']

theorem altDir_snoc {α : Type} (d : α → Int) (l : List α) (a : α) : ∀ τ : Int,
    AltDir d τ (l ++ [a]) ↔ AltDir d τ l ∧ d a = (if Even l.length then τ else -τ) := by
  induction l with
  | nil => intro τ; simp [AltDir]
  | cons b l ih =>
    intro τ
    rw [List.cons_append, AltDir, AltDir, ih (-τ), List.length_cons, neg_neg]
    by_cases h : Even l.length <;> simp [h, Nat.even_add_one, and_assoc]

/-- The edges that remain of those bounding the result when edges that lie on each other are dropped in pairs. -/
structure Bounding (rings : List (Ring K)) (ct : ClipType) (fr : FillRule) (σ : Int) (ael B : List (Edge K)) : Prop where
  sub : B.Sublist (ael.filter (isContributing ct fr))
  alt : AltDir Edge.windDx σ B
  even : Even B.length
  once : B.Pairwise (fun e f => ¬ Twin (sideOf rings e) (sideOf rings f))
  odd : ∀ p : Edge K → Bool, (∀ e ∈ ael, ∀ f ∈ ael, Twin (sideOf rings e) (sideOf rings f) → p e = p f) →
    (Odd (B.countP p) ↔ Odd ((ael.filter (isContributing ct fr)).countP p))

theorem Beam.same (A : Arranged rings) {fr : FillRule} {y : K} {ael : List (Edge K)} (b : Beam rings fr y ael) {a c : Edge K}
    (ha : a ∈ ael) (hc : c ∈ ael) : isSame rings c a = true ↔ Twin (sideOf rings c) (sideOf rings a) := by
  obtain ⟨m1, g1, _, b1, t1, _, _⟩ := (b.good a ha).ok.facts A.linked
  obtain ⟨m2, g2, _, b2, t2, _, _⟩ := (b.good c hc).ok.facts A.linked
  have hsp : isSame rings c a = true ↔ SameSpan (sideOf rings c) (sideOf rings a) := by
    unfold SameSpan
    rw [isSame, g1, g2, b1, b2, t1, t2]
    cases h1 : (sideOf rings c).seg <;> cases h2 : (sideOf rings a).seg <;>
      simp only [Bool.and_eq_true, Bool.or_eq_true, Vec2.beq_iff, Bool.and_false, Bool.false_eq_true, and_true, and_false, and_assoc]
  rw [hsp]
  constructor
  · intro h
    by_cases hd : sideOf rings c = sideOf rings a
    · rw [hd]; exact Twin.refl _
    · exact A.distinct _ m2 _ m1 (b.good c hc).above.steep (b.good a ha).above.steep hd h
  · exact fun h => h.1

theorem Beam.bounding (A : Arranged rings) {fr : FillRule} {y : K} {ael : List (Edge K)} (b : Beam rings fr y ael) (ct : ClipType) {σ : Int}
    (hσ : σ = 1 ∨ σ = -1) (D : Directed rings ct fr σ) : Bounding rings ct fr σ ael (boundEdges rings ct fr ael) := by
  classical
  obtain ⟨F, hF, f1, f2, f3, f4⟩ := boundEdges_loop rings ct fr ael
  rw [hF]
  have main : ∀ (l acc done pre : List (Edge K)), ael = pre ++ l → done = pre.filter (isContributing ct fr) → acc.reverse.Sublist done →
      acc.Pairwise (fun e f => ¬ Twin (sideOf rings e) (sideOf rings f)) →
      (∀ p : Edge K → Bool, (∀ e ∈ ael, ∀ f ∈ ael, Twin (sideOf rings e) (sideOf rings f) → p e = p f) → (Odd (acc.countP p) ↔ Odd (done.countP p))) →
      (∀ τ, AltDir Edge.windDx τ done → AltDir Edge.windDx τ acc.reverse) →
      (l.foldl F acc).reverse.Sublist (ael.filter (isContributing ct fr)) ∧
      (l.foldl F acc).Pairwise (fun e f => ¬ Twin (sideOf rings e) (sideOf rings f)) ∧
      (∀ p : Edge K → Bool, (∀ e ∈ ael, ∀ f ∈ ael, Twin (sideOf rings e) (sideOf rings f) → p e = p f) →
        (Odd ((l.foldl F acc).countP p) ↔ Odd ((ael.filter (isContributing ct fr)).countP p))) ∧
      (∀ τ, AltDir Edge.windDx τ (ael.filter (isContributing ct fr)) → AltDir Edge.windDx τ (l.foldl F acc).reverse) := by
    intro l
    induction l with
    | nil =>
      intro acc done pre hl hdone hs hw hodd halt
      rw [List.append_nil] at hl
      subst hl hdone
      exact ⟨hs, hw, hodd, halt⟩
    | cons e l ih =>
      intro acc done pre hl hdone hs hw hodd halt
      have he : e ∈ ael := by rw [hl]; simp
      have hpre : ∀ u ∈ pre, u ∈ ael := fun u hu => by rw [hl]; simp [hu]
      have hmem : ∀ u ∈ acc, u ∈ pre := by
        intro u hu
        have := hs.subset (List.mem_reverse.2 hu)
        rw [hdone] at this
        exact (List.mem_filter.1 this).1
      rw [List.foldl_cons]
      cases hc : isContributing ct fr e with
      | false =>
        rw [f1 acc e hc]
        exact ih acc done (pre ++ [e]) (by rw [hl]; simp) (by rw [hdone]; simp [hc]) hs hw hodd halt
      | true =>
        have hdone' : done ++ [e] = (pre ++ [e]).filter (isContributing ct fr) := by rw [hdone]; simp [hc]
        have hlen : Odd acc.length ↔ Odd done.length := by
          have := hodd (fun _ => true) (fun _ _ _ _ _ => rfl)
          simpa using this
        have hpush : (∀ u ∈ acc, ¬ Twin (sideOf rings e) (sideOf rings u)) → F acc e = e :: acc → (((F acc e).reverse).Sublist (done ++ [e])) ∧
            (F acc e).Pairwise (fun e f => ¬ Twin (sideOf rings e) (sideOf rings f)) ∧
            (∀ p : Edge K → Bool, (∀ e ∈ ael, ∀ f ∈ ael, Twin (sideOf rings e) (sideOf rings f) → p e = p f) → (Odd ((F acc e).countP p) ↔ Odd ((done ++ [e]).countP p))) ∧
            (∀ τ, AltDir Edge.windDx τ (done ++ [e]) → AltDir Edge.windDx τ (F acc e).reverse) := by
          intro hn h
          rw [h]
          refine ⟨?_, List.pairwise_cons.2 ⟨hn, hw⟩, ?_, ?_⟩
          · rw [List.reverse_cons]; exact hs.append (List.Sublist.refl _)
          · intro p hp
            have := hodd p hp
            rw [List.countP_append, List.countP_cons, List.countP_cons, List.countP_nil]
            cases p e
            · simpa using this
            · simp only [if_true, Nat.odd_add_one, zero_add]; exact not_congr this
          · intro τ hτ
            rw [altDir_snoc] at hτ
            rw [List.reverse_cons, altDir_snoc]
            refine ⟨halt τ hτ.1, ?_⟩
            have hlen' : Even acc.length ↔ Even done.length := by
              rw [← Nat.not_odd_iff_even, ← Nat.not_odd_iff_even, hlen]
            rw [hτ.2, List.length_reverse]
            simp only [hlen']
        have fin : (((F acc e).reverse).Sublist (done ++ [e])) ∧
            (F acc e).Pairwise (fun e f => ¬ Twin (sideOf rings e) (sideOf rings f)) ∧
            (∀ p : Edge K → Bool, (∀ e ∈ ael, ∀ f ∈ ael, Twin (sideOf rings e) (sideOf rings f) → p e = p f) → (Odd ((F acc e).countP p) ↔ Odd ((done ++ [e]).countP p))) ∧
            (∀ τ, AltDir Edge.windDx τ (done ++ [e]) → AltDir Edge.windDx τ (F acc e).reverse) := by
          cases acc with
          | nil => exact hpush (by simp) (f2 e hc)
          | cons a acc =>
            have ha : a ∈ ael := hpre a (hmem a (by simp))
            cases hsm : isSame rings e a with
            | false =>
              refine hpush ?_ (f4 acc a e hc hsm)
              have hna : ¬ Twin (sideOf rings e) (sideOf rings a) := by
                intro h; rw [(b.same A ha he).2 h] at hsm; cases hsm
              have hso := b.sorted
              have hdi := b.diff
              rw [hl] at hso hdi
              have sre := (List.pairwise_append.1 hso).2.2
              have dre := (List.pairwise_append.1 hdi).2.2
              intro u hu htw
              rcases List.mem_cons.1 hu with rfl | hu
              · exact hna htw
              have hu' := hpre u (hmem u (List.mem_cons_of_mem _ hu))
              have hua : [u, a].Sublist ael := by
                have h1 : [u, a].Sublist (a :: acc).reverse := by
                  rw [List.reverse_cons]
                  exact (List.singleton_sublist.2 (List.mem_reverse.2 hu)).append (List.Sublist.refl _)
                have h2 := h1.trans hs
                rw [hdone] at h2
                refine (h2.trans List.filter_sublist).trans ?_
                rw [hl]; exact List.sublist_append_left _ _
              have lua := (b.sorted.sublist hua); simp only [List.pairwise_cons, List.mem_singleton, forall_eq] at lua
              have dua := (b.diff.sublist hua); simp only [List.pairwise_cons, List.mem_singleton, forall_eq] at dua
              have lae := sre a (hmem a (by simp)) e (by simp)
              have dae := dre a (hmem a (by simp)) e (by simp)
              have due := dre u (hmem u (List.mem_cons_of_mem _ hu)) e (by simp)
              rcases lae with lae | lae
              · have : LeftOf (sideOf rings u) (sideOf rings e) := by
                  rcases lua.1 with h | h
                  · exact A.trans ((b.good u hu').mem A) ((b.good a ha).mem A) ((b.good e he).mem A) dua.1 dae (b.good u hu').above (b.good a ha).above
                      (b.good e he).above h lae
                  · exact lae.twin_left h
                exact A.not_twin ((b.good u hu').mem A) ((b.good e he).mem A) due (b.good u hu').above (b.good e he).above this htw.symm
              · exact hna lae.symm
            | true =>
              rw [f3 acc a e hc hsm]
              have htw := (b.same A ha he).1 hsm
              refine ⟨?_, (List.pairwise_cons.1 hw).2, ?_, ?_⟩
              · rw [List.reverse_cons] at hs
                exact ((List.sublist_append_left _ _).trans hs).trans (List.sublist_append_left _ _)
              · intro p hp
                have := hodd p hp
                rw [List.countP_cons] at this
                rw [List.countP_append, List.countP_cons, List.countP_nil, hp e he a ha htw]
                cases h : p a
                · rw [h] at this; simpa using this
                · rw [h] at this
                  simp only [if_true, Nat.odd_add_one, zero_add] at this ⊢
                  rw [← this, not_not]
              · intro τ hτ
                rw [altDir_snoc] at hτ
                have := halt τ hτ.1
                rw [List.reverse_cons, altDir_snoc] at this
                exact this.1
        exact ih (F acc e) (done ++ [e]) (pre ++ [e]) (by rw [hl]; simp) hdone' fin.1 fin.2.1 fin.2.2.1 fin.2.2.2
  obtain ⟨m1, m2, m3, m4⟩ := main ael [] [] [] rfl rfl (by simp) (by simp) (by simp) (by simp)
  refine ⟨m1, m4 σ (b.alt A ct hσ D), ?_, ?_, ?_⟩
  · have := m3 (fun _ => true) (fun _ _ _ _ _ => rfl)
    rw [List.length_reverse, ← Nat.not_odd_iff_even]
    have h2 := b.even A ct
    rw [← Nat.not_odd_iff_even] at h2
    exact fun h => h2 (by simpa using this.1 (by simpa using h))
  · rw [List.pairwise_reverse]
    exact m2.imp (fun h h' => h h'.symm)
  · intro p hp
    rw [List.countP_reverse]; exact m3 p hp

theorem Bounding.mem {ct : ClipType} {fr : FillRule} {σ : Int} {ael B : List (Edge K)} (h : Bounding rings ct fr σ ael B) {e : Edge K}
    (he : e ∈ B) : e ∈ ael ∧ isContributing ct fr e = true := List.mem_filter.1 (h.sub.subset he)

/-- The sides strictly to the left of a side. -/
theorem Beam.inLeft (A : Arranged rings) {fr : FillRule} {y : K} {ael : List (Edge K)} (b : Beam rings fr y ael) (ct : ClipType) {e : Edge K}
    (he : e ∈ ael) : ∃ p q : Edge K → Bool,
    (∀ f, p f = true ↔ sideOf rings f ≠ sideOf rings e ∧ LeftOf (sideOf rings f) (sideOf rings e)) ∧
    (∀ f, q f = true ↔ Twin (sideOf rings f) (sideOf rings e)) ∧
    (∀ f ∈ ael, p f = true → q f = true → False) ∧
    (∀ f ∈ ael, ∀ g ∈ ael, Twin (sideOf rings f) (sideOf rings g) → p f = p g ∧ q f = q g) ∧
    (inResultS ct fr (leftSides rings (sideOf rings e) y) ↔ Odd ((ael.filter (isContributing ct fr)).countP p)) ∧
    (inResultS ct fr (leftSides rings (sideOf rings e) y ++ sideOf rings e :: twins rings (sideOf rings e)) ↔
      Odd ((ael.filter (isContributing ct fr)).countP (fun f => p f || q f))) := by
  classical
  have ge := b.good e he
  have key : ∀ f ∈ ael, ∀ g ∈ ael, Twin (sideOf rings f) (sideOf rings g) →
      (sideOf rings f ≠ sideOf rings e ∧ LeftOf (sideOf rings f) (sideOf rings e)) →
      (sideOf rings g ≠ sideOf rings e ∧ LeftOf (sideOf rings g) (sideOf rings e)) := by
    intro f hf g hg ht h
    refine ⟨fun hc => ?_, h.2.twin_left ht.symm⟩
    rw [hc] at ht
    exact A.not_twin ((b.good f hf).mem A) (ge.mem A) h.1 (b.good f hf).above ge.above h.2 ht
  refine ⟨fun f => decide (sideOf rings f ≠ sideOf rings e ∧ LeftOf (sideOf rings f) (sideOf rings e)),
    fun f => decide (Twin (sideOf rings f) (sideOf rings e)), fun f => by simp only [decide_eq_true_eq],
    fun f => by simp only [decide_eq_true_eq], ?_, ?_, ?_, ?_⟩
  · intro f hf h1 h2
    simp only [decide_eq_true_eq] at h1 h2
    exact A.not_twin ((b.good f hf).mem A) (ge.mem A) h1.1 (b.good f hf).above ge.above h1.2 h2
  · intro f hf g hg ht
    simp only [decide_eq_decide]
    exact ⟨⟨key f hf g hg ht, key g hg f hf ht.symm⟩, ⟨fun h => ht.symm.trans h, fun h => ht.trans h⟩⟩
  · rw [← inside_pred_iff_odd ct fr ael _ (dirsOk_of_good b.good) b.counts]
    · have hw : ∀ t, wn t (ael.filter (fun f => decide (sideOf rings f ≠ sideOf rings e ∧ LeftOf (sideOf rings f) (sideOf rings e)))) =
          wnS t (leftSides rings (sideOf rings e) y) := by
        intro t
        rw [wn_sides A.linked t _ (fun e he => (b.good e (List.mem_filter.1 he).1).ok)]
        have p1 := (perm_above A b.good b.diff b.complete).filter (fun s => decide (s ≠ sideOf rings e ∧ LeftOf s (sideOf rings e)))
        rw [List.filter_filter, List.filter_map] at p1
        show wnS t ((ael.filter ((fun s : Side K => decide (s ≠ sideOf rings e ∧ LeftOf s (sideOf rings e))) ∘ sideOf rings)).map (sideOf rings)) = _
        rw [wnS_perm t p1]
        congr 1
        refine List.filter_congr (fun s hs => ?_)
        rw [← Bool.decide_and, decide_eq_decide, and_comm]
      unfold inResult inResultS
      simp only [hw]
    · refine (b.sorted.and b.diff).imp_of_mem ?_
      rintro f g hf hg ⟨h1, h3⟩ h2
      simp only [decide_eq_true_eq] at h2 ⊢
      have hne : sideOf rings f ≠ sideOf rings e := by
        intro hc
        have h1' : LeftW (sideOf rings f) (sideOf rings g) := h1
        rw [hc] at h1'
        exact A.asymmW ((b.good g hg).mem A) (ge.mem A) h2.1 (b.good g hg).above ge.above h2.2 h1'
      refine ⟨hne, ?_⟩
      rcases h1 with h1 | h1
      · exact A.trans ((b.good f hf).mem A) ((b.good g hg).mem A) (ge.mem A) h3 h2.1 (b.good f hf).above (b.good g hg).above ge.above h1 h2.2
      · exact h2.2.twin_left h1
  · rw [← inside_pred_iff_odd ct fr ael _ (dirsOk_of_good b.good) b.counts]
    · have hw : ∀ t, wn t (ael.filter (fun f => decide (sideOf rings f ≠ sideOf rings e ∧ LeftOf (sideOf rings f) (sideOf rings e)) ||
          decide (Twin (sideOf rings f) (sideOf rings e)))) =
          wnS t (leftSides rings (sideOf rings e) y ++ sideOf rings e :: twins rings (sideOf rings e)) := by
        intro t
        rw [wn_sides A.linked t _ (fun e he => (b.good e (List.mem_filter.1 he).1).ok)]
        have p1 := (perm_above A b.good b.diff b.complete).filter (fun s => decide (s ≠ sideOf rings e ∧ LeftOf s (sideOf rings e)) || decide (Twin s (sideOf rings e)))
        rw [List.filter_filter, List.filter_map] at p1
        show wnS t ((ael.filter ((fun s : Side K => decide (s ≠ sideOf rings e ∧ LeftOf s (sideOf rings e)) || decide (Twin s (sideOf rings e))) ∘ sideOf rings)).map (sideOf rings)) = _
        rw [wnS_perm t p1]
        refine wnS_perm t ?_
        rw [List.perm_ext_iff_of_nodup ((sides_nodup rings).filter _)]
        · intro s
          simp only [leftSides, twins, List.mem_filter, List.mem_append, List.mem_cons, Bool.and_eq_true, Bool.or_eq_true, decide_eq_true_eq]
          constructor
          · rintro ⟨h1, h2, h3⟩
            rcases h2 with h2 | h2
            · exact Or.inl ⟨h1, h3, h2⟩
            · by_cases hse : s = sideOf rings e
              · exact Or.inr (Or.inl hse)
              · exact Or.inr (Or.inr ⟨h1, hse, h2⟩)
          · rintro (⟨h1, h3, h2⟩ | h1 | ⟨h1, h2, h3⟩)
            · exact ⟨h1, Or.inl h2, h3⟩
            · rw [h1]; exact ⟨ge.mem A, Or.inr (Twin.refl _), ge.above⟩
            · exact ⟨h1, Or.inr h3, h3.above.2 ge.above⟩
        · rw [List.nodup_append]
          refine ⟨(sides_nodup rings).filter _, List.nodup_cons.2 ⟨?_, (sides_nodup rings).filter _⟩, ?_⟩
          · simp [twins]
          · rintro a ha _ hb rfl
            simp only [leftSides, twins, List.mem_filter, List.mem_cons, decide_eq_true_eq] at ha hb
            obtain ⟨h1, h2, h3, h4⟩ := ha
            rcases hb with hb | ⟨_, _, hb⟩
            · exact h3 hb
            · exact A.not_twin h1 (ge.mem A) h3 h2 ge.above h4 hb
      unfold inResult inResultS
      simp only [hw]
    · refine (b.sorted.and b.diff).imp_of_mem ?_
      rintro f g hf hg ⟨h1, h3⟩ h2
      simp only [Bool.or_eq_true, decide_eq_true_eq] at h2 ⊢
      by_cases htw : Twin (sideOf rings f) (sideOf rings e)
      · exact Or.inr htw
      left
      have hne : sideOf rings f ≠ sideOf rings e := by rintro hc; rw [hc] at htw; exact htw (Twin.refl _)
      refine ⟨hne, ?_⟩
      rcases h2 with h2 | h2
      · rcases h1 with h1 | h1
        · exact A.trans ((b.good f hf).mem A) ((b.good g hg).mem A) (ge.mem A) h3 h2.1 (b.good f hf).above (b.good g hg).above ge.above h1 h2.2
        · exact h2.2.twin_left h1
      · rcases h1 with h1 | h1
        · exact h1.twin_right h2
        · exact absurd (h1.trans h2) htw

omit [FTrans K] [LinearOrder K] [Absc K] [LawfulOrd K] in
theorem countP_or (p q : Edge K → Bool) (l : List (Edge K)) (h : ∀ f ∈ l, p f = true → q f = true → False) :
    l.countP (fun f => p f || q f) = l.countP p + l.countP q := by
  induction l with
  | nil => rfl
  | cons a l ih =>
    rw [List.countP_cons, List.countP_cons, List.countP_cons, ih (fun f hf => h f (List.mem_cons_of_mem _ hf))]
    have := h a (by simp)
    cases hp : p a <;> cases hq : q a <;> simp_all <;> omega

/-- The edges that remain are on the boundary of the result, and are directed accordingly. -/
theorem Beam.bound_mem (A : Arranged rings) {fr : FillRule} {y : K} {ael : List (Edge K)} (b : Beam rings fr y ael) {ct : ClipType} {σ : Int}
    (hσ : σ = 1 ∨ σ = -1) {B : List (Edge K)} (h : Bounding rings ct fr σ ael B) {e : Edge K} (he : e ∈ B) :
    Boundary rings ct fr (sideOf rings e) y ∧ (e.windDx = σ ↔ ¬ inResultS ct fr (leftSides rings (sideOf rings e) y)) := by
  obtain ⟨p, q, hp, hq, hpq, hc, h1, h2⟩ := b.inLeft A ct (h.mem he).1
  have hsub : B.Sublist ael := h.sub.trans List.filter_sublist
  have e1 := h.odd p (fun f hf g hg ht => (hc f hf g hg ht).1)
  have e2 := h.odd (fun f => p f || q f) (fun f hf g hg ht => by rw [(hc f hf g hg ht).1, (hc f hf g hg ht).2])
  rw [countP_or p q B (fun f hf => hpq f (hsub.subset hf))] at e2
  obtain ⟨B1, B2, hB⟩ := List.append_of_mem he
  have hon := h.once
  have hso := b.sorted.sublist hsub
  have hdi := b.diff.sublist hsub
  rw [hB] at hon hso hdi
  obtain ⟨_, o2, o3⟩ := List.pairwise_append.1 hon
  obtain ⟨_, s2, s3⟩ := List.pairwise_append.1 hso
  obtain ⟨_, d2, d3⟩ := List.pairwise_append.1 hdi
  have ge := b.good e (h.mem he).1
  have hm1 : ∀ f ∈ B1, f ∈ ael := fun f hf => hsub.subset (by rw [hB]; simp [hf])
  have hm2 : ∀ f ∈ B2, f ∈ ael := fun f hf => hsub.subset (by rw [hB]; simp [hf])
  have c1 : B.countP p = B1.length := by
    rw [hB, List.countP_append, List.countP_cons, List.countP_eq_length.2, List.countP_eq_zero.2]
    · have : p e = false := by
        rw [← Bool.not_eq_true, hp]; exact fun hh => hh.1 rfl
      rw [this]; simp
    · intro f hf hh
      have hh := (hp f).1 hh
      exact A.asymmW ((b.good f (hm2 f hf)).mem A) (ge.mem A) hh.1 (b.good f (hm2 f hf)).above ge.above hh.2 (List.rel_of_pairwise_cons s2 hf)
    · intro f hf
      rw [hp]
      refine ⟨d3 f hf e (by simp), ?_⟩
      rcases s3 f hf e (by simp) with hh | hh
      · exact hh
      · exact absurd hh (o3 f hf e (by simp))
  have c2 : B.countP q = 1 := by
    rw [hB, List.countP_append, List.countP_cons, List.countP_eq_zero.2, List.countP_eq_zero.2]
    · rw [(hq e).2 (Twin.refl _)]; simp
    · intro f hf hh
      exact List.rel_of_pairwise_cons o2 hf ((hq f).1 hh).symm
    · intro f hf hh
      exact o3 f hf e (by simp) ((hq f).1 hh)
  rw [c1, c2] at e2
  rw [c1] at e1
  refine ⟨?_, ?_⟩
  · unfold Boundary
    rw [h1, h2, ← e1, ← e2, Nat.odd_add_one]
    tauto
  · rw [h1, ← e1]
    have ha := h.alt
    rw [hB] at ha
    have ha' : AltDir Edge.windDx σ (B1 ++ [e]) := by
      have : ∀ (l m : List (Edge K)) (τ : Int), AltDir Edge.windDx τ (l ++ m) → AltDir Edge.windDx τ l := by
        intro l m
        induction l with
        | nil => intro _ _; trivial
        | cons c l ih => intro τ hh; exact ⟨hh.1, ih _ hh.2⟩
      exact this (B1 ++ [e]) B2 σ (by simpa using ha)
    have hd := ((altDir_snoc _ _ _ _).1 ha').2
    by_cases hev : Even B1.length
    · rw [if_pos hev] at hd
      exact ⟨fun _ => Nat.not_odd_iff_even.2 hev, fun _ => hd⟩
    · rw [if_neg hev] at hd
      have hod := Nat.not_even_iff_odd.1 hev
      refine ⟨fun hh => ?_, fun hh => absurd hod hh⟩
      rw [hd] at hh
      rcases hσ with s | s <;> rw [s] at hh <;> simp at hh

/-- Every edge on the boundary of the result remains, or one that lies on it does. -/
theorem Beam.bound_all (A : Arranged rings) {fr : FillRule} {y : K} {ael : List (Edge K)} (b : Beam rings fr y ael) {ct : ClipType} {σ : Int}
    {B : List (Edge K)} (h : Bounding rings ct fr σ ael B) {e : Edge K} (he : e ∈ ael)
    (hB : Boundary rings ct fr (sideOf rings e) y) : ∃ f ∈ B, Twin (sideOf rings f) (sideOf rings e) := by
  obtain ⟨p, q, hp, hq, hpq, hc, h1, h2⟩ := b.inLeft A ct he
  have e3 := h.odd q (fun f hf g hg ht => (hc f hf g hg ht).2)
  unfold Boundary at hB
  rw [h1, h2, countP_or p q _ (fun f hf => hpq f (List.mem_filter.1 hf).1), Nat.odd_add, ← Nat.not_odd_iff_even] at hB
  have : Odd ((ael.filter (isContributing ct fr)).countP q) := by by_contra hn; tauto
  have hpos := (e3.2 this).pos
  obtain ⟨f, hf, hfq⟩ := List.countP_pos_iff.1 hpos
  exact ⟨f, hf, (hq f).1 hfq⟩

/-- An edge that no other lies on remains if it is used for output at all. -/
theorem Beam.bound_alone {fr : FillRule} {ael : List (Edge K)} {ct : ClipType} {σ : Int}
    {B : List (Edge K)} (h : Bounding rings ct fr σ ael B) (hnd : ael.Pairwise (DiffE rings)) {e : Edge K} (he : e ∈ ael) (hc : isContributing ct fr e = true)
    (hal : ∀ f ∈ ael, Twin (sideOf rings f) (sideOf rings e) → f = e) : e ∈ B := by
  classical
  have e3 := h.odd (fun f => decide (Twin (sideOf rings f) (sideOf rings e))) (fun f hf g hg ht => by
    rw [decide_eq_decide]; exact ⟨fun h => ht.symm.trans h, fun h => ht.trans h⟩)
  have h1 : (ael.filter (isContributing ct fr)).countP (fun f => decide (Twin (sideOf rings f) (sideOf rings e))) = 1 := by
    have hnd' : (ael.filter (isContributing ct fr)).Nodup :=
      (hnd.imp (fun {a b} (h : DiffE rings a b) => fun hc => h (by rw [hc]) : ∀ {a b : Edge K}, DiffE rings a b → a ≠ b)).filter _
    have h2 : (ael.filter (isContributing ct fr)).countP (fun f => decide (Twin (sideOf rings f) (sideOf rings e))) =
        (ael.filter (isContributing ct fr)).countP (fun f => decide (f = e)) := by
      refine List.countP_congr (fun f hf => ?_)
      simp only [decide_eq_true_eq]
      exact ⟨hal f (List.mem_filter.1 hf).1, fun hh => by rw [hh]; exact Twin.refl _⟩
    rw [h2]
    have h3 := List.count_eq_one_of_mem hnd' (List.mem_filter.2 ⟨he, hc⟩)
    rw [List.count] at h3
    rw [← h3]
    refine List.countP_congr (fun f _ => ?_)
    simp
  rw [h1] at e3
  have hpos := (e3.2 odd_one).pos
  obtain ⟨f, hf, hfq⟩ := List.countP_pos_iff.1 hpos
  rw [← hal f (h.mem hf).1 (of_decide_eq_true hfq)]
  exact hf

end River
