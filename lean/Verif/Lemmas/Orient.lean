import Verif.Lemmas.PolygonGeneral

/-! # The winding numbers on the two sides of a side are winding numbers of points -/

namespace River
variable {K : Type}

attribute [local instance 10000] FTrans.toFNum

variable [Field K] [LinearOrder K] [IsStrictOrderedRing K] [FTrans K] [LawfulOrd K]

omit [FTrans K] [LawfulOrd K] in
/-- A value just above `y`. -/
theorem just_above (H : List K) (y : K) : ∃ y', y < y' ∧ ∀ h ∈ H, y < h → y' < h := by
  induction H with
  | nil => exact ⟨y + 1, lt_add_one y, by simp⟩
  | cons a H ih =>
    obtain ⟨z, z1, z2⟩ := ih
    by_cases ha : y < a
    · obtain ⟨w, w1, w2⟩ := exists_between (lt_min z1 ha)
      rw [lt_min_iff] at w2
      refine ⟨w, w1, fun h hh hy => ?_⟩
      rcases List.mem_cons.1 hh with rfl | hh
      · exact w2.2
      · exact w2.1.trans (z2 h hh hy)
    · refine ⟨z, z1, fun h hh hy => ?_⟩
      rcases List.mem_cons.1 hh with rfl | hh
      · exact absurd hy ha
      · exact z2 h hh hy

/-- The sides to the left of a side, without and with it and those that coincide with it, are those to the left of two points. -/
theorem Arranged.points {rings : List (Ring K)} (A : Arranged rings) {s : Side K} (hs : s ∈ sides rings) {y : K} (hy : s.Above y) :
    ∃ y' X X', (leftSides rings s y).Perm ((sides rings).filter (fun u => decide (u.Above y' ∧ u.x y' < X))) ∧
      (leftSides rings s y ++ s :: twins rings s).Perm ((sides rings).filter (fun u => decide (u.Above y' ∧ u.x y' < X'))) := by
  obtain ⟨y', y1, y2⟩ := just_above ((sides rings).map (fun u => u.bot.y) ++ (sides rings).map (fun u => u.top.y)) y
  have hbot : ∀ u ∈ sides rings, y < u.bot.y → y' < u.bot.y :=
    fun u hu h => y2 _ (List.mem_append_left _ (List.mem_map.2 ⟨u, hu, rfl⟩)) h
  have htop : ∀ u ∈ sides rings, y < u.top.y → y' < u.top.y :=
    fun u hu h => y2 _ (List.mem_append_right _ (List.mem_map.2 ⟨u, hu, rfl⟩)) h
  have hab : ∀ u ∈ sides rings, u.Above y' ↔ u.Above y := by
    intro u hu
    constructor
    · rintro ⟨h1, h2⟩
      refine ⟨?_, y1.trans h2⟩
      by_contra hc
      exact absurd (hbot u hu (not_le.1 hc)) (not_lt.2 h1)
    · rintro ⟨h1, h2⟩
      exact ⟨h1.trans y1.le, htop u hu h2⟩
  have strict : ∀ u ∈ sides rings, ∀ v, u.Above y → v.Above y → v ∈ sides rings → LeftOf u v → u.x y' < v.x y' := by
    intro u hu v h1 h2 hv hl
    have t1 := htop u hu h1.2
    have t2 := htop v hv h2.2
    obtain ⟨a, b⟩ := hl y' (h1.1.trans y1.le) (h2.1.trans y1.le) t1.le t2.le
    refine lt_of_le_of_ne a (fun e => ?_)
    rcases b e with ⟨_, e⟩ | ⟨_, e⟩
    · exact absurd (h1.1.trans_lt y1) (by rw [e]; exact lt_irrefl _)
    · exact t1.ne e
  have tri : ∀ u ∈ sides rings, u.Above y → u = s ∨ (u ≠ s ∧ LeftOf u s ∧ u.x y' < s.x y') ∨ (u ≠ s ∧ ¬ LeftOf u s ∧ ¬ Twin u s ∧ s.x y' < u.x y') ∨
      (u ≠ s ∧ ¬ LeftOf u s ∧ Twin u s ∧ u.x y' = s.x y') := by
    intro u hu ha
    by_cases hus : u = s
    · exact Or.inl hus
    · right
      have tw : Twin u s → u.x y' = s.x y' := fun h => by
        have hb := h.1.1
        have ht := htop u hu ha.2
        exact h.2 y' (ha.1.trans y1.le) ht.le
      rcases A.apart u hu s hs ha.steep hy.steep hus (ha.1.trans_lt hy.2) (hy.1.trans_lt ha.2) with h | h | h
      · exact Or.inl ⟨hus, h, strict u hu s ha hy hs h⟩
      · right; left
        have h3 := strict s hs u hy ha hu h
        exact ⟨hus, fun h' => absurd (strict u hu s ha hy hs h') (lt_asymm h3), fun h' => h3.ne (tw h').symm, h3⟩
      · right; right
        exact ⟨hus, fun h' => (strict u hu s ha hy hs h').ne (tw h), h, tw h⟩
  have habt : ∀ u, Twin u s → u.Above y := fun u h => by
    unfold Side.Above
    rw [h.1.1, h.1.2.1]; exact hy
  obtain ⟨X', x1, x2⟩ := just_above ((sides rings).map (fun u => u.x y')) (s.x y')
  have nd := sides_nodup rings
  classical
  refine ⟨y', s.x y', X', List.Perm.of_eq ?_, ?_⟩
  · unfold leftSides
    refine List.filter_congr (fun u hu => ?_)
    rw [decide_eq_decide, hab u hu]
    constructor
    · rintro ⟨h1, h2, h3⟩
      exact ⟨h1, strict u hu s h1 hy hs h3⟩
    · rintro ⟨h1, h2⟩
      rcases tri u hu h1 with rfl | ⟨a, b, _⟩ | ⟨_, _, _, c⟩ | ⟨_, _, _, c⟩
      · exact absurd h2 (lt_irrefl _)
      · exact ⟨h1, a, b⟩
      · exact absurd h2 (lt_asymm c)
      · exact absurd c h2.ne
  · rw [List.perm_ext_iff_of_nodup]
    · intro u
      rw [List.mem_append, List.mem_cons, List.mem_filter, leftSides, List.mem_filter, twins, List.mem_filter]
      simp only [decide_eq_true_eq]
      constructor
      · rintro (⟨hu, h1, h2, h3⟩ | rfl | ⟨hu, h1, h2⟩)
        · exact ⟨hu, (hab u hu).2 h1, (strict u hu s h1 hy hs h3).trans x1⟩
        · exact ⟨hs, (hab u hs).2 hy, x1⟩
        · refine ⟨hu, (hab u hu).2 (habt u h2), ?_⟩
          rw [h2.2 y' ((habt u h2).1.trans y1.le) (htop u hu (habt u h2).2).le]
          exact x1
      · rintro ⟨hu, h1, h2⟩
        rw [hab u hu] at h1
        rcases tri u hu h1 with e | ⟨a, b, _⟩ | ⟨_, _, _, c⟩ | ⟨a, _, b, _⟩
        · exact Or.inr (Or.inl e)
        · exact Or.inl ⟨hu, h1, a, b⟩
        · exact absurd h2 (lt_asymm (x2 _ (List.mem_map.2 ⟨u, hu, rfl⟩) c))
        · exact Or.inr (Or.inr ⟨hu, a, b⟩)
    · rw [List.nodup_append]
      refine ⟨nd.filter _, ?_, ?_⟩
      · rw [List.nodup_cons, twins, List.mem_filter]
        exact ⟨fun h => by simpa using h.2, nd.filter _⟩
      · intro a ha b hb e
        subst e
        rw [leftSides, List.mem_filter] at ha
        simp only [decide_eq_true_eq] at ha
        rcases List.mem_cons.1 hb with e | hb
        · exact ha.2.2.1 e
        · rw [twins, List.mem_filter] at hb
          simp only [decide_eq_true_eq] at hb
          rcases tri a ha.1 ha.2.1 with e | ⟨_, _, c⟩ | ⟨_, c, _⟩ | ⟨_, c, _⟩
          · exact ha.2.2.1 e
          · refine c.ne ?_
            exact hb.2.2.2 y' (ha.2.1.1.trans y1.le) (htop a ha.1 ha.2.1.2).le
          · exact c ha.2.2.2
          · exact c ha.2.2.2
    · exact nd.filter _

omit [Field K] [IsStrictOrderedRing K] [FTrans K] [LawfulOrd K] in
theorem wnS_snoc (t : PathType) (l : List (Side K)) (s : Side K) : wnS t (l ++ [s]) = wnS t l + if s.ptype = t then s.dx else 0 := by
  unfold wnS
  rw [List.filter_append, List.map_append, List.sum_append]
  congr 1
  by_cases h : s.ptype = t <;> simp [h]

omit [Field K] [IsStrictOrderedRing K] [FTrans K] [LawfulOrd K] in
/-- One more side, and a condition on the winding numbers before and after it. -/
theorem directed_step {ct : ClipType} {fr : FillRule} {σ : Int} (hσ : σ = 1 ∨ σ = -1) (s : Side K) (l : List (Side K)) (V : Int → Int → Prop)
    (hV : V (wnS .subject l) (wnS .clip l)) (hV' : V (wnS .subject (l ++ [s])) (wnS .clip (l ++ [s])))
    (hO : ∀ a b a' b' : Int, V a b → V a' b' → (a' = a + 1 ∧ b' = b) ∨ (a' = a ∧ b' = b + 1) →
      (σ = 1 → ct.op (fr.inside a) (fr.inside b) → ct.op (fr.inside a') (fr.inside b')) ∧
        (σ = -1 → ct.op (fr.inside a') (fr.inside b') → ct.op (fr.inside a) (fr.inside b)))
    (hb : ¬ (inResultS ct fr l ↔ inResultS ct fr (l ++ [s]))) : s.dx = σ ↔ ¬ inResultS ct fr l := by
  have w1 := wnS_snoc .subject l s
  have w2 := wnS_snoc .clip l s
  unfold inResultS at hb ⊢
  have hdx : s.dx = 1 ∨ s.dx = -1 := by unfold Side.dx; split <;> simp
  generalize wnS .subject (l ++ [s]) = a' at *
  generalize wnS .clip (l ++ [s]) = b' at *
  generalize wnS .subject l = a at *
  generalize wnS .clip l = b at *
  have up : s.dx = 1 → (a' = a + 1 ∧ b' = b) ∨ (a' = a ∧ b' = b + 1) := by
    intro hd
    rw [hd] at w1 w2
    cases hp : s.ptype
    · left; rw [hp] at w1 w2
      simp only [if_true, reduceCtorEq, if_false] at w1 w2
      constructor <;> omega
    · right; rw [hp] at w1 w2
      simp only [if_true, reduceCtorEq, if_false] at w1 w2
      constructor <;> omega
  have dn : s.dx = -1 → (a = a' + 1 ∧ b = b') ∨ (a = a' ∧ b = b' + 1) := by
    intro hd
    rw [hd] at w1 w2
    cases hp : s.ptype
    · left; rw [hp] at w1 w2
      simp only [if_true, reduceCtorEq, if_false] at w1 w2
      constructor <;> omega
    · right; rw [hp] at w1 w2
      simp only [if_true, reduceCtorEq, if_false] at w1 w2
      constructor <;> omega
  rcases hdx with hd | hd
  · have o := hO a b a' b' hV hV' (up hd)
    rcases hσ with rfl | rfl
    · exact ⟨fun _ hc => hb ⟨o.1 rfl, fun _ => hc⟩, fun _ => hd⟩
    · refine ⟨fun e => by rw [hd] at e; norm_num at e, fun hn => ?_⟩
      exact absurd ⟨fun h => absurd h hn, o.2 rfl⟩ hb
  · have o := hO a' b' a b hV' hV (dn hd)
    rcases hσ with rfl | rfl
    · refine ⟨fun e => by rw [hd] at e; norm_num at e, fun hn => ?_⟩
      exact absurd ⟨fun h => absurd h hn, o.1 rfl⟩ hb
    · exact ⟨fun _ hc => hb ⟨o.2 rfl, fun _ => hc⟩, fun _ => hd⟩

omit [Field K] [IsStrictOrderedRing K] [LawfulOrd K] in
theorem mem_twins {rings : List (Ring K)} {s t : Side K} : t ∈ twins rings s ↔ t ∈ sides rings ∧ t ≠ s ∧ Twin t s := by
  classical
  unfold twins
  rw [List.mem_filter]
  exact ⟨fun h => ⟨h.1, of_decide_eq_true h.2⟩, fun h => ⟨h.1, decide_eq_true h.2⟩⟩

omit [Field K] [IsStrictOrderedRing K] [LawfulOrd K] in
theorem Twin.steep {s t : Side K} (h : Twin t s) (hs : ¬ s.Flat) : ¬ t.Flat := by
  intro hf
  have := Side.ht hs
  rw [← h.1.1, ← h.1.2.1] at this
  have e : t.bot.y = t.top.y := by unfold Side.bot Side.top; split <;> simp [show t.frm.y = t.seg.target.y from hf]
  exact this.ne e

/-- Orientation can be read off the winding numbers of the points, if no two sides coincide. -/
theorem directed_of_points {rings : List (Ring K)} (A : Arranged rings)
    (hT : ∀ s ∈ sides rings, ∀ t ∈ sides rings, ¬ s.Flat → ¬ t.Flat → s ≠ t → ¬ Twin s t) {ct : ClipType} {fr : FillRule} {σ : Int} (hσ : σ = 1 ∨ σ = -1)
    (W : PathType → K → K → Int) (hW : ∀ t X y, wnS t ((sides rings).filter (fun s => decide (s.Above y ∧ s.x y < X))) = W t X y)
    (hO : ∀ X y X' y', (W .subject X' y' = W .subject X y + 1 ∧ W .clip X' y' = W .clip X y) ∨
        (W .subject X' y' = W .subject X y ∧ W .clip X' y' = W .clip X y + 1) →
      (σ = 1 → ct.op (fr.inside (W .subject X y)) (fr.inside (W .clip X y)) → ct.op (fr.inside (W .subject X' y')) (fr.inside (W .clip X' y'))) ∧
      (σ = -1 → ct.op (fr.inside (W .subject X' y')) (fr.inside (W .clip X' y')) → ct.op (fr.inside (W .subject X y)) (fr.inside (W .clip X y)))) :
    Directed rings ct fr σ := by
  intro s hs y hy C D hCD
  have htw : twins rings s = [] := by
    refine List.eq_nil_iff_forall_not_mem.2 (fun t ht => ?_)
    obtain ⟨h1, h2, h3⟩ := mem_twins.1 ht
    exact hT t h1 s hs (h3.steep hy.steep) hy.steep h2 h3
  obtain ⟨y', X, X', h1, h2⟩ := A.points hs hy
  rw [htw] at hCD h2
  obtain ⟨rfl, rfl⟩ : C = [] ∧ D = [] := by
    have := hCD.eq_nil
    simpa using this
  rw [List.append_nil]
  have e1 : ∀ t, wnS t (leftSides rings s y) = W t X y' := fun t => by rw [wnS_perm t h1, hW]
  have e2 : ∀ t, wnS t (leftSides rings s y ++ [s]) = W t X' y' := fun t => by rw [wnS_perm t h2, hW]
  refine directed_step hσ s _ (fun a b => ∃ X y, a = W .subject X y ∧ b = W .clip X y) ⟨X, y', e1 _, e1 _⟩ ⟨X', y', e2 _, e2 _⟩ ?_
  rintro a b a' b' ⟨X, y, rfl, rfl⟩ ⟨X', y', rfl, rfl⟩
  exact hO X y X' y'

/-! ## coinciding sides of different contours -/

/-- The sides of contour number `k`, and their winding number. -/
def wnR (k : Nat) (l : List (Side K)) : Int := ((l.filter (fun s => decide (s.ring = k))).map Side.dx).sum

omit [Field K] [IsStrictOrderedRing K] [FTrans K] [LawfulOrd K] in
theorem wnR_perm (k : Nat) {a b : List (Side K)} (h : a.Perm b) : wnR k a = wnR k b := ((h.filter _).map _).sum_eq

omit [Field K] [IsStrictOrderedRing K] [FTrans K] [LawfulOrd K] in
/-- Signs of the contours' winding numbers are signs of their sum. -/
theorem sign_sum {rings : List (Ring K)} {ε : Int} {t : PathType} {l : List (Side K)} (hl : ∀ s ∈ l, s ∈ sides rings)
    (h : ∀ k r, rings[k]? = some r → r.ptype = t → 0 ≤ ε * wnR k l) : 0 ≤ ε * wnS t l := by
  have key : ∀ n, 0 ≤ ε * ((l.filter (fun s => decide (s.ptype = t ∧ s.ring < n))).map Side.dx).sum := by
    intro n
    induction n with
    | zero => simp
    | succ n ih =>
      have split : ∀ l : List (Side K), ((l.filter (fun s => decide (s.ptype = t ∧ s.ring < n + 1))).map Side.dx).sum =
          ((l.filter (fun s => decide (s.ptype = t ∧ s.ring < n))).map Side.dx).sum +
            ((l.filter (fun s => decide (s.ptype = t ∧ s.ring = n))).map Side.dx).sum := by
        intro l
        induction l with
        | nil => rfl
        | cons s l ih =>
          have hc : ∀ (p : Side K → Prop) [DecidablePred p], (((s :: l).filter (fun s => decide (p s))).map Side.dx).sum =
              (if p s then s.dx else 0) + ((l.filter (fun s => decide (p s))).map Side.dx).sum := by
            intro p _
            rw [List.filter_cons]
            by_cases h : p s <;> simp [h]
          rw [hc, hc, hc, ih]
          by_cases h1 : s.ptype = t
          · rcases lt_trichotomy s.ring n with h2 | h2 | h2
            · rw [if_pos ⟨h1, by omega⟩, if_pos ⟨h1, h2⟩, if_neg (fun h => h2.ne h.2)]; omega
            · rw [if_pos ⟨h1, by omega⟩, if_neg (fun h => h.2.ne h2), if_pos ⟨h1, h2⟩]; omega
            · rw [if_neg (fun h => absurd h.2 (by omega)), if_neg (fun h => absurd h.2 (by omega)), if_neg (fun h => h2.ne' h.2)]; omega
          · rw [if_neg (fun h => h1 h.1), if_neg (fun h => h1 h.1), if_neg (fun h => h1 h.1)]; omega
      rw [split, mul_add]
      refine add_nonneg ih ?_
      by_cases hn : ∃ s ∈ l, s.ptype = t ∧ s.ring = n
      · obtain ⟨s, hs, h1, h2⟩ := hn
        obtain ⟨r, w, g1, g2, g3, g4, g5⟩ := (mem_sides rings s).1 (hl s hs)
        rw [h2] at g1
        have := h n r g1 (by rw [← h1]; exact g5.symm)
        unfold wnR at this
        rw [show l.filter (fun s => decide (s.ptype = t ∧ s.ring = n)) = l.filter (fun s => decide (s.ring = n)) from ?_]
        · exact this
        · refine List.filter_congr (fun u hu => ?_)
          rw [decide_eq_decide]
          refine ⟨fun h => h.2, fun h' => ⟨?_, h'⟩⟩
          obtain ⟨r', w', f1, f2, f3, f4, f5⟩ := (mem_sides rings u).1 (hl u hu)
          rw [h', g1] at f1
          cases Option.some.inj f1
          rw [f5, ← h1, g5]
      · rw [show l.filter (fun s => decide (s.ptype = t ∧ s.ring = n)) = [] from ?_]
        · simp
        · rw [List.filter_eq_nil_iff]
          intro s hs hc
          exact hn ⟨s, hs, by simpa using hc⟩
  have e : l.filter (fun s => decide (s.ptype = t ∧ s.ring < rings.length)) = l.filter (fun s => decide (s.ptype = t)) := by
    refine List.filter_congr (fun u hu => ?_)
    rw [decide_eq_decide]
    refine ⟨fun h => h.1, fun h' => ⟨h', ?_⟩⟩
    obtain ⟨r', w', f1, _⟩ := (mem_sides rings u).1 (hl u hu)
    exact (List.getElem?_eq_some_iff.1 f1).1
  have := key rings.length
  rw [e] at this
  exact this

/-- Between two groups of coinciding sides, a contour without coinciding sides of its own has one of the winding numbers it has
on the two sides of the group. -/
theorem Arranged.groupBetween {rings : List (Ring K)} (A : Arranged rings) {s : Side K} (hs : s ∈ sides rings) {y : K} (hy : s.Above y) :
    ∃ y' X X', ∀ k, (∀ s ∈ sides rings, ∀ t ∈ sides rings, s.ring = k → t.ring = k → ¬ s.Flat → ¬ t.Flat → s ≠ t → ¬ Twin s t) →
      ∀ C D, (C ++ D).Perm (s :: twins rings s) →
        wnR k (leftSides rings s y ++ C) = wnR k ((sides rings).filter (fun u => decide (u.Above y' ∧ u.x y' < X))) ∨
        wnR k (leftSides rings s y ++ C) = wnR k ((sides rings).filter (fun u => decide (u.Above y' ∧ u.x y' < X'))) := by
  obtain ⟨y', X, X', h1, h2⟩ := A.points hs hy
  refine ⟨y', X, X', fun k hk C D hCD => ?_⟩
  rw [← wnR_perm k h1, ← wnR_perm k h2]
  have hall : ∀ u ∈ C ++ D, u ∈ sides rings ∧ (u = s ∨ Twin u s) := by
    intro u hu
    rcases List.mem_cons.1 (hCD.mem_iff.1 hu) with rfl | h
    · exact ⟨hs, Or.inl rfl⟩
    · exact ⟨(mem_twins.1 h).1, Or.inr (mem_twins.1 h).2.2⟩
  have hnd : (C ++ D).Nodup := by
    rw [hCD.nodup_iff, List.nodup_cons]
    refine ⟨fun h => (mem_twins.1 h).2.1 rfl, ?_⟩
    classical
    unfold twins
    exact (sides_nodup rings).filter _
  have tw : ∀ u ∈ C ++ D, ∀ v ∈ C ++ D, u.ring = k → v.ring = k → u = v := by
    intro u hu v hv ku kv
    by_contra hne
    obtain ⟨u1, u2⟩ := hall u hu
    obtain ⟨v1, v2⟩ := hall v hv
    have fu : ¬ u.Flat := by
      rcases u2 with rfl | h
      · exact hy.steep
      · exact h.steep hy.steep
    have fv : ¬ v.Flat := by
      rcases v2 with rfl | h
      · exact hy.steep
      · exact h.steep hy.steep
    refine hk u u1 v v1 ku kv fu fv hne ?_
    rcases u2 with rfl | h
    · rcases v2 with rfl | h'
      · exact absurd rfl hne
      · exact h'.symm
    · rcases v2 with rfl | h'
      · exact h
      · exact h.trans h'.symm
  have split : ∀ a b : List (Side K), wnR k (a ++ b) = wnR k a + wnR k b := by
    intro a b
    unfold wnR
    rw [List.filter_append, List.map_append, List.sum_append]
  have none : ∀ a : List (Side K), (∀ u ∈ a, u.ring ≠ k) → wnR k a = 0 := by
    intro a ha
    unfold wnR
    rw [List.filter_eq_nil_iff.2 (fun u hu => by simpa using ha u hu)]; rfl
  by_cases hC : ∃ u ∈ C, u.ring = k
  · right
    rw [split, split, ← wnR_perm k hCD, split]
    obtain ⟨u, hu, ku⟩ := hC
    rw [none D, add_zero]
    intro v hv kv
    have := tw u (List.mem_append_left _ hu) v (List.mem_append_right _ hv) ku kv
    subst this
    exact (List.nodup_append.1 hnd).2.2 u hu u hv rfl
  · left
    rw [split, none C, add_zero]
    intro u hu ku
    exact hC ⟨u, hu, ku⟩

/-- Orientation from the signs of the winding numbers of the contours, with sides that coincide. -/
theorem directed_of_signs {rings : List (Ring K)} (A : Arranged rings) {εs εc : Int} {ct : ClipType} {fr : FillRule} {σ : Int} (hσ : σ = 1 ∨ σ = -1)
    (hs : εs = 0 ∨ ∀ k r, rings[k]? = some r → r.ptype = .subject →
      (∀ s ∈ sides rings, ∀ t ∈ sides rings, s.ring = k → t.ring = k → ¬ s.Flat → ¬ t.Flat → s ≠ t → ¬ Twin s t) ∧
      ∀ X y, 0 ≤ εs * wnR k ((sides rings).filter (fun u => decide (u.Above y ∧ u.x y < X))))
    (hc : εc = 0 ∨ ∀ k r, rings[k]? = some r → r.ptype = .clip →
      (∀ s ∈ sides rings, ∀ t ∈ sides rings, s.ring = k → t.ring = k → ¬ s.Flat → ¬ t.Flat → s ≠ t → ¬ Twin s t) ∧
      ∀ X y, 0 ≤ εc * wnR k ((sides rings).filter (fun u => decide (u.Above y ∧ u.x y < X))))
    (hM : Monotone εs εc ct fr σ) : Directed rings ct fr σ := by
  intro s hs' y hy C D hCD
  obtain ⟨y', X, X', hb⟩ := A.groupBetween hs' hy
  have hsub : ∀ C D, (C ++ D).Perm (s :: twins rings s) → ∀ u ∈ leftSides rings s y ++ C, u ∈ sides rings := by
    intro C D hCD u hu
    rcases List.mem_append.1 hu with h | h
    · unfold leftSides at h; exact (List.mem_filter.1 h).1
    · rcases List.mem_cons.1 (hCD.mem_iff.1 (List.mem_append_left _ h)) with rfl | h
      · exact hs'
      · exact (mem_twins.1 h).1
  have sgn : ∀ (ε : Int) (t : PathType), (ε = 0 ∨ ∀ k r, rings[k]? = some r → r.ptype = t →
      (∀ s ∈ sides rings, ∀ t ∈ sides rings, s.ring = k → t.ring = k → ¬ s.Flat → ¬ t.Flat → s ≠ t → ¬ Twin s t) ∧
      ∀ X y, 0 ≤ ε * wnR k ((sides rings).filter (fun u => decide (u.Above y ∧ u.x y < X)))) →
      ∀ C D, (C ++ D).Perm (s :: twins rings s) → 0 ≤ ε * wnS t (leftSides rings s y ++ C) := by
    intro ε t hε C D hCD
    rcases hε with rfl | hε
    · simp
    · refine sign_sum (hsub C D hCD) (fun k r hr ht => ?_)
      obtain ⟨e1, e2⟩ := hε k r hr ht
      rcases hb k e1 C D hCD with h | h
      · rw [h]; exact e2 _ _
      · rw [h]; exact e2 _ _
  have p1 : (C ++ s :: D).Perm (s :: twins rings s) := List.perm_middle.trans (hCD.cons s)
  have p2 : ((C ++ [s]) ++ D).Perm (s :: twins rings s) := by rw [List.append_assoc]; exact p1
  refine directed_step hσ s _ (fun a b => 0 ≤ εs * a ∧ 0 ≤ εc * b) ⟨sgn _ _ hs _ _ p1, sgn _ _ hc _ _ p1⟩ ?_ ?_
  · rw [List.append_assoc]
    exact ⟨sgn _ _ hs _ _ p2, sgn _ _ hc _ _ p2⟩
  · rintro a b a' b' ⟨v1, v2⟩ ⟨v1', v2'⟩
    exact hM a b a' b' v1 v2 v1' v2'

end River
