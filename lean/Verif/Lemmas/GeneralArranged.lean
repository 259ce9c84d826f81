import Verif.Lemmas.FlatWalk
import Verif.Lemmas.Pieces

/-! # Breaking contours that meet in admitted ways gives arranged contours -/

namespace River
variable {K : Type}

attribute [local instance 10000] FTrans.toFNum

variable [Field K] [LinearOrder K] [IsStrictOrderedRing K] [FTrans K] [LawfulOrd K] [Exact K]

omit [FTrans K] [LawfulOrd K] [Exact K] in
theorem OnSeg.symm {p a b : Vec2 K} (h : OnSeg p a b) : OnSeg p b a := by
  obtain ⟨t, t0, t1, rfl⟩ := h
  refine ⟨1 - t, by linarith, by linarith, ?_⟩
  unfold lerp; ext <;> simp only <;> ring

omit [LawfulOrd K] in
/-- The point of a side at a height between its ends. -/
theorem Side.onSeg_x {s : Side K} (hs : s.Straight) (hl : s.frm.y ≠ s.seg.target.y) {y : K} (h1 : s.bot.y ≤ y) (h2 : y ≤ s.top.y) :
    OnSeg ⟨s.x y, y⟩ s.frm s.seg.target := by
  have hd : 0 < s.top.y - s.bot.y := sub_pos.2 (s.bot_lt_top hl)
  have key : OnSeg ⟨s.x y, y⟩ s.bot s.top := by
    refine ⟨(y - s.bot.y) / (s.top.y - s.bot.y), div_nonneg (sub_nonneg.2 h1) hd.le, (div_le_one hd).2 (by linarith), ?_⟩
    rw [Side.x_line hs hl]
    unfold lerp lineX
    ext
    · simp only; ring
    · simp only; field_simp; ring
  unfold Side.bot Side.top at key
  cases hu : s.up with
  | true => rw [hu] at key; exact key
  | false => rw [hu] at key; exact key.symm

/-- Two straight sides that meet at most in common ends lie side by side. -/
theorem leftEnds_of_ends {s t : Side K} (hs : s.Straight) (ht : t.Straight) (ls : s.frm.y ≠ s.seg.target.y) (lt : t.frm.y ≠ t.seg.target.y)
    (h : ∀ p, OnSeg p s.frm s.seg.target → OnSeg p t.frm t.seg.target →
      (p = s.frm ∨ p = s.seg.target) ∧ (p = t.frm ∨ p = t.seg.target))
    (o1 : s.bot.y < t.top.y) (o2 : t.bot.y < s.top.y) : s.LeftEnds t ∨ t.LeftEnds s := by
  have bs := s.bot_lt_top ls
  have bt := t.bot_lt_top lt
  have ends : ∀ (s : Side K) (p : Vec2 K), p = s.frm ∨ p = s.seg.target → p = s.bot ∨ p = s.top := by
    intro s p h
    unfold Side.bot Side.top
    split <;> tauto
  obtain ⟨lo, hlo⟩ : ∃ lo, lo = max s.bot.y t.bot.y := ⟨_, rfl⟩
  obtain ⟨hi, hhi⟩ : ∃ hi, hi = min s.top.y t.top.y := ⟨_, rfl⟩
  have lohi : lo < hi := by rw [hlo, hhi]; exact max_lt (lt_min bs o1) (lt_min o2 bt)
  have l1 : s.bot.y ≤ lo := hlo ▸ le_max_left _ _
  have l2 : t.bot.y ≤ lo := hlo ▸ le_max_right _ _
  have u1 : hi ≤ s.top.y := hhi ▸ min_le_left _ _
  have u2 : hi ≤ t.top.y := hhi ▸ min_le_right _ _
  have meet : ∀ y, lo ≤ y → y ≤ hi → s.x y = t.x y → (y = s.bot.y ∧ s.bot = t.bot) ∨ (y = s.top.y ∧ s.top = t.top) := by
    intro y y1 y2 he
    have a := Side.onSeg_x hs ls (l1.trans y1) (y2.trans u1)
    have b := Side.onSeg_x ht lt (l2.trans y1) (y2.trans u2)
    rw [← he] at b
    obtain ⟨p, q⟩ := h _ a b
    rcases ends s _ p with p | p <;> rcases ends t _ q with q | q
    · exact Or.inl ⟨congrArg Vec2.y p, p.symm.trans q⟩
    · exfalso
      have e1 : y = s.bot.y := congrArg Vec2.y p
      have e2 : y = t.top.y := congrArg Vec2.y q
      rw [← e1, e2] at o1; exact lt_irrefl _ o1
    · exfalso
      have e1 : y = s.top.y := congrArg Vec2.y p
      have e2 : y = t.bot.y := congrArg Vec2.y q
      rw [← e1, e2] at o2; exact lt_irrefl _ o2
    · exact Or.inr ⟨congrArg Vec2.y p, p.symm.trans q⟩
  obtain ⟨a, b, hab⟩ : ∃ a b : K, ∀ z, t.x z - s.x z = a + z * b := by
    refine ⟨t.bot.x - t.bot.y * ((t.top.x - t.bot.x) / (t.top.y - t.bot.y)) - (s.bot.x - s.bot.y * ((s.top.x - s.bot.x) / (s.top.y - s.bot.y))),
      (t.top.x - t.bot.x) / (t.top.y - t.bot.y) - (s.top.x - s.bot.x) / (s.top.y - s.bot.y), fun z => ?_⟩
    rw [Side.x_line hs ls, Side.x_line ht lt, lineX, lineX]
    ring
  have inner : ∀ y, lo < y → y < hi → a + y * b ≠ 0 := by
    intro y y1 y2 e
    rw [← hab, sub_eq_zero] at e
    rcases meet y y1.le y2.le e.symm with ⟨e, _⟩ | ⟨e, _⟩
    · rw [e] at y1; exact absurd (l1.trans_lt y1) (lt_irrefl _)
    · rw [e] at y2; exact absurd (y2.trans_le u1) (lt_irrefl _)
  have elo : s.x lo = t.x lo → s.bot = t.bot := by
    intro e
    rcases meet lo (le_refl _) lohi.le e with ⟨_, h⟩ | ⟨h, _⟩
    · exact h
    · rw [h] at lohi; exact absurd (lohi.trans_le u1) (lt_irrefl _)
  have ehi : s.x hi = t.x hi → s.top = t.top := by
    intro e
    rcases meet hi lohi.le (le_refl _) e with ⟨h, _⟩ | ⟨_, h⟩
    · rw [h] at lohi; exact absurd (l1.trans_lt lohi) (lt_irrefl _)
    · exact h
  have nboth : s.x lo ≠ t.x lo ∨ s.x hi ≠ t.x hi := by
    by_contra hc
    push Not at hc
    obtain ⟨m, m1, m2⟩ := exists_between lohi
    have z1 : a + lo * b = 0 := by rw [← hab, hc.1, sub_self]
    have z2 : a + hi * b = 0 := by rw [← hab, hc.2, sub_self]
    have : (hi - lo) * b = 0 := by linear_combination z2 - z1
    have hb : b = 0 := (mul_eq_zero.1 this).resolve_left (sub_pos.2 lohi).ne'
    rw [hb, mul_zero, add_zero] at z1
    exact inner m m1 m2 (by rw [hb, z1]; simp)
  have cross : ∀ u v : K, u = a + lo * b → v = a + hi * b → ¬ (0 < u ∧ v < 0) ∧ ¬ (u < 0 ∧ 0 < v) := by
    intro u v hu hv
    have main : u - v ≠ 0 → 0 < u / (u - v) → u / (u - v) < 1 → False := by
      intro h0 h1 h2
      have d : 0 < hi - lo := sub_pos.2 lohi
      have p1 := mul_pos d h1
      have p2 := mul_lt_mul_of_pos_left h2 d
      refine inner (lo + (hi - lo) * (u / (u - v))) (by linarith) (by linarith) ?_
      have e : (hi - lo) * b = v - u := by rw [hu, hv]; ring
      have : a + (lo + (hi - lo) * (u / (u - v))) * b = u + (hi - lo) * b * (u / (u - v)) := by rw [hu]; ring
      rw [this, e]
      field_simp
      ring
    constructor
    · rintro ⟨h1, h2⟩
      have hd : 0 < u - v := by linarith
      exact main hd.ne' (div_pos h1 hd) ((div_lt_one hd).2 (by linarith))
    · rintro ⟨h1, h2⟩
      have hd : u - v < 0 := by linarith
      exact main hd.ne (div_pos_of_neg_of_neg h1 hd) ((div_lt_one_of_neg hd).2 (by linarith))
  obtain ⟨c1, c2⟩ := cross _ _ rfl rfl
  rw [← hab, ← hab] at c1 c2
  unfold Side.LeftEnds
  rw [max_comm t.bot.y, min_comm t.top.y, ← hlo, ← hhi]
  by_cases hle : s.x lo ≤ t.x lo ∧ s.x hi ≤ t.x hi
  · exact Or.inl ⟨hle.1, hle.2, elo, ehi, nboth⟩
  · right
    have hge : t.x lo ≤ s.x lo ∧ t.x hi ≤ s.x hi := by
      by_contra hc
      rw [not_and_or, not_le, not_le] at hle hc
      rcases hle with h1 | h1 <;> rcases hc with h2 | h2
      · exact lt_asymm h1 h2
      · exact c2 ⟨by linarith, by linarith⟩
      · exact c1 ⟨by linarith, by linarith⟩
      · exact lt_asymm h1 h2
    refine ⟨hge.1, hge.2, fun e => (elo e.symm).symm, fun e => (ehi e.symm).symm, ?_⟩
    rcases nboth with h | h
    · exact Or.inl (Ne.symm h)
    · exact Or.inr (Ne.symm h)

/-! ## sides and vertices -/

omit [Field K] [LinearOrder K] [IsStrictOrderedRing K] [FTrans K] [LawfulOrd K] [Exact K] in
theorem sides_geo (rings : List (Ring K)) :
    (sides rings).map (fun s => (s.frm, s.seg)) = (allNodes rings).map (fun v => (v.pt, v.seg)) := by
  have key : ∀ n : Nat, ((rings.zipIdx n).flatMap (fun r => r.1.nodes.zipIdx.map (fun v => (⟨r.2, v.2, v.1.pt, v.1.seg, r.1.ptype⟩ : Side K)))).map
      (fun s => (s.frm, s.seg)) = (allNodes rings).map (fun v => (v.pt, v.seg)) := by
    induction rings with
    | nil => intro n; rfl
    | cons r rs ih =>
      intro n
      rw [List.zipIdx_cons, List.flatMap_cons, List.map_append, ih, show allNodes (r :: rs) = r.nodes ++ allNodes rs from List.flatMap_cons, List.map_append]
      congr 1
      rw [List.map_map]
      have : (fun v : Vtx K × Nat => (v.1.pt, v.1.seg)) = (fun v : Vtx K => (v.pt, v.seg)) ∘ Prod.fst := rfl
      show (r.nodes.zipIdx.map (fun v : Vtx K × Nat => (v.1.pt, v.1.seg))) = _
      rw [this, ← List.map_map, List.zipIdx_map_fst]
  exact key 0

omit [Field K] [LinearOrder K] [IsStrictOrderedRing K] [FTrans K] [LawfulOrd K] [Exact K] in
theorem vtx_side {rings : List (Ring K)} {i : Nat} {v : Vtx K} (h : (allNodes rings)[i]? = some v) :
    ∃ s, (sides rings)[i]? = some s ∧ s.frm = v.pt ∧ s.seg = v.seg := by
  have e := congrArg (fun l => l[i]?) (sides_geo rings)
  simp only [List.getElem?_map, h, Option.map_some] at e
  obtain ⟨s, hs, e⟩ := Option.map_eq_some_iff.1 e
  exact ⟨s, hs, congrArg Prod.fst e, congrArg Prod.snd e⟩

omit [Field K] [LinearOrder K] [IsStrictOrderedRing K] [FTrans K] [LawfulOrd K] [Exact K] in
theorem side_vtx {rings : List (Ring K)} {s : Side K} (h : s ∈ sides rings) : ∃ v ∈ allNodes rings, s.frm = v.pt ∧ s.seg = v.seg := by
  obtain ⟨r, v, h1, h2, h3, h4, _⟩ := (mem_sides rings s).1 h
  exact ⟨v, List.mem_flatMap.2 ⟨r, List.mem_of_getElem? h1, List.mem_of_getElem? h2⟩, h3, h4⟩

omit [IsStrictOrderedRing K] [LawfulOrd K] [Exact K] in
theorem General.nodesOk {rings : List (Ring K)} (G : General rings) : NodesOk (allNodes rings) := by
  have hs : ∀ v ∈ allNodes rings, ∃ s ∈ sides rings, s.frm = v.pt ∧ s.seg = v.seg := by
    intro v hv
    obtain ⟨i, hi⟩ := List.getElem?_of_mem hv
    obtain ⟨s, h1, h2, h3⟩ := vtx_side hi
    exact ⟨s, List.mem_of_getElem? h1, h2, h3⟩
  refine ⟨?_, ?_, ?_, ?_, ?_⟩
  · intro v hv
    obtain ⟨s, h1, _, h3⟩ := hs v hv
    have := G.straight s h1
    unfold Side.Straight at this
    rw [h3] at this; exact this
  · intro v hv
    obtain ⟨s, h1, h2, h3⟩ := hs v hv
    rw [← h2, ← h3]; exact G.proper s h1
  · intro v hv
    have r1 : ∀ v ∈ allNodes rings, InDoubles v.pt := by
      intro v hv
      obtain ⟨s, h1, h2, _⟩ := hs v hv
      rw [← h2]; exact (G.range s h1).1
    refine ⟨r1 v hv, ?_⟩
    obtain ⟨r, hr, hv'⟩ := List.mem_flatMap.1 hv
    obtain ⟨i, hi⟩ := List.getElem?_of_mem hv'
    have hlt := (List.getElem?_eq_some_iff.1 hi).1
    have hn : (i + 1) % r.nodes.length < r.nodes.length := Nat.mod_lt _ (by omega)
    rw [G.linked r hr i v _ hi (List.getElem?_eq_getElem hn)]
    exact r1 _ (List.mem_flatMap.2 ⟨r, hr, List.getElem_mem hn⟩)
  · intro i j v w hij hv hw
    obtain ⟨s, s1, s2, s3⟩ := vtx_side hv
    obtain ⟨t, t1, t2, t3⟩ := vtx_side hw
    have hne : s ≠ t := by
      intro e
      subst e
      exact hij ((List.nodup_iff_getElem?_ne_getElem? (l := sides rings)).1 (sides_nodup rings) |> fun h => by
        by_contra hc
        obtain ⟨i1, _⟩ := List.getElem?_eq_some_iff.1 s1
        obtain ⟨i2, _⟩ := List.getElem?_eq_some_iff.1 t1
        rcases lt_or_gt_of_ne hc with hlt | hlt
        · exact h i j hlt i2 (s1.trans t1.symm)
        · exact h j i hlt i1 (t1.trans s1.symm))
    rw [← s2, ← s3, ← t2, ← t3]
    exact G.meet s (List.mem_of_getElem? s1) t (List.mem_of_getElem? t1) hne
  · intro v hv w hw hl hp p hpe hin
    obtain ⟨s, s1, s2, s3⟩ := hs v hv
    obtain ⟨t, t1, t2, t3⟩ := hs w hw
    rw [← t2, ← t3] at hl hp hin
    rw [← s2, ← s3] at hp hpe
    obtain ⟨u, u1, u2, u3⟩ := G.along s s1 t t1 hl hp p hpe hin
    obtain ⟨x, x1, x2, x3⟩ := side_vtx u1
    exact ⟨x, x1, by rw [← x2, ← x3, ← t2, ← t3]; exact u2, by rw [← x2, ← x3]; exact u3⟩

/-! ## contours in general position whose sides meet in common ends only are arranged -/

omit [FTrans K] [LawfulOrd K] [Exact K] in
theorem Side.Flat.onSeg {f : Side K} (h : f.Flat) {X : K} (hX : f.Covers X) : OnSeg ⟨X, f.frm.y⟩ f.frm f.seg.target := by
  have hy : f.frm.y = f.seg.target.y := h
  obtain ⟨h1, h2⟩ := hX
  have key : ∀ p q : Vec2 K, p.y = q.y → p.x ≤ X → X ≤ q.x → OnSeg ⟨X, p.y⟩ p q := by
    intro p q e a b
    rcases eq_or_lt_of_le (a.trans b) with e' | l
    · exact ⟨0, le_refl _, zero_le_one, Vec2.ext (by simp only [lerp, zero_mul, add_zero]; exact le_antisymm (e' ▸ b) a) (by simp [lerp])⟩
    · have hd : 0 < q.x - p.x := sub_pos.2 l
      refine ⟨(X - p.x) / (q.x - p.x), div_nonneg (sub_nonneg.2 a) hd.le, (div_le_one hd).2 (by linarith), Vec2.ext ?_ ?_⟩
      · simp only [lerp]; field_simp; ring
      · simp only [lerp]; rw [e]; ring
  rcases le_total f.frm.x f.seg.target.x with hle | hle
  · rw [min_eq_left hle] at h1; rw [max_eq_right hle] at h2
    exact key _ _ hy h1 h2
  · rw [min_eq_right hle] at h1; rw [max_eq_left hle] at h2
    rw [hy]
    exact (key _ _ hy.symm h1 h2).symm

omit [Field K] [IsStrictOrderedRing K] [FTrans K] [LawfulOrd K] [Exact K] in
theorem Side.end_cases (s : Side K) {p : Vec2 K} (h : p = s.frm ∨ p = s.seg.target) : p = s.bot ∨ p = s.top := by
  unfold Side.bot Side.top
  split <;> tauto

omit [Field K] [IsStrictOrderedRing K] [FTrans K] [LawfulOrd K] [Exact K] in
theorem Side.goesUp_iff (s : Side K) (p : Vec2 K) : GoesUp p s.frm s.seg.target ↔ p.y < s.top.y := by
  unfold GoesUp Side.top Side.up
  by_cases h : s.frm.y < s.seg.target.y
  · simp only [h, decide_true, if_true]
    exact ⟨fun h' => h'.elim (fun q => q.trans h) id, Or.inr⟩
  · simp only [h, decide_false, Bool.false_eq_true, if_false]
    exact ⟨fun h' => h'.elim id (fun q => q.trans_le (not_lt.1 h)), Or.inl⟩

omit [FTrans K] [LawfulOrd K] [Exact K] in
theorem Side.onSeg_bot (s : Side K) : OnSeg s.bot s.frm s.seg.target ∧ OnSeg s.top s.frm s.seg.target := by
  have h0 : OnSeg s.frm s.frm s.seg.target := ⟨0, le_refl _, zero_le_one, (lerp_zero _ _).symm⟩
  have h1 : OnSeg s.seg.target s.frm s.seg.target := ⟨1, zero_le_one, le_refl _, (lerp_one _ _).symm⟩
  unfold Side.bot Side.top
  split <;> exact ⟨by assumption, by assumption⟩

/-- Two sides have the same ends. -/
def SameEnds (s t : Side K) : Prop := (s.frm = t.frm ∧ s.seg.target = t.seg.target) ∨ (s.frm = t.seg.target ∧ s.seg.target = t.frm)

/-- Two sides have no points in common other than ends of both. -/
def SideEnds (s t : Side K) : Prop :=
  ∀ p, OnSeg p s.frm s.seg.target → OnSeg p t.frm t.seg.target → (p = s.frm ∨ p = s.seg.target) ∧ (p = t.frm ∨ p = t.seg.target)

/-- Two sides, unless both are horizontal, have the same ends or no points in common other than ends of both. -/
def EndsMeet (rings : List (Ring K)) : Prop :=
  ∀ s ∈ sides rings, ∀ t ∈ sides rings, s ≠ t → (s.Flat ∧ t.Flat) ∨ SameEnds s t ∨ SideEnds s t

omit [LawfulOrd K] in
/-- Straight sides with equal lower and equal upper ends coincide. -/
theorem twin_of_span {s t : Side K} (hs : s.Straight) (ht : t.Straight) (ls : ¬ s.Flat) (lt : ¬ t.Flat) (h1 : s.bot = t.bot) (h2 : s.top = t.top) :
    Twin s t := by
  refine ⟨⟨h1, h2, ?_⟩, fun y _ _ => ?_⟩
  · have e1 : s.seg = .line s.seg.target := hs
    have e2 : t.seg = .line t.seg.target := ht
    rw [e1, e2]; trivial
  · rw [Side.x_line hs ls, Side.x_line ht lt, h1, h2]

omit [Field K] [IsStrictOrderedRing K] [FTrans K] [LawfulOrd K] [Exact K] in
theorem SameEnds.span {s t : Side K} (h : SameEnds s t) (ls : ¬ s.Flat) : s.bot = t.bot ∧ s.top = t.top := by
  unfold Side.bot Side.top Side.up
  rcases h with ⟨h1, h2⟩ | ⟨h1, h2⟩
  · rw [h1, h2]; exact ⟨rfl, rfl⟩
  · have hne : t.seg.target.y ≠ t.frm.y := by
      intro e
      apply ls
      unfold Side.Flat
      rw [h1, h2]; exact e
    rw [h1, h2]
    rcases lt_or_gt_of_ne hne with h | h
    · simp [h, not_lt.2 h.le]
    · simp [h, not_lt.2 h.le]

omit [IsStrictOrderedRing K] [FTrans K] [LawfulOrd K] [Exact K] in
theorem atHeight_swap {p q : Vec2 K} (h : p.y ≠ q.y) (y : K) : atHeight p q y = atHeight q p y := by
  have h1 : p.y - q.y ≠ 0 := sub_ne_zero.2 h
  have h2 : q.y - p.y ≠ 0 := sub_ne_zero.2 h.symm
  unfold atHeight
  field_simp
  ring

omit [LawfulOrd K] in
theorem Side.x_atHeight {s : Side K} (hs : s.Straight) (ls : ¬ s.Flat) (y : K) : s.x y = atHeight s.frm s.seg.target y := by
  rw [Side.x_line hs ls]
  show atHeight s.bot s.top y = _
  unfold Side.bot Side.top
  cases s.up with
  | true => rfl
  | false => exact atHeight_swap (fun e => ls e.symm) y

omit [Field K] [IsStrictOrderedRing K] [FTrans K] [LawfulOrd K] [Exact K] in
theorem Side.min_max (s : Side K) : min s.frm.y s.seg.target.y = s.bot.y ∧ max s.frm.y s.seg.target.y = s.top.y := by
  unfold Side.bot Side.top Side.up
  by_cases h : s.frm.y < s.seg.target.y
  · simp [h, h.le]
  · simp [h, not_lt.1 h]

theorem General.arranged {rings : List (Ring K)} (G : General rings) (hE : EndsMeet rings) : Arranged rings := by
  refine ⟨G.linked, fun s hs => (G.range s hs).2, G.flags, ?_, ?_, ?_, ?_, G.turn, ?_, ?_, ?_, G.start, fun _ _ _ _ _ _ _ _ => rfl, fun _ _ _ _ _ _ _ _ => rfl, G.overlap⟩
  · intro s hs t ht ls lt hne h1 h2
    rcases hE s hs t ht hne with h | h | h
    · exact absurd h.1 ls
    · obtain ⟨e1, e2⟩ := h.span ls
      exact Or.inr (Or.inr (twin_of_span (G.straight s hs) (G.straight t ht) ls lt e1 e2))
    · rcases leftEnds_of_ends (G.straight s hs) (G.straight t ht) ls lt h h1 h2 with ⟨a, b, c, d, e⟩ | ⟨a, b, c, d, e⟩
      · exact Or.inl (leftOf_line (G.straight s hs) (G.straight t ht) ls lt a b c d e)
      · exact Or.inr (Or.inl (leftOf_line (G.straight t ht) (G.straight s hs) lt ls a b c d e))
  · intro s hs t ht ls lt _ hb
    have h1 := Side.ht ls
    have h2 := Side.ht lt
    rw [← hb] at h2
    rw [fmin_eq_min, Exact.add_eq, Exact.div_eq, Exact.lit_eq]
    obtain ⟨m, hm⟩ : ∃ m, m = min s.top.y t.top.y := ⟨_, rfl⟩
    have h3 : s.bot.y < m := hm ▸ lt_min h1 h2
    rw [← hm]
    constructor
    · rw [lt_div_iff₀ (by norm_num)]; push_cast; linarith
    · rw [div_lt_iff₀ (by norm_num)]; push_cast; linarith
  · intro s hs t ht ls lt _ ⟨h1, h2, _⟩
    exact twin_of_span (G.straight s hs) (G.straight t ht) ls lt h1 h2
  · intro a ha b hb hf hau hbu u hu hua hub hab l1 l2
    obtain ⟨sa, sb, fl, hw⟩ := (follows_iff ha hb).1 hf
    have eb : b.bot = b.frm := by rw [Side.bot, if_pos hbu]
    have ea : a.bot = a.seg.target := by rw [Side.bot, hau]; rfl
    have hy : b.frm.y = a.seg.target.y := (hw.height G.linked ha).1
    have hay : a.bot.y = b.bot.y := by rw [ea, eb, hy]
    have su : ¬ u.Flat := hab.steep
    have tb := Side.ht sb
    have ta := Side.ht sa
    rw [hay] at ta
    refine G.minima a ha b hb hf hau hbu u hu hua hub ⟨?_, ?_, min b.top.y (min u.top.y a.top.y), ?_, ?_⟩
    · rw [u.min_max.1, ← eb]; exact hab.1
    · rw [u.min_max.2, ← eb]; exact hab.2
    · rw [← eb]; exact lt_min tb (lt_min hab.2 ta)
    · intro y' y1 y2
      rw [← eb] at y1
      rw [lt_min_iff, lt_min_iff] at y2
      simp only
      rw [← Side.x_atHeight (G.straight b hb) sb, ← Side.x_atHeight (G.straight u hu) su, ← Side.x_atHeight (G.straight a ha) sa]
      constructor
      · obtain ⟨x1, x2⟩ := l1 y' y1.le (hab.1.trans y1.le) y2.1.le y2.2.1.le
        refine lt_of_le_of_ne x1 (fun e => ?_)
        rcases x2 e with ⟨_, e⟩ | ⟨_, e⟩
        · exact y1.ne' e
        · exact y2.1.ne e
      · rcases l2 with l2 | l2
        · exact (l2 y' (hab.1.trans y1.le) (hay.le.trans y1.le) y2.2.1.le y2.2.2.le).1
        · exact (l2.2 y' (hab.1.trans y1.le) y2.2.1.le).le
  · intro f hf hfl e
    exact G.proper f hf (Vec2.ext e hfl)
  · intro f hf hfl s hs hst h1 h2 hc
    rcases hE f hf s hs (fun e => hst (e ▸ hfl)) with h | h | h
    · exact absurd h.2 hst
    · refine absurd ?_ hst
      have hfl : f.frm.y = f.seg.target.y := hfl
      unfold Side.Flat
      rcases h with ⟨e1, e2⟩ | ⟨e1, e2⟩
      · rw [← e1, ← e2]; exact hfl
      · rw [← e1, ← e2]; exact hfl.symm
    · obtain ⟨p1, p2⟩ := h _ (hfl.onSeg hc) (Side.onSeg_x (G.straight s hs) hst h1 h2)
      rcases s.end_cases p2 with e | e <;> rcases p1 with e' | e' <;> rw [← e, e'] <;> simp
  · intro f hf hfl hth p hp s hs t ht ls lt e1 e2 hne
    have on : OnSeg p f.frm f.seg.target := by
      rcases hp with rfl | rfl
      · exact ⟨0, le_refl _, zero_le_one, (lerp_zero _ _).symm⟩
      · exact ⟨1, zero_le_one, le_refl _, (lerp_one _ _).symm⟩
    have hp := G.corner f hf hfl hth p on s hs t ht hne (e1 ▸ s.onSeg_bot.1) (e2 ▸ t.onSeg_bot.1)
      (by rw [s.goesUp_iff, ← e1]; exact Side.ht ls) (by rw [t.goesUp_iff, ← e2]; exact Side.ht lt)
    have eb : s.bot = t.bot := e1.trans e2.symm
    -- the two sides run along one line from a common lower end
    have hx : ∀ y, s.x y = t.x y := by
      intro y
      rw [Side.x_line (G.straight s hs) ls, Side.x_line (G.straight t ht) lt]
      have q : (s.top.x - s.bot.x) * (t.top.y - t.bot.y) = (s.top.y - s.bot.y) * (t.top.x - t.bot.x) := by
        unfold Parallel at hp
        unfold Side.top Side.bot
        cases s.up <;> cases t.up <;> simp only [if_true, if_false, Bool.false_eq_true] <;> first | linear_combination hp | linear_combination -hp
      have d1 : s.top.y - s.bot.y ≠ 0 := (sub_pos.2 (Side.ht ls)).ne'
      have d2 : t.top.y - t.bot.y ≠ 0 := (sub_pos.2 (Side.ht lt)).ne'
      have sl : (s.top.x - s.bot.x) / (s.top.y - s.bot.y) = (t.top.x - t.bot.x) / (t.top.y - t.bot.y) :=
        (div_eq_div_iff d1 d2).2 (by linear_combination q)
      unfold lineX
      rw [sl, eb]
    have key : ∀ s t : Side K, s.Straight → t.Straight → ¬ s.Flat → ¬ t.Flat → s.bot = t.bot → (∀ y, s.x y = t.x y) → SideEnds s t → s.top.y ≤ t.top.y → Twin s t := by
      intro s t hs ht ls lt eb hx h hle
      refine twin_of_span hs ht ls lt eb ?_
      have on1 := Side.onSeg_x hs ls (Side.ht ls).le (le_refl _)
      have on2 := Side.onSeg_x ht lt (y := s.top.y) (by rw [← eb]; exact (Side.ht ls).le) hle
      rw [← hx] at on2
      have e : (⟨s.x s.top.y, s.top.y⟩ : Vec2 K) = s.top := by rw [Side.x_top (Side.ht ls)]
      rw [e] at on1 on2
      rcases t.end_cases (h _ on1 on2).2 with q | q
      · exact absurd (Side.ht ls) (by rw [q, eb]; exact lt_irrefl _)
      · exact q
    rcases hE s hs t ht hne with h | h | h
    · exact absurd h.1 ls
    · obtain ⟨q1, q2⟩ := h.span ls
      exact twin_of_span (G.straight s hs) (G.straight t ht) ls lt q1 q2
    · rcases le_total s.top.y t.top.y with hle | hle
      · exact key s t (G.straight s hs) (G.straight t ht) ls lt eb hx h hle
      · have := key t s (G.straight t ht) (G.straight s hs) lt ls eb.symm (fun y => (hx y).symm) (fun p p1 p2 => (h p p2 p1).symm) hle
        obtain ⟨⟨q1, q2, _⟩, _⟩ := this
        exact twin_of_span (G.straight s hs) (G.straight t ht) ls lt q1.symm q2.symm

/-- Contours without overlaps have no coinciding sides. -/
theorem Twin.overlap {rings : List (Ring K)} (hst : ∀ s ∈ sides rings, s.Straight) {s t : Side K} (hs : s ∈ sides rings)
    (ht : t ∈ sides rings) (ls : ¬ s.Flat) (lt : ¬ t.Flat) (h : Twin s t) : Overlap s.frm s.seg.target t.frm t.seg.target := by
  obtain ⟨⟨h1, h2, _⟩, h⟩ := h
  have hb := (Side.ht ls).le
  have p1 := Side.onSeg_x (hst s hs) ls (le_refl _) hb
  have p2 := Side.onSeg_x (hst t ht) lt (y := s.bot.y) (h1 ▸ le_refl _) (by rw [← h2]; exact hb)
  have q1 := Side.onSeg_x (hst s hs) ls hb (le_refl _)
  have q2 := Side.onSeg_x (hst t ht) lt (y := s.top.y) (by rw [← h1]; exact hb) (by rw [h2])
  rw [← h _ (le_refl _) hb] at p2
  rw [← h _ hb (le_refl _)] at q2
  exact ⟨⟨s.x s.bot.y, s.bot.y⟩, ⟨s.x s.top.y, s.top.y⟩, fun e => (Side.ht ls).ne (Vec2.mk.inj e).2, p1, q1, p2, q2⟩

theorem Apart.noTwin {rings : List (Ring K)} (hA : Apart rings) (hst : ∀ s ∈ sides rings, s.Straight) {s t : Side K} (hs : s ∈ sides rings)
    (ht : t ∈ sides rings) (ls : ¬ s.Flat) (lt : ¬ t.Flat) (hne : s ≠ t) : ¬ Twin s t :=
  fun h => hA s hs t ht ls hne (h.overlap hst hs ht ls lt)

end River
