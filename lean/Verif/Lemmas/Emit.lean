import Verif.Lemmas.Round
import Verif.Lemmas.Order
import Verif.Props.Output

/-! # The whole sweep -/

namespace River
variable {K : Type} [FTrans K] [LinearOrder K] [Absc K] [LawfulOrd K] {rings : List (Ring K)}

/-- A side as a piece of the output. -/
def Side.piece (s : Side K) : Piece K := (s.frm, s.seg)

/-- The pieces of a list of sides. -/
def piecesOf (B : List (Side K)) : Multiset (Piece K) := ((B.map Side.piece : List (Piece K)) : Multiset (Piece K))

/-- The part of an outline that the output consists of when the sweep has reached height `y`. -/
structure OutlineTo (rings : List (Ring K)) (ct : ClipType) (fr : FillRule) (σ : Int) (y : K) (B : List (Side K)) : Prop where
  mem : ∀ s ∈ B, s ∈ sides rings ∧ ¬ s.Flat ∧ Boundary rings ct fr s s.bot.y
  le : ∀ s ∈ B, s.top.y ≤ y
  once : B.Pairwise (fun s t => s ≠ t ∧ ¬ Twin s t)
  all : ∀ s ∈ sides rings, ¬ s.Flat → s.top.y ≤ y → Boundary rings ct fr s s.bot.y → ∃ t ∈ B, Twin t s
  dir : ∀ s ∈ B, (s.dx = σ ↔ ¬ inResultS ct fr (leftSides rings s s.bot.y))

theorem Low.emitted (A : Arranged rings) {ct : ClipType} {fr : FillRule} {σ : Int} (hσ : σ = 1 ∨ σ = -1) (D : Directed rings ct fr σ)
    {y y' : K} {st : St K} {sc : List K} (L : Low rings fr y st)
    (hp : popScan y st.scan = some (y', sc)) (hb : ∀ e ∈ st.ael, e ∈ boundEdges rings ct fr st.ael ↔ e.bound.isSome) {B : List (Side K)}
    (O : OutlineTo rings ct fr σ y B) :
    ∃ B', OutlineTo rings ct fr σ y' B' ∧ piecesOf B' = piecesOf B + endPieces rings y' st.ael := by
  obtain ⟨hg, hno⟩ := L.gap2 A hp
  obtain ⟨_, hps⟩ := popScan_spec y st.scan L.scanSorted (fun z hz => (L.scanGt z hz).le)
  obtain ⟨_, hlt, _⟩ := hps y' sc hp
  have BB := L.beam.bounding A ct hσ D
  obtain ⟨E, hE⟩ : ∃ E, E = st.ael.filter (fun e => e.bound.isSome && decide (e.top.y = y')) := ⟨_, rfl⟩
  have htop : ∀ e ∈ st.ael, e.top.y = (sideOf rings e).top.y := fun e he => by rw [((L.beam.good e he).ok.facts A.linked).2.2.2.2.1]
  have hEm : ∀ e, e ∈ E ↔ e ∈ st.ael ∧ e ∈ boundEdges rings ct fr st.ael ∧ (sideOf rings e).top.y = y' := by
    intro e
    rw [hE, List.mem_filter, Bool.and_eq_true, decide_eq_true_eq]
    constructor
    · rintro ⟨h1, h2, h3⟩; exact ⟨h1, (hb e h1).2 h2, by rw [← htop e h1]; exact h3⟩
    · rintro ⟨h1, h2, h3⟩; exact ⟨h1, (hb e h1).1 h2, by rw [htop e h1]; exact h3⟩
  refine ⟨B ++ E.map (sideOf rings), ⟨?_, ?_, ?_, ?_, ?_⟩, ?_⟩
  · intro s hs
    rcases List.mem_append.1 hs with hs | hs
    · exact O.mem s hs
    · obtain ⟨e, he, rfl⟩ := List.mem_map.1 hs
      obtain ⟨h1, h2, h3⟩ := (hEm e).1 he
      have g := L.beam.good e h1
      exact ⟨g.mem A, g.above.steep, (A.boundary_same ct fr (g.mem A) g.above ⟨le_refl _, Side.ht g.above.steep⟩).1 (L.beam.bound_mem A hσ BB h2).1⟩
  · intro s hs
    rcases List.mem_append.1 hs with hs | hs
    · exact (O.le s hs).trans hlt.le
    · obtain ⟨e, he, rfl⟩ := List.mem_map.1 hs
      exact ((hEm e).1 he).2.2.le
  · rw [List.pairwise_append]
    refine ⟨O.once, ?_, ?_⟩
    · rw [List.pairwise_map]
      have hnd : E.Nodup := by rw [hE]; exact (List.Nodup.of_map _ L.beam.ids).filter _
      refine hnd.imp_of_mem (fun {e f} he hf hne => ?_)
      have hsym : Std.Symm (fun e f : Edge K => ¬ Twin (sideOf rings e) (sideOf rings f)) := ⟨fun _ _ h h' => h h'.symm⟩
      have := BB.once.forall ((hEm e).1 he).2.1 ((hEm f).1 hf).2.1 hne
      exact ⟨fun h => this (by rw [h]; exact Twin.refl _), this⟩
    · intro s hs t ht
      obtain ⟨e, he, rfl⟩ := List.mem_map.1 ht
      have h1 := O.le s hs
      have h2 := ((hEm e).1 he).2.2
      refine ⟨fun h => ?_, fun h => ?_⟩
      · rw [h, h2] at h1; exact absurd hlt (not_lt.2 h1)
      · rw [h.top, h2] at h1; exact absurd hlt (not_lt.2 h1)
  · intro s hs hst hle hbs
    by_cases hy : s.top.y ≤ y
    · obtain ⟨t, ht, h⟩ := O.all s hs hst hy hbs
      exact ⟨t, List.mem_append_left _ ht, h⟩
    · have hlow : s.bot.y < y' := lt_of_lt_of_le (Side.ht hst) hle
      have hyb : s.bot.y ≤ y := by
        by_contra hc
        exact hno s hs hst ⟨not_le.1 hc, hlow⟩
      have hab : s.Above y := ⟨hyb, not_le.1 hy⟩
      have htp : s.top.y = y' := le_antisymm hle ((hg s hs).1 hab).2
      obtain ⟨e, he, hes⟩ := L.beam.complete s hs hab
      obtain ⟨f, hf, hft⟩ := L.beam.bound_all A BB he (by
        rw [hes]; exact (A.boundary_same ct fr hs ⟨le_refl _, Side.ht hst⟩ hab).1 hbs)
      rw [hes] at hft
      refine ⟨_, List.mem_append_right _ (List.mem_map_of_mem ((hEm f).2 ⟨(BB.mem hf).1, hf, by rw [hft.top, htp]⟩)), hft⟩
  · intro s hs
    rcases List.mem_append.1 hs with hs | hs
    · exact O.dir s hs
    · obtain ⟨e, he, rfl⟩ := List.mem_map.1 hs
      obtain ⟨h1, h2, h3⟩ := (hEm e).1 he
      have g := L.beam.good e h1
      rw [(g.ok.facts A.linked).2.2.2.2.2.1, (L.beam.bound_mem A hσ BB h2).2,
        A.left_same_in (g.mem A) g.above ⟨le_refl _, Side.ht g.above.steep⟩]
  · rw [piecesOf, piecesOf, endPieces, ← hE, List.map_append, List.map_map, Multiset.coe_add]
    rfl

/-- Under a side there is another one that ends there, or a local minimum. -/
theorem Arranged.under_min (A : Arranged rings) {s : Side K} (hs : s ∈ sides rings) (hst : ¬ s.Flat) :
    (∃ p ∈ sides rings, ¬ p.Flat ∧ p.bot.y < s.bot.y ∧ p.top.y = s.bot.y) ∨
      ∃ m ∈ locMins rings, m.pt.y = s.bot.y ∧ Leg rings m s := by
  obtain ⟨fl, p, pw, pst, hp, pw', ⟨p3, p4⟩ | ⟨p3, p4, v, hv, hv1, hv2⟩⟩ := A.under hs hst
  · exact Or.inl ⟨p, hp, pst, by rw [← p4]; exact Side.ht pst, p4⟩
  · right
    obtain ⟨x, _, hx, _⟩ := side_node hs
    have hvy : v.pt.y = s.bot.y := by rw [hv1]; split <;> [rfl; exact p4]
    refine ⟨⟨v.pt, s.ring, (if s.up then s else p).idx, x.ptype⟩, (locMins_spec rings _).2 ⟨v, x, hv, hx, hv2, rfl, rfl⟩, hvy, rfl, ?_⟩
    cases hu : s.up with
    | true => left; rfl
    | false =>
      right
      rw [hu, Bool.not_false] at pw
      exact ⟨p, hp, pw.mem.2.1, rfl, (follows_iff hs hp).2 ⟨hst, pst, _, pw⟩⟩

/-- After the last scan line there is nothing above. -/
theorem Low.top_le (A : Arranged rings) {fr : FillRule} {y : K} {st : St K} (L : Low rings fr y st) (hael : st.ael = []) (hmins : st.mins = []) :
    ∀ s ∈ sides rings, ¬ s.Flat → s.top.y ≤ y := by
  have hno : ∀ s ∈ sides rings, ¬ s.Above y := by
    intro s hs ha
    obtain ⟨e, he, _⟩ := L.beam.complete s hs ha
    rw [hael] at he; simp at he
  have hlow : ∀ s ∈ sides rings, ¬ s.Flat → s.bot.y ≤ y := by
    intro s0 hs0 hst0
    by_contra hc
    obtain ⟨s, ⟨hs, hst, g1⟩, hmn⟩ := Set.exists_min_image {s : Side K | s ∈ sides rings ∧ ¬ s.Flat ∧ y < s.bot.y} (fun s => s.bot.y)
      ((List.finite_toSet (sides rings)).subset (fun s hs => hs.1)) ⟨s0, hs0, hst0, not_le.1 hc⟩
    rcases A.under_min hs hst with ⟨p, hp, pst, hl, p4⟩ | ⟨m, hm, hmy, _⟩
    · have hpy : p.bot.y ≤ y := by
        by_contra hcon
        exact absurd (hmn p ⟨hp, pst, not_le.1 hcon⟩) (not_le.2 hl)
      exact hno p hp ⟨hpy, by rw [p4]; exact g1⟩
    · have := (L.mins m).2 ⟨hm, by rw [hmy]; exact g1⟩
      rw [hmins] at this; simp at this
  intro s hs hst
  by_contra hc
  exact hno s hs ⟨hlow s hs hst, not_le.1 hc⟩

/-! ## the horizontal pieces -/

open Classical in
/-- The horizontal pieces below height `y`. -/
structure HPart (rings : List (Ring K)) (ct : ClipType) (fr : FillRule) (y : K) (H : Multiset (Piece K)) : Prop where
  level : ∀ p ∈ H, ∃ y0, y0 < y ∧ Level y0 p
  once : ∀ y0, y0 < y → ∀ X, H.countP (fun p => p.1.y = y0 ∧ Straddles X p) = if (InBelow rings ct fr y0 X ↔ InAbove rings ct fr y0 X) then 0 else 1

omit [LawfulOrd K] in
theorem same_of_sides (ct : ClipType) (fr : FillRule) {y : K} (h : ∀ s ∈ sides rings, s.Below y ↔ s.Above y) (X : K) :
    InBelow rings ct fr y X ↔ InAbove rings ct fr y X := by
  have : (sides rings).filter (fun s => decide (s.Below y ∧ s.x y < X)) = (sides rings).filter (fun s => decide (s.Above y ∧ s.x y < X)) := by
    refine List.filter_congr (fun s hs => ?_)
    rw [decide_eq_decide, h s hs]
  rw [InBelow, InAbove, this]

omit [FTrans K] [LinearOrder K] [Absc K] [LawfulOrd K] in
theorem Level.height {y : K} {p : Piece K} (h : Level y p) : p.1.y = y := by
  obtain ⟨a, b, _, rfl⟩ := h; rfl

omit [FTrans K] [LawfulOrd K] in
theorem level_count {y : K} {F : Multiset (Piece K)} (h : ∀ p ∈ F, Level y p) (X : K) :
    F.countP (fun p => p.1.y = y ∧ Straddles X p) = F.countP (Straddles X) := by
  refine Multiset.countP_congr rfl (fun p hp => ?_)
  simp only [eq_iff_iff]
  exact ⟨fun h => h.2, fun h' => ⟨(h p hp).height, h'⟩⟩

omit [FTrans K] [LawfulOrd K] in
theorem level_count_ne {y0 : K} {F : Multiset (Piece K)} (h : ∀ p ∈ F, ∃ y, y ≠ y0 ∧ Level y p) (X : K) :
    F.countP (fun p => p.1.y = y0 ∧ Straddles X p) = 0 := by
  rw [Multiset.countP_eq_zero]
  rintro p hp ⟨h1, _⟩
  obtain ⟨y, h2, h3⟩ := h p hp
  exact h2 (by rw [← h1, h3.height])

open Classical in
/-- One more scan line, and nothing up to the next. -/
theorem HPart.step {ct : ClipType} {fr : FillRule} {y : K} {H F : Multiset (Piece K)} (h : HPart rings ct fr y H) (hF : ∀ p ∈ F, Level y p)
    (hc : ∀ X, F.countP (Straddles X) = if (InBelow rings ct fr y X ↔ InAbove rings ct fr y X) then 0 else 1) (P : K → Prop)
    (hP : ∀ y0, y < y0 → P y0 → ∀ s ∈ sides rings, s.Below y0 ↔ s.Above y0) :
    (∀ p ∈ H + F, ∃ y0, y0 ≤ y ∧ Level y0 p) ∧ ∀ y0, (y < y0 → P y0) → ∀ X, (H + F).countP (fun p => p.1.y = y0 ∧ Straddles X p) =
      if (InBelow rings ct fr y0 X ↔ InAbove rings ct fr y0 X) then 0 else 1 := by
  refine ⟨?_, ?_⟩
  · intro p hp
    rcases Multiset.mem_add.1 hp with hp | hp
    · obtain ⟨y0, h1, h2⟩ := h.level p hp
      exact ⟨y0, h1.le, h2⟩
    · exact ⟨y, le_refl _, hF p hp⟩
  · intro y0 h0 X
    rw [Multiset.countP_add]
    rcases lt_trichotomy y0 y with hlt | rfl | hgt
    · rw [h.once y0 hlt X, level_count_ne (fun p hp => ⟨y, hlt.ne', hF p hp⟩), add_zero]
    · rw [level_count hF, hc X, level_count_ne (fun p hp => ?_), zero_add]
      obtain ⟨y1, h1, h2⟩ := h.level p hp
      exact ⟨y1, h1.ne, h2⟩
    · rw [if_pos (same_of_sides ct fr (hP y0 hgt (h0 hgt)) X), level_count_ne (fun p hp => ⟨y, hgt.ne, hF p hp⟩), level_count_ne (fun p hp => ?_)]
      obtain ⟨y1, h1, h2⟩ := h.level p hp
      exact ⟨y1, (h1.trans hgt).ne, h2⟩

theorem Low.between (A : Arranged rings) {fr : FillRule} {y y' : K} {st : St K} {sc : List K} (L : Low rings fr y st)
    (hp : popScan y st.scan = some (y', sc)) : ∀ y0, y < y0 → y0 < y' → ∀ s ∈ sides rings, s.Below y0 ↔ s.Above y0 := by
  obtain ⟨hg, hno⟩ := L.gap2 A hp
  intro y0 h1 h2 s hs
  constructor
  · intro hb
    have hby : s.bot.y ≤ y := by
      by_contra hc
      exact hno s hs hb.steep ⟨not_le.1 hc, hb.1.trans h2⟩
    exact ⟨hb.1.le, h2.trans_le ((hg s hs).1 ⟨hby, h1.trans_le hb.2⟩).2⟩
  · intro ha
    have hby : s.bot.y ≤ y := by
      by_contra hc
      exact hno s hs ha.steep ⟨not_le.1 hc, ha.1.trans_lt h2⟩
    exact ⟨hby.trans_lt h1, ha.2.le⟩

theorem High.sweep (A : Arranged rings) {ct : ClipType} {fr : FillRule} {σ : Int} (hσ : σ = 1 ∨ σ = -1) (D : Directed rings ct fr σ)
    (em0 : Multiset (Piece K)) (fuel : Nat) : ∀ (y : K) (st : St K) (obl : List Nat) (sx : Nat → K) (wd : Nat → Int) (tip : Nat → Vec2 K)
      (S : Nat → Side K) (B : List (Side K)) (H : Multiset (Piece K)),
    High rings fr y st → HighOut rings ct fr σ y st obl sx wd tip S (em0 + piecesOf B + H) → OutlineTo rings ct fr σ y B → HPart rings ct fr y H →
    ∃ r, sweep rings ct fr fuel y st = some r ∧ ∀ st', r = some st' →
      ∃ tip' B' H', Outline rings ct fr σ B' ∧ HBoundary rings ct fr H' ∧ PolyInv st'.out ∅ tip' (em0 + piecesOf B' + H') := by
  induction fuel with
  | zero => intro y st obl sx wd tip S B H _ _ _ _; exact ⟨none, rfl, by simp⟩
  | succ fuel ih =>
    intro y st obl sx wd tip S B H HH HO hO hH
    obtain ⟨st1, NL, tip1, F, h1, L, OL, hF, hc⟩ := HH.up A hσ D HO
    rw [River.sweep, h1, Option.bind_some]
    cases hp : popScan y st1.scan with
    | none =>
      obtain ⟨l1, l2⟩ := L.last hp
      have htop := L.top_le A l1 l2
      refine ⟨_, rfl, fun st' hst => ⟨tip1, B, H + F, ⟨hO.mem, hO.once, fun s hs hst hB => Or.inr (hO.all s hs hst (htop s hs hst) hB), hO.dir⟩, ?_, ?_⟩⟩
      · obtain ⟨q1, q2⟩ := hH.step hF hc (fun _ => True) (by
          intro y0 h0 _ s hs
          constructor
          · intro h; exact absurd (h0.trans_le (h.2.trans (htop s hs h.steep))) (lt_irrefl _)
          · intro h; exact absurd (h0.trans (h.2.trans_le (htop s hs h.steep))) (lt_irrefl _))
        refine ⟨fun p hp => ?_, fun y0 X => ?_⟩
        · obtain ⟨y0, _, h⟩ := q1 p hp
          exact ⟨y0, h⟩
        · convert q2 y0 (fun _ => trivial) X
      · cases hst
        have hNL : NL = [] := by rw [← OL.list, l1]; rfl
        have hP := OL.poly
        have he : ({i | i ∈ NL} : Set Nat) = ∅ := by rw [hNL]; simp
        rw [he] at hP
        rw [← add_assoc]
        exact hP
    | some q =>
      obtain ⟨y', sc⟩ := q
      obtain ⟨_, hps⟩ := popScan_spec y st1.scan L.scanSorted (fun z hz => (L.scanGt z hz).le)
      obtain ⟨_, hlt, _⟩ := hps y' sc hp
      obtain ⟨st2, obl2, sx2, wd2, tip2, S2, g1, g2, g3⟩ := L.down A hσ D hp OL
      simp only
      rw [g1, Option.bind_some]
      obtain ⟨q1, q2⟩ := hH.step hF hc (fun y0 => y0 < y') (fun y0 h1 h2 => L.between A hp y0 h1 h2)
      obtain ⟨B', hO', hB'⟩ := L.emitted A hσ D hp (fun e he => OL.iff e he) hO
      refine ih y' st2 obl2 sx2 wd2 tip2 S2 B' (H + F) g2 ?_ hO' ⟨fun p hp => ?_, fun y0 h0 X => ?_⟩
      · rw [hB']
        have : em0 + (piecesOf B + endPieces rings y' st1.ael) + (H + F) =
            em0 + piecesOf B + H + F + endPieces rings y' st1.ael := by
          simp only [add_assoc, add_left_comm, add_comm]
        rw [this]
        exact g3
      · obtain ⟨y0, h1, h2⟩ := q1 p hp
        exact ⟨y0, h1.trans_lt hlt, h2⟩
      · convert q2 y0 (fun _ => h0) X

/-- What `std::sort` guarantees for the local minima. -/
def MinSort [FNum K] (msort : List (LocMin K) → List (LocMin K)) : Prop :=
  ∀ l, (msort l).Perm l ∧ (msort l).Pairwise (fun a b => b.less a = false)

theorem minSort_le {msort : List (LocMin K) → List (LocMin K)} (h : MinSort msort) (l : List (LocMin K)) :
    (msort l).Pairwise (fun a b => a.pt.y ≤ b.pt.y) := by
  refine (h l).2.imp (fun {a b} hab => ?_)
  by_contra hc
  rw [LocMin.less] at hab
  simp only [lt_eq_decide, eq_eq_decide] at hab
  have hc' := not_le.1 hc
  rw [if_neg (by simpa using hc'.ne)] at hab
  simp [hc'] at hab

theorem resetScan_spec (l : List (LocMin K)) (sc : List K) (hs : sc.Pairwise (· ≤ ·)) :
    (l.foldr (fun m s => insertNum m.pt.y s) sc).Pairwise (· ≤ ·) ∧
      ∀ z, z ∈ l.foldr (fun m s => insertNum m.pt.y s) sc ↔ z ∈ sc ∨ ∃ m ∈ l, m.pt.y = z := by
  induction l with
  | nil => exact ⟨hs, by simp⟩
  | cons a l ih =>
    refine ⟨insertNum_sorted _ _ ih.1, fun z => ?_⟩
    rw [List.foldr_cons, (insertNum_perm _ _).mem_iff, List.mem_cons, ih.2]
    simp only [List.mem_cons, exists_eq_or_imp]
    constructor
    · rintro (h | h | h)
      · exact Or.inr (Or.inl h.symm)
      · exact Or.inl h
      · exact Or.inr (Or.inr h)
    · rintro (h | h | h)
      · exact Or.inr (Or.inl h)
      · exact Or.inl h.symm
      · exact Or.inr (Or.inr h)

omit [FTrans K] [LinearOrder K] [Absc K] [LawfulOrd K] in
theorem locMins_nodup (rings : List (Ring K)) : (locMins rings).Nodup := by
  have hz : ∀ {α : Type} (l : List α), l.zipIdx.Pairwise (fun a b => a.2 ≠ b.2) := by
    intro α l
    have : (l.zipIdx.map Prod.snd).Nodup := by rw [List.zipIdx_map_snd]; exact List.nodup_range' 1
    exact List.pairwise_map.1 this
  unfold locMins
  rw [List.nodup_flatMap]
  constructor
  · rintro ⟨r, i⟩ _
    rw [List.Nodup, List.pairwise_filterMap]
    refine (hz r.nodes).imp ?_
    rintro ⟨v, j⟩ ⟨w, k⟩ hne b hb b' hb'
    simp only at hb hb' hne
    split at hb
    · split at hb'
      · cases hb; cases hb'
        intro h; exact hne (LocMin.mk.inj h).2.2.1
      · cases hb'
    · cases hb
  · refine (hz rings).imp ?_
    rintro ⟨r, i⟩ ⟨r', i'⟩ hne m hm hm'
    obtain ⟨⟨v, j⟩, _, h1⟩ := List.mem_filterMap.1 hm
    obtain ⟨⟨w, k⟩, _, h2⟩ := List.mem_filterMap.1 hm'
    simp only at h1 h2 hne
    split at h1
    · split at h2
      · rw [← h1] at h2
        exact hne (LocMin.mk.inj (Option.some.inj h2)).2.1.symm
      · cases h2
    · cases h1

/-- The lowest side starts at a local minimum. -/
theorem Arranged.lowest (A : Arranged rings) {s0 : Side K} (h0 : s0 ∈ sides rings) :
    ∃ m ∈ locMins rings, FNum.neg FNum.maxNum < m.pt.y ∧ ∀ s ∈ sides rings, ¬ s.Flat → m.pt.y ≤ s.bot.y := by
  obtain ⟨s1, h1, hst1⟩ : ∃ s ∈ sides rings, ¬ s.Flat := by
    by_cases h : s0.Flat
    · obtain ⟨s, hs, _, h2⟩ := A.turn s0 h0 h
      exact ⟨s, hs, h2⟩
    · exact ⟨s0, h0, h⟩
  obtain ⟨s, ⟨hs, hst⟩, hmn⟩ := Set.exists_min_image {s : Side K | s ∈ sides rings ∧ ¬ s.Flat} (fun s => s.bot.y)
    ((List.finite_toSet (sides rings)).subset (fun s hs => hs.1)) ⟨s1, h1, hst1⟩
  rcases A.under_min hs hst with ⟨p, hp, pst, hl, p4⟩ | ⟨m, hm, hmy, _⟩
  · exact absurd (hmn p ⟨hp, pst⟩) (not_le.2 hl)
  · refine ⟨m, hm, ?_, fun t ht htt => by rw [hmy]; exact hmn t ⟨ht, htt⟩⟩
    obtain ⟨v, r, h1, h2, _, h3, _⟩ := (locMins_spec rings m).1 hm
    have := A.low _ (side_at h1 h2)
    rw [← h3]; exact this

theorem PolyInv.first {o : Outs K} {act : Set Nat} {tip : Nat → Vec2 K} {em : Multiset (Piece K)} (h : PolyInv o act tip em) (f : Option Nat) :
    PolyInv { o with oblFirst := f } act tip em :=
  h.congr rfl (fun i _ b hb => ⟨b, hb, rfl, rfl⟩) (fun _ _ => rfl)

theorem reset_high (A : Arranged rings) {msort : List (LocMin K) → List (LocMin K)} (hm : MinSort msort) (ct : ClipType) (fr : FillRule) (σ : Int)
    {o : Outs K} {tip : Nat → Vec2 K} {em : Multiset (Piece K)} (P : PolyInv o ∅ tip em) (ch : List K) {y : K} {sc : List K}
    (hp : popScan (FNum.neg FNum.maxNum) (resetSt msort rings o ch []).scan = some (y, sc)) (S : Nat → Side K) :
    High rings fr y { resetSt msort rings o ch [] with scan := sc } ∧
      HighOut rings ct fr σ y { resetSt msort rings o ch [] with scan := sc } [] (fun _ => FNum.lit 0) (fun _ => 0) tip S
        (em + piecesOf [] + 0) ∧ OutlineTo rings ct fr σ y [] ∧ HPart rings ct fr y 0 := by
  obtain ⟨hmp, _⟩ := hm (locMins rings)
  have hmy := minSort_le hm (locMins rings)
  obtain ⟨r1, r2⟩ := resetScan_spec (msort (locMins rings)) ([] : List K) List.Pairwise.nil
  have hlowm : ∀ m ∈ locMins rings, FNum.neg FNum.maxNum < m.pt.y := by
    intro m hm'
    obtain ⟨v, r, h1, h2, _, h3, _⟩ := (locMins_spec rings m).1 hm'
    have := A.low _ (side_at h1 h2)
    rw [← h3]; exact this
  have hscan : ∀ z, z ∈ (resetSt msort rings o ch []).scan ↔ ∃ m ∈ locMins rings, m.pt.y = z := by
    intro z
    refine (r2 z).trans ?_
    simp only [List.not_mem_nil, false_or, hmp.mem_iff]
  obtain ⟨_, hps⟩ := popScan_spec (FNum.neg FNum.maxNum) (resetSt msort rings o ch []).scan r1 (fun z hz => by
    obtain ⟨m, h1, rfl⟩ := (hscan z).1 hz
    exact (hlowm m h1).le)
  obtain ⟨hyin, hlt, hmin, hss, hsm⟩ := hps y sc hp
  have hge : ∀ m ∈ locMins rings, y ≤ m.pt.y := fun m h => hmin _ ((hscan _).2 ⟨m, h, rfl⟩) (hlowm m h)
  have hbot : ∀ s ∈ sides rings, ¬ s.Flat → y ≤ s.bot.y := by
    intro s hs hst
    obtain ⟨m, h1, _, h3⟩ := A.lowest hs
    exact (hge m h1).trans (h3 s hs hst)
  have hbelow : ∀ s ∈ sides rings, ¬ s.Below y := fun s hs h => absurd h.1 (not_lt.2 (hbot s hs h.steep))
  have hbeam : Beam rings fr (FNum.neg FNum.maxNum) [] := by
    refine ⟨by simp, List.Pairwise.nil, List.Pairwise.nil, ?_, ?_, List.nodup_nil⟩
    · intro s hs ha
      exact absurd (hlt.trans_le ((hbot s hs ha.steep).trans ha.1)) (lt_irrefl _)
    · intro pre e post h; simp at h
  have hem : piecesOf ([] : List (Side K)) = 0 := rfl
  refine ⟨⟨⟨?_, ?_, ?_, ?_, ?_, ?_, ?_, ?_⟩, ?_, ?_, hss, fun z hz => ((hsm z).1 hz).2, ?_, ?_, ?_, hmy, ?_, ?_⟩,
    ⟨⟨?_, ?_, ?_, ?_, ?_, ?_⟩, ?_, ?_, ?_, ?_, ?_, ?_, ?_, ?_, ?_, ?_, ?_⟩, ⟨by simp, by simp, List.Pairwise.nil, ?_, by simp⟩, ?_⟩
  · intro e he; cases he
  · exact List.Pairwise.nil
  · exact List.Pairwise.nil
  · intro e he; cases he
  · intro s hs ha
    right
    have hy : s.bot.y = y := le_antisymm ha.1 (hbot s hs ha.steep)
    rcases A.under_min hs ha.steep with ⟨p, hp', pst, hl, p4⟩ | ⟨m, hm', hmy, hleg⟩
    · exact absurd (hbot p hp' pst) (not_le.2 (by rw [← hy]; exact hl))
    · exact ⟨m, hmp.mem_iff.2 hm', by rw [hmy, hy], hleg⟩
  · intro e he; cases he
  · intro f hf hfl hfy
    left
    have hg : ∀ s ∈ sides rings, s.Above (FNum.neg FNum.maxNum) ↔ s.Below y := by
      refine fun s hs => ⟨fun h => ?_, fun h => (hbelow s hs h).elim⟩
      obtain ⟨e, he, _⟩ := hbeam.complete s hs h
      cases he
    rcases hbeam.flat_walked A hg (ms := msort (locMins rings)) (fun m hm' _ => hmp.mem_iff.2 hm') hf hfl hfy with h | ⟨e, he, _⟩
    · exact h
    · cases he
  · exact List.nodup_nil
  · exact List.Pairwise.nil
  · intro e he; cases he
  · intro e he; cases he
  · intro m
    refine hmp.mem_iff.trans ?_
    exact ⟨fun h => ⟨h, hge m h⟩, fun h => h.1⟩
  · exact hmp.nodup_iff.2 (locMins_nodup rings)
  · intro m hm' hy
    exact (hsm _).2 ⟨(hscan _).2 ⟨m, hmp.mem_iff.1 hm', rfl⟩, hy⟩
  · intro z hz
    obtain ⟨m, h1, rfl⟩ := (hscan z).1 ((hsm z).1 hz).1
    obtain ⟨v, r, h1, h2, _, h3, _⟩ := (locMins_spec rings m).1 h1
    refine ⟨_, side_at h1 h2, ?_⟩
    rw [← h3]
    unfold Side.bot Side.top
    split <;> simp
  · exact List.nodup_nil
  · exact ⟨rfl, List.nodup_nil, trivial⟩
  · rw [hem, add_zero, add_zero]
    have h0 : ({i | i ∈ ([] : List Nat)} : Set Nat) = ∅ := by simp
    rw [h0]
    exact P.first none
  · intro i hi; cases hi
  · intro e he; cases he
  · intro e he; cases he
  · exact List.Pairwise.nil
  · trivial
  · intro i hi; cases hi
  · intro X
    rw [InBelow]
    have : (sides rings).filter (fun s => decide (s.Below y ∧ s.x y < X)) = [] := by
      rw [List.filter_eq_nil_iff]
      intro s hs h
      exact hbelow s hs (of_decide_eq_true h).1
    rw [this]
    have h0 : ¬ inResultS ct fr ([] : List (Side K)) := by
      cases ct <;> cases fr <;> simp [inResultS, wnS, ClipType.op, FillRule.inside]
    simp [h0]
  · exact ⟨0, rfl⟩
  · intro i hi; cases hi
  · intro i hi; cases hi
  · intro i hi; cases hi
  · intro s hs hb; exact (hbelow s hs hb).elim
  · intro i hi; cases hi
  · intro _; exact ⟨rfl, fun e he => by cases he⟩
  · intro s hs hst hle
    exact absurd (hle.trans (hbot s hs hst)) (not_le.2 (Side.ht hst))
  · refine ⟨by simp, fun y0 h0 X => ?_⟩
    rw [if_pos (same_of_sides ct fr (fun s hs => ⟨fun h => ?_, fun h => ?_⟩) X)]
    · rfl
    · exact absurd (h.1.trans h0) (not_lt.2 (hbot s hs h.steep))
    · exact absurd (h.1.trans_lt h0) (not_lt.2 (hbot s hs h.steep))

/-- The sweep over contours in general position is defined and leaves closed polygons that consist of an outline of the result. -/
theorem sweep_all (A : Arranged rings) {msort : List (LocMin K) → List (LocMin K)} (hm : MinSort msort) {ct : ClipType} {fr : FillRule} {σ : Int}
    (hσ : σ = 1 ∨ σ = -1) (D : Directed rings ct fr σ) {o : Outs K} {tip : Nat → Vec2 K} {em : Multiset (Piece K)} (P : PolyInv o ∅ tip em)
    (ch : List K) (fuel : Nat) {y : K} {sc : List K}
    (hp : popScan (FNum.neg FNum.maxNum) (resetSt msort rings o ch []).scan = some (y, sc)) :
    ∃ r, sweep rings ct fr fuel y { resetSt msort rings o ch [] with scan := sc } = some r ∧
      ∀ st', r = some st' → ∃ tip' B H, Outline rings ct fr σ B ∧ HBoundary rings ct fr H ∧ PolyInv st'.out ∅ tip' (em + piecesOf B + H) := by
  obtain ⟨h1, h2, h3, h4⟩ := reset_high A hm ct fr σ P ch hp (fun _ => ⟨0, 0, ⟨FNum.lit 0, FNum.lit 0⟩, .line ⟨FNum.lit 0, FNum.lit 0⟩, .subject⟩)
  exact h1.sweep A hσ D em fuel _ _ _ _ _ _ _ _ _ h2 h3 h4

/-- Without a scan line there are no sides. -/
theorem reset_none (A : Arranged rings) {msort : List (LocMin K) → List (LocMin K)} (hm : MinSort msort) (o : Outs K) (ch : List K)
    (hp : popScan (FNum.neg FNum.maxNum) (resetSt msort rings o ch []).scan = none) : sides rings = [] := by
  obtain ⟨hmp, _⟩ := hm (locMins rings)
  obtain ⟨r1, r2⟩ := resetScan_spec (msort (locMins rings)) ([] : List K) List.Pairwise.nil
  have hlowm : ∀ m ∈ locMins rings, FNum.neg FNum.maxNum < m.pt.y := by
    intro m hm'
    obtain ⟨v, r, h1, h2, _, h3, _⟩ := (locMins_spec rings m).1 hm'
    have := A.low _ (side_at h1 h2)
    rw [← h3]; exact this
  have hscan : ∀ z, z ∈ (resetSt msort rings o ch []).scan ↔ ∃ m ∈ locMins rings, m.pt.y = z := by
    intro z
    refine (r2 z).trans ?_
    simp only [List.not_mem_nil, false_or, hmp.mem_iff]
  obtain ⟨h1, _⟩ := popScan_spec (FNum.neg FNum.maxNum) (resetSt msort rings o ch []).scan r1 (fun z hz => by
    obtain ⟨m, h1, rfl⟩ := (hscan z).1 hz
    exact (hlowm m h1).le)
  rw [List.eq_nil_iff_forall_not_mem]
  intro s hs
  obtain ⟨m, g1, g2, _⟩ := A.lowest hs
  exact g2.ne' (h1.1 hp _ ((hscan _).2 ⟨m, g1, rfl⟩))

/-! ## from the polygons to the callbacks -/

omit [FTrans K] [LinearOrder K] [Absc K] [LawfulOrd K] in
theorem pchain_events {p q : Vec2 K} {l : List (Piece K)} (h : PChain p l q) :
    eventsFrom p (l.map (fun a => a.2.cmd)) = l.map (fun a => ⟨a.1, a.2.cmd⟩) ∧
      endPoint p (eventsFrom p (l.map (fun a => a.2.cmd))) = q := by
  induction l generalizing p with
  | nil => exact ⟨rfl, h⟩
  | cons a l ih =>
    obtain ⟨h1, h2⟩ := h
    have ht : a.2.cmd.target = a.2.target := by cases a.2 <;> rfl
    obtain ⟨g1, g2⟩ := ih h2
    rw [List.map_cons, eventsFrom, ht]
    refine ⟨by rw [g1, ← h1]; rfl, ?_⟩
    rw [← g2, endPoint, endPoint, List.getLast?_cons]
    cases (eventsFrom a.2.target (l.map (fun a => a.2.cmd))).getLast? with
    | none => exact ht
    | some e => rfl

end River
