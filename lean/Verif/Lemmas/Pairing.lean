import Verif.Lemmas.Match
import Verif.Lemmas.Join
import Verif.Spec.Horizontal

/-! # The pairing loop of `update_ouput_bound`

`PInv` is the state in the middle of the loop: `E` are the contributing edges not dealt with, `B` the bounds not dealt
with; every other contributing edge has a bound. -/

namespace River
variable {K : Type}

/-- The active edges with other bounds. -/
def withB (ael : List (Edge K)) (f : Nat → Option Nat) : List (Edge K) := ael.map (fun e => { e with bound := f e.eid })

theorem setBound_withB [FTrans K] (ael : List (Edge K)) (f : Nat → Option Nat) (i : Nat) (b : Option Nat) :
    setBound (withB ael f) i b = withB ael (Function.update f i b) := by
  rw [setBound, withB, withB, List.map_map]
  refine List.map_congr_left (fun e _ => ?_)
  simp only [Function.comp]
  by_cases h : e.eid = i
  · subst h; simp
  · rw [if_neg h, Function.update_of_ne h]

section
variable [LinearOrder K]

/-- The number of edges and bounds to the left of `X`. -/
def cnt (sx : Nat → K) (E : List (Edge K)) (B : List Nat) (X : K) : Nat :=
  E.countP (fun e => decide (e.currX < X)) + B.countP (fun i => decide (sx i < X))

/-- The bound and the edge are alone at their abscissa, the bound has reached the lower end of the edge, and everything to
the left of them can be paired off. -/
structure Solid (C : List (Edge K)) (obl : List Nat) (sx : Nat → K) (tp : Nat → Vec2 K) (e : Edge K) (i : Nat) : Prop where
  memE : e ∈ C
  memB : i ∈ obl
  x : e.currX = sx i
  tip : tp i = e.bot
  uniqE : ∀ e' ∈ C, e'.currX = sx i → e' = e
  uniqB : ∀ j ∈ obl, sx j = sx i → j = i
  even : Even (cnt sx C obl (sx i))

/-- See above. `sx`, `wd`, `tp`: abscissa, direction and end point of the bounds in `B`; `F`: the connecting pieces. -/
structure PInv (ael0 C : List (Edge K)) (obl : List Nat) (sx : Nat → K) (wd : Nat → Int) (tp : Nat → Vec2 K) (y : K) (em F : Multiset (Piece K))
    (st : St K) (f : Nat → Option Nat) (act : Set Nat) (tip : Nat → Vec2 K) (Epre E : List (Edge K)) (L0 B : List Nat) : Prop where
  ael : st.ael = withB ael0 f
  poly : PolyInv st.out act tip (em + F)
  rep : st.out.links.Represents (L0 ++ B)
  repAct : ∀ i ∈ L0 ++ B, i ∈ act
  fresh : ∀ i ∈ act, i ∉ L0 ++ B → st.out.links.next i = none
  sub : L0.Sublist (Epre.filterMap (fun e => f e.eid))
  lists : (Epre ++ E).Sublist C
  done : ∀ e ∈ C, e ∉ E → ∃ (i : Nat) (b : Bound K), f e.eid = some i ∧ i ∈ act ∧ i ∉ B ∧ st.out.bounds[i]? = some b ∧
    b.currEdge = some e.eid ∧ b.windDx = e.windDx ∧ tip i = e.bot
  cover : ∀ i ∈ act, i ∈ B ∨ ∃ e ∈ C, e ∉ E ∧ f e.eid = some i
  non : ∀ e ∈ ael0, e ∉ C → f e.eid = none
  inObl : ∀ i ∈ B, i ∈ obl
  wait : ∀ i ∈ B, tip i = tp i ∧ ∃ b, st.out.bounds[i]? = some b ∧ b.stopX = sx i ∧ b.windDx = wd i ∧
    ∀ id, b.currEdge = some id → ∃ e ∈ E, e.eid = id ∧ Solid C obl sx tp e i
  level : ∀ p ∈ F, Level y p
  acc : ∀ X, F.countP (Straddles X) + cnt sx E B X % 2 = cnt sx C obl X % 2
  solid : ∀ e i, Solid C obl sx tp e i → (e ∈ E ↔ i ∈ B)

/-- The facts about the edges and bounds that do not change in the loop. -/
structure PCtx (ael0 C : List (Edge K)) (obl : List Nat) (sx : Nat → K) (wd : Nat → Int) (tp : Nat → Vec2 K) (y : K) : Prop where
  nd : (ael0.map Edge.eid).Nodup
  cs : C.Sublist ael0
  sorted : C.Pairwise (fun a b => a.currX ≤ b.currX)
  tipE : ∀ e ∈ C, e.bot = ⟨e.currX, y⟩ ∨ ∃ i, Solid C obl sx tp e i
  tipB : ∀ i ∈ obl, tp i = ⟨sx i, y⟩ ∨ ∃ e, Solid C obl sx tp e i
  dirE : ∀ e ∈ C, e.windDx = 1 ∨ e.windDx = -1
  dirB : ∀ i ∈ obl, wd i = 1 ∨ wd i = -1

end

/-! ## connecting pieces -/

theorem conn_level {x1 x2 y : K} {p : Piece K} (h : p ∈ conn (⟨x1, y⟩ : Vec2 K) ⟨x2, y⟩) : Level y p := by
  by_cases hx : x1 = x2
  · rw [hx, conn_self] at h; simp at h
  · rw [conn_ne (fun hc => hx (congrArg Vec2.x hc)), Multiset.mem_singleton] at h
    exact ⟨x1, x2, hx, h⟩

theorem conn_straddles [LinearOrder K] (x1 x2 y X : K) :
    (conn (⟨x1, y⟩ : Vec2 K) ⟨x2, y⟩).countP (Straddles X) = if (x1 < X ↔ x2 < X) then 0 else 1 := by
  by_cases hx : x1 = x2
  · rw [hx, conn_self]; simp
  · rw [conn_ne (fun hc => hx (congrArg Vec2.x hc)), ← Multiset.cons_zero, Multiset.countP_cons, Multiset.countP_zero]
    by_cases h : (x1 < X ↔ x2 < X)
    · rw [if_pos h, if_neg]
      exact fun hc => hc h
    · rw [if_neg h, if_pos]
      exact h

theorem conn_if [LinearOrder K] (c : Bool) (x1 x2 y : K) :
    (∀ p ∈ (if c then conn (⟨x1, y⟩ : Vec2 K) ⟨x2, y⟩ else conn (⟨x2, y⟩ : Vec2 K) ⟨x1, y⟩), Level y p) ∧
      ∀ X, (if c then conn (⟨x1, y⟩ : Vec2 K) ⟨x2, y⟩ else conn (⟨x2, y⟩ : Vec2 K) ⟨x1, y⟩).countP (Straddles X) =
        if (x1 < X ↔ x2 < X) then 0 else 1 := by
  cases c with
  | true => exact ⟨fun p hp => conn_level hp, fun X => conn_straddles x1 x2 y X⟩
  | false =>
    refine ⟨fun p hp => conn_level hp, fun X => ?_⟩
    rw [if_neg (by simp), conn_straddles]
    simp only [iff_comm]

section
variable {ael0 C : List (Edge K)} {obl : List Nat} {sx : Nat → K} {wd : Nat → Int} {tp : Nat → Vec2 K} {y : K} {em F : Multiset (Piece K)}

theorem PCtx.eq [LinearOrder K] (c : PCtx ael0 C obl sx wd tp y) {a b : Edge K} (ha : a ∈ ael0) (hb : b ∈ ael0) (h : a.eid = b.eid) : a = b :=
  List.inj_on_of_nodup_map c.nd ha hb h

theorem PCtx.nodup [LinearOrder K] (c : PCtx ael0 C obl sx wd tp y) : C.Nodup := (List.Nodup.of_map _ c.nd).sublist c.cs

theorem cnt_edge [LinearOrder K] (k : List (Edge K)) (a : Edge K) (r : List (Edge K)) (B : List Nat) (X : K) :
    cnt sx (k ++ a :: r) B X = cnt sx (k ++ r) B X + (if a.currX < X then 1 else 0) := by
  rw [cnt, cnt, List.countP_append, List.countP_append, countP_lt_cons]; ring

theorem cnt_bound [LinearOrder K] (E : List (Edge K)) (b : Nat) (B : List Nat) (X : K) :
    cnt sx E (b :: B) X = cnt sx E B X + (if sx b < X then 1 else 0) := by
  rw [cnt, cnt, countP_lt_cons]; ring

theorem cnt_zero [LinearOrder K] {E : List (Edge K)} {B : List Nat} {X : K} (h1 : ∀ e ∈ E, X ≤ e.currX) (h2 : ∀ i ∈ B, X ≤ sx i) :
    cnt sx E B X = 0 := by
  rw [cnt, countP_zero Edge.currX E X h1, countP_zero sx B X h2]

/-- A pair is taken and connected. -/
theorem acc_step [LinearOrder K] {n m t : Nat} {G : Multiset (Piece K)} {X x1 x2 : K} (h : F.countP (Straddles X) + m % 2 = t)
    (hm : m = n + (if x1 < X then 1 else 0) + (if x2 < X then 1 else 0))
    (hG : G.countP (Straddles X) = if (x1 < X ↔ x2 < X) then 0 else 1) (h0 : ¬ (x1 < X ↔ x2 < X) → n = 0) :
    (F + G).countP (Straddles X) + n % 2 = t := by
  rw [Multiset.countP_add, hG, ← h, hm, add_assoc, take_two n _ _ h0]

theorem newOutput_links [FTrans K] (o : Outs K) (a b : Edge K) : (o.newOutput a b).links = o.links := by
  have hold : ∀ i, i < o.bounds.length → (o.newOutput a b).bounds[i]? = o.bounds[i]? := by
    intro i hi
    rw [Outs.newOutput]
    simp only
    rw [List.getElem?_append_left hi]
  have hnew : ∀ i, ¬ i < o.bounds.length → o.links.prev i = none ∧ o.links.next i = none ∧
      (o.newOutput a b).links.prev i = none ∧ (o.newOutput a b).links.next i = none := by
    intro i hi
    have h1 : o.bounds[i]? = none := List.getElem?_eq_none_iff.2 (not_lt.1 hi)
    refine ⟨by simp [Outs.links, h1], by simp [Outs.links, h1], ?_, ?_⟩ <;>
    · simp only [Outs.links, Outs.newOutput]
      rw [List.getElem?_append_right (not_lt.1 hi)]
      rcases hk : i - o.bounds.length with _ | _ | k <;> simp
  have e1 : (o.newOutput a b).links.prev = o.links.prev := by
    funext i
    by_cases hi : i < o.bounds.length
    · simp only [Outs.links, hold i hi]
    · rw [(hnew i hi).1, (hnew i hi).2.2.1]
  have e2 : (o.newOutput a b).links.next = o.links.next := by
    funext i
    by_cases hi : i < o.bounds.length
    · simp only [Outs.links, hold i hi]
    · rw [(hnew i hi).2.1, (hnew i hi).2.2.2]
  have e3 : (o.newOutput a b).links.head = o.links.head := rfl
  cases hl : (o.newOutput a b).links with
  | mk hd p n =>
    cases hl' : o.links with
    | mk hd' p' n' =>
      rw [hl, hl'] at e1 e2 e3
      simp only at e1 e2 e3
      rw [e1, e2, e3]

theorem opposite {a b : Int} (ha : a = 1 ∨ a = -1) (hb : b = 1 ∨ b = -1) (h : a = -b) : decide (a < 0) = !decide (b < 0) := by
  rcases ha with rfl | rfl <;> rcases hb with rfl | rfl <;> simp_all

variable [FTrans K] [LinearOrder K] [LawfulOrd K] {st : St K} {f : Nat → Option Nat} {act : Set Nat} {tip : Nat → Vec2 K}
  {Epre E : List (Edge K)} {L0 B : List Nat}

/-- Opening a polygon. -/
theorem PInv.newOutput (c : PCtx ael0 C obl sx wd tp y) {k r : List (Edge K)} {a b : Edge K}
    (h : PInv ael0 C obl sx wd tp y em F st f act tip Epre (k ++ a :: b :: r) L0 B) (hd : a.windDx = - b.windDx)
    (hsa : ∀ i, ¬ Solid C obl sx tp a i) (hsb : ∀ i, ¬ Solid C obl sx tp b i)
    (h0 : ∀ X, ¬ (a.currX < X ↔ b.currX < X) → cnt sx (k ++ r) B X = 0) :
    ∃ F' f' act' tip', PInv ael0 C obl sx wd tp y em F' (st.newOutput a b) f' act' tip' Epre (k ++ r) L0 B := by
  have hlist := h.lists
  have hnd : (Epre ++ (k ++ a :: b :: r)).Nodup := c.nodup.sublist hlist
  have hEnd := (List.nodup_append.1 hnd).2.1
  have hsub : ∀ e ∈ k ++ a :: b :: r, e ∈ C := fun e he => hlist.subset (List.mem_append_right _ he)
  have haC : a ∈ C := hsub a (by simp)
  have hbC : b ∈ C := hsub b (by simp)
  have hab : a ≠ b := by
    rintro rfl
    have := (List.nodup_cons.1 (List.nodup_append.1 hEnd).2.1).1
    simp at this
  have hin : ∀ e ∈ C, ∀ e' ∈ C, e ≠ e' → e.eid ≠ e'.eid := fun e he e' he' hne heq => hne (c.eq (c.cs.subset he) (c.cs.subset he') heq)
  have hba : a.bot = ⟨a.currX, y⟩ := (c.tipE a haC).resolve_right (fun ⟨i, hi⟩ => hsa i hi)
  have hbb : b.bot = ⟨b.currX, y⟩ := (c.tipE b hbC).resolve_right (fun ⟨i, hi⟩ => hsb i hi)
  have hanot : a ∉ k ++ r := by
    intro hm
    rw [List.nodup_append] at hEnd
    rcases List.mem_append.1 hm with hm | hm
    · exact hEnd.2.2 a hm a (by simp) rfl
    · have := (List.nodup_cons.1 hEnd.2.1).1; simp [hm] at this
  have hbnot : b ∉ k ++ r := by
    intro hm
    rw [List.nodup_append] at hEnd
    rcases List.mem_append.1 hm with hm | hm
    · exact hEnd.2.2 b hm b (by simp) rfl
    · have := (List.nodup_cons.1 (List.nodup_cons.1 hEnd.2.1).2).1; exact this hm
  have hmemE : ∀ e, e ∈ k ++ r → e ∈ k ++ a :: b :: r := by
    intro e he; simp only [List.mem_append, List.mem_cons] at he ⊢; tauto
  have hmemE' : ∀ e, e ∈ k ++ a :: b :: r → e = a ∨ e = b ∨ e ∈ k ++ r := by
    intro e he; simp only [List.mem_append, List.mem_cons] at he ⊢; tauto
  generalize hn : st.out.bounds.length = n at *
  have hlt : ∀ i ∈ act, i < n := fun i hi => by rw [← hn]; exact h.poly.lt hi
  have hold : ∀ i, i < n → (st.out.newOutput a b).bounds[i]? = st.out.bounds[i]? := by
    intro i hi
    rw [Outs.newOutput]
    simp only
    rw [List.getElem?_append_left (by rw [hn]; exact hi)]
  have hn0 : (st.out.newOutput a b).bounds[n]? =
      some { owner := st.out.polys.length, currEdge := some a.eid, stopX := a.currX, windDx := a.windDx } := by
    rw [Outs.newOutput]; simp [← hn]
  have hn1 : (st.out.newOutput a b).bounds[n + 1]? =
      some { owner := st.out.polys.length, currEdge := some b.eid, stopX := b.currX, windDx := b.windDx } := by
    rw [Outs.newOutput]; simp [← hn]
  have hf : ∀ e ∈ C, e ≠ a → e ≠ b → Function.update (Function.update f a.eid (some n)) b.eid (some (n + 1)) e.eid = f e.eid := by
    intro e he h1 h2
    rw [Function.update_of_ne (hin e he b hbC h2), Function.update_of_ne (hin e he a haC h1)]
  have hfa : Function.update (Function.update f a.eid (some n)) b.eid (some (n + 1)) a.eid = some n := by
    rw [Function.update_of_ne (hin a haC b hbC hab), Function.update_self]
  have hfb : Function.update (Function.update f a.eid (some n)) b.eid (some (n + 1)) b.eid = some (n + 1) := Function.update_self ..
  have ht : ∀ i, i < n → Function.update (Function.update tip n a.bot) (n + 1) b.bot i = tip i := by
    intro i hi
    rw [Function.update_of_ne (by omega), Function.update_of_ne (by omega)]
  have htn : Function.update (Function.update tip n a.bot) (n + 1) b.bot n = a.bot := by
    rw [Function.update_of_ne (by omega), Function.update_self]
  have htn1 : Function.update (Function.update tip n a.bot) (n + 1) b.bot (n + 1) = b.bot := Function.update_self ..
  have hBlt : ∀ i ∈ B, i < n := fun i hi => hlt i (h.repAct i (List.mem_append_right _ hi))
  obtain ⟨G, hG⟩ : ∃ G, G = (if decide (a.windDx < 0) then conn b.bot a.bot else conn a.bot b.bot) := ⟨_, rfl⟩
  have hG' := conn_if (decide (a.windDx < 0)) b.currX a.currX y
  rw [← hba, ← hbb, ← hG] at hG'
  refine ⟨F + G, Function.update (Function.update f a.eid (some n)) b.eid (some (n + 1)), act ∪ {n, n + 1},
    Function.update (Function.update tip n a.bot) (n + 1) b.bot, ?_, ?_, ?_, ?_, ?_, ?_, ?_, ?_, ?_, ?_, h.inObl, ?_, ?_, ?_, ?_⟩
  · rw [St.newOutput]
    simp only
    rw [h.ael, setBound_withB, setBound_withB, hn]
  · have := h.poly.newOutput a b (opposite (c.dirE a haC) (c.dirE b hbC) hd)
      (tip' := Function.update (Function.update tip n a.bot) (n + 1) b.bot) (fun i hi => ht i (hlt i hi)) (by rw [hn]; exact htn)
      (by rw [hn]; exact htn1)
    rw [hn, ← hG, add_assoc] at this
    exact this
  · rw [show (st.newOutput a b).out = st.out.newOutput a b from rfl, newOutput_links]; exact h.rep
  · exact fun i hi => Or.inl (h.repAct i hi)
  · rw [show (st.newOutput a b).out = st.out.newOutput a b from rfl, newOutput_links]
    rintro i (hi | hi) hnot
    · exact h.fresh i hi hnot
    · have : st.out.bounds[i]? = none := by
        rw [List.getElem?_eq_none_iff, hn]
        rcases hi with rfl | rfl <;> omega
      simp [Outs.links, this]
  · have : Epre.filterMap (fun e => Function.update (Function.update f a.eid (some n)) b.eid (some (n + 1)) e.eid) =
        Epre.filterMap (fun e => f e.eid) := by
      refine List.filterMap_congr (fun e he => ?_)
      have heC : e ∈ C := hlist.subset (List.mem_append_left _ he)
      refine hf e heC ?_ ?_
      · rintro rfl; exact (List.nodup_append.1 hnd).2.2 _ he _ (by simp) rfl
      · rintro rfl; exact (List.nodup_append.1 hnd).2.2 _ he _ (by simp) rfl
    rw [this]; exact h.sub
  · refine List.Sublist.trans ?_ hlist
    refine List.Sublist.append (List.Sublist.refl _) (List.Sublist.append (List.Sublist.refl _) ?_)
    exact (List.sublist_cons_self _ _).trans (List.sublist_cons_self _ _)
  · intro e he heE
    by_cases h1 : e = a
    · subst h1
      exact ⟨n, _, hfa, by simp, fun hb => absurd (hBlt _ hb) (lt_irrefl _), hn0, rfl, rfl, htn⟩
    · by_cases h2 : e = b
      · subst h2
        exact ⟨n + 1, _, hfb, by simp, fun hb => absurd (hBlt _ hb) (by omega), hn1, rfl, rfl, htn1⟩
      · obtain ⟨i, bb, q1, q2, q3, q4, q5, q6, q7⟩ := h.done e he (fun hh => by
          rcases hmemE' e hh with hh | hh | hh
          · exact h1 hh
          · exact h2 hh
          · exact heE hh)
        exact ⟨i, bb, by rw [hf e he h1 h2]; exact q1, Or.inl q2, q3, (hold i (hlt i q2)).trans q4, q5, q6, by rw [ht i (hlt i q2)]; exact q7⟩
  · rintro i (hi | hi)
    · rcases h.cover i hi with hb | ⟨e, he, heE, hfe⟩
      · exact Or.inl hb
      · have h1 : e ≠ a := by rintro rfl; exact heE (by simp)
        have h2 : e ≠ b := by rintro rfl; exact heE (by simp)
        exact Or.inr ⟨e, he, fun hh => heE (hmemE e hh), by rw [hf e he h1 h2]; exact hfe⟩
    · rcases hi with rfl | hi
      · exact Or.inr ⟨a, haC, hanot, hfa⟩
      · rw [Set.mem_singleton_iff] at hi
        subst hi
        exact Or.inr ⟨b, hbC, hbnot, hfb⟩
  · intro e he heC
    have h1 : e.eid ≠ a.eid := fun hh => heC (by rw [c.eq he (c.cs.subset haC) hh]; exact haC)
    have h2 : e.eid ≠ b.eid := fun hh => heC (by rw [c.eq he (c.cs.subset hbC) hh]; exact hbC)
    rw [Function.update_of_ne h2, Function.update_of_ne h1]
    exact h.non e he heC
  · intro i hi
    obtain ⟨q1, bb, q2, q3, q4, q5⟩ := h.wait i hi
    refine ⟨by rw [ht i (hBlt i hi)]; exact q1, bb, (hold i (hBlt i hi)).trans q2, q3, q4, ?_⟩
    intro id hid
    obtain ⟨e, he, r1, r2⟩ := q5 id hid
    rcases hmemE' e he with rfl | rfl | he'
    · exact absurd r2 (hsa i)
    · exact absurd r2 (hsb i)
    · exact ⟨e, he', r1, r2⟩
  · intro p hp
    rcases Multiset.mem_add.1 hp with hp | hp
    · exact h.level p hp
    · exact hG'.1 p hp
  · intro X
    refine acc_step (h.acc X) ?_ (hG'.2 X) (fun hh => h0 X (fun hc => hh hc.symm))
    rw [cnt_edge, cnt_edge]
  · intro e i hs
    rw [← h.solid e i hs]
    refine ⟨hmemE e, fun he => ?_⟩
    rcases hmemE' e he with rfl | rfl | he'
    · exact absurd hs (hsa i)
    · exact absurd hs (hsb i)
    · exact he'

/-- Connecting a bound with an edge. -/
theorem PInv.attach (c : PCtx ael0 C obl sx wd tp y) {e : Edge K} {b : Nat}
    (h : PInv ael0 C obl sx wd tp y em F st f act tip Epre (e :: E) L0 (b :: B)) (hd : e.windDx = wd b)
    (hs : ∀ e' i, Solid C obl sx tp e' i → (e' = e ↔ i = b))
    (h0 : ∀ X, ¬ (e.currX < X ↔ sx b < X) → cnt sx E B X = 0) :
    ∃ st' F' f' tip', st.updateBound b e = some st' ∧ PInv ael0 C obl sx wd tp y em F' st' f' act tip' (Epre ++ [e]) E (L0 ++ [b]) B := by
  obtain ⟨q1, bb, q2, q3, q4, q5⟩ := h.wait b (by simp)
  have hlist := h.lists
  have hnd : (Epre ++ e :: E).Nodup := c.nodup.sublist hlist
  have heC : e ∈ C := hlist.subset (by simp)
  have hbO : b ∈ obl := h.inObl b (by simp)
  have hBnd : (L0 ++ b :: B).Nodup := h.rep.2.1
  have hbB : b ∉ B := (List.nodup_cons.1 (List.nodup_append.1 hBnd).2.1).1
  have heE : e ∉ E := (List.nodup_cons.1 (List.nodup_append.1 hnd).2.1).1
  have hin : ∀ e' ∈ C, e' ≠ e → e'.eid ≠ e.eid := fun e' he' hne heq => hne (c.eq (c.cs.subset he') (c.cs.subset heC) heq)
  -- either they belong together, or both are at the scan line
  have htwo : (e.currX = sx b ∧ tp b = e.bot) ∨ (tp b = ⟨sx b, y⟩ ∧ e.bot = ⟨e.currX, y⟩) := by
    rcases c.tipE e heC with h1 | ⟨i, hi⟩
    · rcases c.tipB b hbO with h2 | ⟨e', he'⟩
      · exact Or.inr ⟨h2, h1⟩
      · have : e' = e := (hs e' b he').2 rfl
        subst this
        exact Or.inl ⟨he'.x, he'.tip⟩
    · have : i = b := (hs e i hi).1 rfl
      subst this
      exact Or.inl ⟨hi.x, hi.tip⟩
  obtain ⟨o', u1, u2, u3, u4⟩ := Outs.updateBound_spec h.poly (h.repAct b (by simp)) q2 e
    (fun hx => by
      rw [q3] at hx
      rw [q1]
      rcases htwo with h1 | ⟨h1, h2⟩
      · exact h1.2
      · rw [h1, h2, hx])
    (fun hx => by
      rw [q3] at hx
      rcases htwo with h1 | ⟨h1, h2⟩
      · exact absurd h1.1 hx
      · rw [q1, h1, q3, h2]; exact ⟨rfl, rfl⟩)
  have hup : st.updateBound b e = some { st with out := o', ael := setBound st.ael e.eid (some b) } := by
    rw [St.updateBound, u1]; rfl
  obtain ⟨G, hG⟩ : ∃ G, G = (if bb.isUp then conn (tip b) e.bot else conn e.bot (tip b)) := ⟨_, rfl⟩
  have hG' : (∀ p ∈ G, Level y p) ∧ ∀ X, G.countP (Straddles X) = if (e.currX < X ↔ sx b < X) then 0 else 1 := by
    rcases htwo with ⟨h1, h2⟩ | ⟨h1, h2⟩
    · rw [hG, q1, h2, h1, conn_self]; simp
    · have := conn_if bb.isUp (sx b) e.currX y
      rw [← h1, ← h2, ← q1, ← hG] at this
      refine ⟨this.1, fun X => ?_⟩
      rw [this.2 X]
      simp only [iff_comm]
  rw [← hG] at u2
  have hB : ∀ i, i ≠ b → o'.bounds[i]? = st.out.bounds[i]? := by
    intro i hi; rw [u4, if_neg (Ne.symm hi)]
  have hBb : o'.bounds[b]? = some { bb with currEdge := some e.eid } := by
    rw [u4, if_pos rfl, q2]; rfl
  have hf : ∀ e' ∈ C, e' ≠ e → Function.update f e.eid (some b) e'.eid = f e'.eid := fun e' he' hne => by
    rw [Function.update_of_ne (hin e' he' hne)]
  refine ⟨_, F + G, Function.update f e.eid (some b), Function.update tip b e.bot, hup,
    ⟨?_, ?_, ?_, ?_, ?_, ?_, ?_, ?_, ?_, ?_, fun i hi => h.inObl i (List.mem_cons_of_mem _ hi), ?_, ?_, ?_, ?_⟩⟩
  · simp only
    rw [h.ael, setBound_withB]
  · rw [← add_assoc]; exact u2
  · simp only
    rw [u3, List.append_assoc]; exact h.rep
  · intro i hi
    exact h.repAct i (by rw [List.append_assoc] at hi; exact hi)
  · intro i hi hnot
    simp only
    rw [u3]
    exact h.fresh i hi (by rw [List.append_assoc] at hnot; exact hnot)
  · rw [List.filterMap_append]
    have h1 : Epre.filterMap (fun e' => Function.update f e.eid (some b) e'.eid) = Epre.filterMap (fun e' => f e'.eid) := by
      refine List.filterMap_congr (fun e' he' => ?_)
      refine hf e' (hlist.subset (List.mem_append_left _ he')) ?_
      rintro rfl
      exact (List.nodup_append.1 hnd).2.2 _ he' _ (by simp) rfl
    have h2 : [e].filterMap (fun e' => Function.update f e.eid (some b) e'.eid) = [b] := by simp
    rw [h1, h2]
    exact List.Sublist.append h.sub (List.Sublist.refl _)
  · rw [List.append_assoc]; exact hlist
  · intro e' he' hnE
    by_cases hee : e' = e
    · subst hee
      exact ⟨b, _, Function.update_self .., h.repAct b (by simp), hbB, hBb, rfl, by rw [hd]; exact q4, Function.update_self ..⟩
    · obtain ⟨i, b', r1, r2, r3, r4, r5, r6, r7⟩ := h.done e' he' (fun hh => by
        rcases List.mem_cons.1 hh with hh | hh
        · exact hee hh
        · exact hnE hh)
      have hib : i ≠ b := fun hh => r3 (by rw [hh]; simp)
      exact ⟨i, b', by rw [hf e' he' hee]; exact r1, r2, fun hh => r3 (List.mem_cons_of_mem _ hh), (hB i hib).trans r4, r5, r6, by
        rw [Function.update_of_ne hib]; exact r7⟩
  · intro i hi
    rcases h.cover i hi with hb | ⟨e', he', hn, hfe⟩
    · rcases List.mem_cons.1 hb with rfl | hb
      · exact Or.inr ⟨e, heC, heE, Function.update_self ..⟩
      · exact Or.inl hb
    · exact Or.inr ⟨e', he', fun hh => hn (List.mem_cons_of_mem _ hh), by
        rw [hf e' he' (by rintro rfl; exact hn (by simp))]; exact hfe⟩
  · intro e' he' hnC
    have h1 : e'.eid ≠ e.eid := fun hh => hnC (by rw [c.eq he' (c.cs.subset heC) hh]; exact heC)
    rw [Function.update_of_ne h1]
    exact h.non e' he' hnC
  · intro i hi
    obtain ⟨r1, b', r2, r3, r4, r5⟩ := h.wait i (List.mem_cons_of_mem _ hi)
    have hib : i ≠ b := by rintro rfl; exact hbB hi
    refine ⟨by rw [Function.update_of_ne hib]; exact r1, b', (hB i hib).trans r2, r3, r4, ?_⟩
    intro id hid
    obtain ⟨e', he', s1, s2⟩ := r5 id hid
    rcases List.mem_cons.1 he' with rfl | he'
    · exact absurd ((hs e' i s2).1 rfl) hib
    · exact ⟨e', he', s1, s2⟩
  · intro p hp
    rcases Multiset.mem_add.1 hp with hp | hp
    · exact h.level p hp
    · exact hG'.1 p hp
  · intro X
    refine acc_step (h.acc X) ?_ (hG'.2 X) (h0 X)
    have := cnt_edge (sx := sx) [] e E (b :: B) X
    rw [List.nil_append, List.nil_append] at this
    rw [this, cnt_bound]; ring
  · intro e' i hsol
    have h1 := h.solid e' i hsol
    have h2 := hs e' i hsol
    rw [List.mem_cons, List.mem_cons] at h1
    constructor
    · intro he'
      rcases h1.1 (Or.inr he') with hh | hh
      · rw [← h2] at hh; subst hh; exact absurd he' heE
      · exact hh
    · intro hi
      rcases h1.2 (Or.inr hi) with hh | hh
      · rw [h2] at hh; subst hh; exact absurd hi hbB
      · exact hh

/-- Joining two bounds without edges. -/
theorem PInv.join (c : PCtx ael0 C obl sx wd tp y) {b1 b2 : Nat} (h : PInv ael0 C obl sx wd tp y em F st f act tip Epre E L0 (b1 :: b2 :: B))
    (hd : wd b1 = - wd b2) (hs1 : ∀ e, ¬ Solid C obl sx tp e b1) (hs2 : ∀ e, ¬ Solid C obl sx tp e b2)
    (h0 : ∀ X, ¬ (sx b1 < X ↔ sx b2 < X) → cnt sx E B X = 0) :
    ∃ st' F' act', st.join b1 b2 y = some st' ∧ PInv ael0 C obl sx wd tp y em F' st' f act' tip Epre E L0 B := by
  obtain ⟨q1, bb, q2, q3, q4, q5⟩ := h.wait b1 (by simp)
  obtain ⟨r1, bc, r2, r3, r4, r5⟩ := h.wait b2 (by simp)
  have hc1 : bb.currEdge = none := by
    rw [Option.eq_none_iff_forall_ne_some]
    intro id hid
    obtain ⟨e, he, _, h2⟩ := q5 id hid
    exact hs1 e h2
  have hc2 : bc.currEdge = none := by
    rw [Option.eq_none_iff_forall_ne_some]
    intro id hid
    obtain ⟨e, he, _, h2⟩ := r5 id hid
    exact hs2 e h2
  have ht1 : tp b1 = ⟨sx b1, y⟩ := (c.tipB b1 (h.inObl b1 (by simp))).resolve_right (fun ⟨e, he⟩ => hs1 e he)
  have ht2 : tp b2 = ⟨sx b2, y⟩ := (c.tipB b2 (h.inObl b2 (by simp))).resolve_right (fun ⟨e, he⟩ => hs2 e he)
  have hBnd : (b1 :: b2 :: B).Nodup := (List.nodup_append.1 h.rep.2.1).2.1
  rw [List.nodup_cons, List.nodup_cons, List.mem_cons, not_or] at hBnd
  obtain ⟨o', j1, j2, j3, j4, j5, j6⟩ := Outs.join_spec h.poly hBnd.1.1 (h.repAct b1 (by simp)) (h.repAct b2 (by simp)) q2 r2
    (by rw [Bound.isUp, Bound.isUp, q4, r4]; exact opposite (c.dirB b1 (h.inObl b1 (by simp))) (c.dirB b2 (h.inObl b2 (by simp))) hd) y
    (by rw [q1, r1, q3, r3, ht1, ht2]; intro hx; rw [hx]) (by rw [q1, r1, q3, r3, ht1, ht2]; exact fun _ => ⟨rfl, rfl⟩)
    L0 B h.rep (fun k hk => h.poly.lt (h.repAct k hk))
  obtain ⟨G, hG⟩ : ∃ G, G = (if bb.isUp then conn (tip b1) (tip b2) else conn (tip b2) (tip b1)) := ⟨_, rfl⟩
  have hG' := conn_if bb.isUp (sx b1) (sx b2) y
  rw [← ht1, ← ht2, ← q1, ← r1, ← hG] at hG'
  rw [← hG, add_assoc] at j2
  have hcl : ∀ i bd, st.out.bounds[i]? = some bd → bd.currEdge = none → ∀ l, clearEdge { st with ael := l } i = l := by
    intro i bd hbd hcu l
    rw [clearEdge]
    simp only [hbd, Option.bind_some, hcu]
  refine ⟨{ st with out := o' }, F + G, act \ {b1, b2}, ?_, ?_⟩
  · rw [St.join, j1]
    simp only [Option.map_some]
    rw [hcl b2 bc r2 hc2, show clearEdge st b1 = st.ael from hcl b1 bb q2 hc1 st.ael]
  have hne : ∀ i, i ∉ b1 :: b2 :: B → i ≠ b1 ∧ i ≠ b2 ∧ i ∉ B := by
    intro i hi; simp only [List.mem_cons, not_or] at hi; exact hi
  refine ⟨h.ael, j2, j3, ?_, ?_, h.sub, h.lists, ?_, ?_, h.non, fun i hi => h.inObl i (by simp [hi]), ?_, ?_, ?_, ?_⟩
  · intro i hi
    have hnd := h.rep.2.1
    refine ⟨h.repAct i ?_, ?_⟩
    · simp only [List.mem_append, List.mem_cons] at hi ⊢; tauto
    · have hnd' := List.nodup_append.1 hnd
      rintro (rfl | hh)
      · rcases List.mem_append.1 hi with hi | hi
        · exact hnd'.2.2 _ hi _ (by simp) rfl
        · exact hBnd.1.2 hi
      · rw [Set.mem_singleton_iff] at hh
        subst hh
        rcases List.mem_append.1 hi with hi | hi
        · exact hnd'.2.2 _ hi _ (by simp) rfl
        · exact hBnd.2.1 hi
  · rintro i ⟨hi, hi'⟩ hnot
    have hnot' : i ∉ L0 ++ b1 :: b2 :: B := by
      simp only [List.mem_append, List.mem_cons, not_or] at hnot ⊢
      exact ⟨hnot.1, fun hh => hi' (Or.inl hh), fun hh => hi' (Or.inr hh), hnot.2⟩
    simp only
    rw [j6 i hnot']
    exact h.fresh i hi hnot'
  · intro e he hnE
    obtain ⟨i, b', s1, s2, s3, s4, s5, s6, s7⟩ := h.done e he hnE
    obtain ⟨n1, n2, n3⟩ := hne i s3
    obtain ⟨c', t1, t2, t3, t4⟩ := j5 i b' s4
    rw [if_neg (by tauto)] at t4
    refine ⟨i, c', s1, ⟨s2, ?_⟩, n3, t1, by rw [t4]; exact s5, by rw [t2]; exact s6, s7⟩
    rintro (hh | hh)
    · exact n1 hh
    · exact n2 hh
  · rintro i ⟨hi, hi'⟩
    rcases h.cover i hi with hb | he
    · rcases List.mem_cons.1 hb with hb | hb
      · exact absurd (Or.inl hb) hi'
      · rcases List.mem_cons.1 hb with hb | hb
        · exact absurd (Or.inr hb) hi'
        · exact Or.inl hb
    · exact Or.inr he
  · intro i hi
    obtain ⟨s1, b', s2, s3, s4, s5⟩ := h.wait i (List.mem_cons_of_mem _ (List.mem_cons_of_mem _ hi))
    obtain ⟨c', t1, t2, t3, t4⟩ := j5 i b' s2
    have n1 : i ≠ b1 := by rintro rfl; exact hBnd.1.2 hi
    have n2 : i ≠ b2 := by rintro rfl; exact hBnd.2.1 hi
    rw [if_neg (by tauto)] at t4
    exact ⟨s1, c', t1, by rw [t3]; exact s3, by rw [t2]; exact s4, by rw [t4]; exact s5⟩
  · intro p hp
    rcases Multiset.mem_add.1 hp with hp | hp
    · exact h.level p hp
    · exact hG'.1 p hp
  · intro X
    refine acc_step (h.acc X) ?_ (hG'.2 X) (h0 X)
    rw [cnt_bound, cnt_bound]; ring
  · intro e i hs
    rw [h.solid e i hs, List.mem_cons, List.mem_cons]
    constructor
    · rintro (rfl | rfl | hi)
      · exact absurd hs (hs1 e)
      · exact absurd hs (hs2 e)
      · exact hi
    · exact fun hi => Or.inr (Or.inr hi)

/-! ## edges and bounds that belong together are paired with each other -/

omit [FTrans K] [LawfulOrd K] in
theorem PInv.odd (h : PInv ael0 C obl sx wd tp y em F st f act tip Epre E L0 B) {e : Edge K} {i : Nat} (hs : Solid C obl sx tp e i)
    (h1 : cnt sx E B (sx i) = 1) : False := by
  have := h.acc (sx i)
  rw [h1, Nat.even_iff.1 hs.even] at this
  omega

omit [FTrans K] [LawfulOrd K] in
theorem PInv.solid_one {e : Edge K} {b : Nat} (h : PInv ael0 C obl sx wd tp y em F st f act tip Epre (e :: E) L0 (b :: B))
    (h1 : ∀ c ∈ E, e.currX ≤ c.currX ∧ sx b ≤ c.currX) (h2 : ∀ c ∈ B, e.currX ≤ sx c ∧ sx b ≤ sx c) {e' : Edge K} {i : Nat}
    (hs : Solid C obl sx tp e' i) : e' = e ↔ i = b := by
  have heC : e ∈ C := h.lists.subset (by simp)
  have hbO : b ∈ obl := h.inObl b (by simp)
  have hc : ∀ X, cnt sx (e :: E) (b :: B) X = cnt sx E B X + (if e.currX < X then 1 else 0) + (if sx b < X then 1 else 0) := by
    intro X
    have := cnt_edge (sx := sx) [] e E (b :: B) X
    rw [List.nil_append, List.nil_append] at this
    rw [this, cnt_bound]; ring
  constructor
  · rintro rfl
    by_contra hib
    rcases List.mem_cons.1 ((h.solid e' i hs).1 (by simp)) with hh | hh
    · exact hib hh
    · have hlt : sx b < sx i := lt_of_le_of_ne (h2 i hh).2 (fun hc => hib (hs.uniqB b hbO hc).symm)
      refine h.odd hs ?_
      rw [hc, cnt_zero (fun c hc => hs.x ▸ (h1 c hc).1) (fun c hc => hs.x ▸ (h2 c hc).1), if_neg (by rw [hs.x]; exact lt_irrefl _), if_pos hlt]
  · rintro rfl
    by_contra hne
    rcases List.mem_cons.1 ((h.solid e' i hs).2 (by simp)) with hh | hh
    · exact hne hh
    · have hlt : e.currX < sx i := lt_of_le_of_ne (hs.x ▸ (h1 e' hh).1) (fun hc => hne (hs.uniqE e heC hc).symm)
      refine h.odd hs ?_
      rw [hc, cnt_zero (fun c hc => (h1 c hc).2) (fun c hc => (h2 c hc).2), if_pos hlt, if_neg (lt_irrefl _)]

omit [FTrans K] [LawfulOrd K] in
theorem PInv.solid_open (c : PCtx ael0 C obl sx wd tp y) {e1 e2 : Edge K}
    (h : PInv ael0 C obl sx wd tp y em F st f act tip Epre (e1 :: e2 :: E) L0 B)
    (h0 : e1.currX ≤ e2.currX) (h1 : ∀ c ∈ E, e2.currX ≤ c.currX) (h2 : ∀ c ∈ B, e2.currX ≤ sx c ∧ e1.currX < sx c) (i : Nat) :
    ¬ Solid C obl sx tp e1 i ∧ ¬ Solid C obl sx tp e2 i := by
  have he1 : e1 ∈ C := h.lists.subset (by simp)
  constructor
  · intro hs
    have hi := (h.solid e1 i hs).1 (by simp)
    exact absurd hs.x (h2 i hi).2.ne
  · intro hs
    have hne : e1 ≠ e2 := by
      rintro rfl
      have := c.nodup.sublist h.lists
      rw [List.nodup_append] at this
      have := (List.nodup_cons.1 this.2.1).1
      simp at this
    have hlt : e1.currX < sx i := lt_of_le_of_ne (hs.x ▸ h0) (fun hc => hne (hs.uniqE e1 he1 hc))
    refine h.odd hs ?_
    have k1 := cnt_edge (sx := sx) [] e1 (e2 :: E) B (sx i)
    have k2 := cnt_edge (sx := sx) [] e2 E B (sx i)
    rw [List.nil_append, List.nil_append] at k1 k2
    rw [k1, k2, cnt_zero (fun c hc => hs.x ▸ h1 c hc) (fun c hc => hs.x ▸ (h2 c hc).1), if_pos hlt, if_neg (by rw [hs.x]; exact lt_irrefl _)]

omit [FTrans K] [LawfulOrd K] in
theorem PInv.solid_join {b1 b2 : Nat} (h : PInv ael0 C obl sx wd tp y em F st f act tip Epre E L0 (b1 :: b2 :: B))
    (h0 : sx b1 ≤ sx b2) (h1 : ∀ c ∈ E, sx b2 < c.currX) (e : Edge K) : ¬ Solid C obl sx tp e b1 ∧ ¬ Solid C obl sx tp e b2 := by
  constructor
  · intro hs
    have he := (h.solid e b1 hs).2 (by simp)
    exact absurd hs.x (lt_of_le_of_lt h0 (h1 e he)).ne'
  · intro hs
    have he := (h.solid e b2 hs).2 (by simp)
    exact absurd hs.x (h1 e he).ne'

/-- The whole loop. -/
theorem PInv.pair (c : PCtx ael0 C obl sx wd tp y) (hm : Match Edge.currX Edge.windDx sx wd E B) :
    ∀ (fuel : Nat) (F : Multiset (Piece K)) (st : St K) (f : Nat → Option Nat) (act : Set Nat) (tip : Nat → Vec2 K) (Epre : List (Edge K)) (L0 : List Nat),
    E.length + B.length ≤ fuel → PInv ael0 C obl sx wd tp y em F st f act tip Epre E L0 B →
    ∃ st' F' f' act' tip' Epre' L, pairItems y fuel st (items sx E B) = some st' ∧
      PInv ael0 C obl sx wd tp y em F' st' f' act' tip' Epre' [] L [] := by
  have hsplit : ∀ {P Q X : K}, ¬ (P < X ↔ Q < X) → X ≤ max P Q := by
    intro P Q X hh
    rw [le_max_iff]
    by_contra hc
    push Not at hc
    exact hh ⟨fun _ => hc.2, fun _ => hc.1⟩
  induction hm with
  | nil =>
    intro fuel F st f act tip Epre L0 _ h
    refine ⟨st, F, f, act, tip, Epre, L0, ?_, h⟩
    cases fuel <;> rfl
  | one e b E B hd h1 h2 h3 _ ih =>
    intro fuel F st f act tip Epre L0 hf h
    cases fuel with
    | zero => simp at hf
    | succ fuel =>
      obtain ⟨st', F', f', tip', g1, g2⟩ := h.attach c hd (fun e' i hs => h.solid_one h1 h2 hs) (fun X hX => by
        have hX := hsplit hX
        exact cnt_zero (fun a ha => hX.trans (max_le (h1 a ha).1 (h1 a ha).2)) (fun a ha => hX.trans (max_le (h2 a ha).1 (h2 a ha).2)))
      have hpair : pairItems y (fuel + 1) st (items sx (e :: E) (b :: B)) =
          (st.updateBound b e).bind (fun st' => pairItems y fuel st' (items sx E B)) := by
        have hsE : E.Pairwise (fun a b => a.currX ≤ b.currX) :=
          c.sorted.sublist (((List.sublist_cons_self e E).trans (List.sublist_append_right _ _)).trans h.lists)
        rcases lt_trichotomy e.currX (sx b) with hx | hx | hx
        · rw [items_edge sx e E (b :: B) (fun a ha => (h1 a ha).1), items_bound sx E b B (h3 hx) (fun a ha => (h2 a ha).2), pair_next]
          · rfl
          · intro a ha hax
            rcases List.mem_cons.1 ha with rfl | ha
            · exact absurd hax hx.ne'
            · rcases mem_items ha with ⟨a', _, rfl⟩ | ⟨a', ha', rfl⟩
              · rfl
              · exact absurd hax (lt_of_lt_of_le hx (h2 a' ha').2).ne'
          · intro a ha
            rcases List.mem_cons.1 ha with rfl | ha
            · exact hx.le
            · exact (h2 a ha).1
        · exact pair_eq y fuel st sx e b E B hx hsE (fun a ha => (h1 a ha).1) (fun a ha => (h2 a ha).1)
        · rw [items_bound sx (e :: E) b B ?_ (fun a ha => (h2 a ha).2), items_edge sx e E B (fun a ha => (h1 a ha).1) (fun a ha => (h2 a ha).1),
            pair_next]
          · rfl
          · intro a ha hax
            rcases List.mem_cons.1 ha with rfl | ha
            · exact absurd hax hx.ne'
            · rcases mem_items ha with ⟨a', ha', rfl⟩ | ⟨a', ha', rfl⟩
              · exact absurd hax (lt_of_lt_of_le hx (h1 a' ha').1).ne'
              · rfl
          · intro a ha
            rcases List.mem_cons.1 ha with rfl | ha
            · exact hx
            · exact lt_of_lt_of_le hx (h1 a ha).1
      rw [hpair, g1]
      exact ih fuel F' st' f' act tip' _ _ (by simp at hf; omega) g2
  | open2 e1 e2 E B hd hx h1 h2 _ ih =>
    intro fuel F st f act tip Epre L0 hf h
    cases fuel with
    | zero => simp at hf
    | succ fuel =>
      have hsol := fun i => h.solid_open c hx h1 h2 i
      obtain ⟨F', f', act', tip', g⟩ := PInv.newOutput (k := []) c h hd (fun i => (hsol i).1) (fun i => (hsol i).2) (fun X hX => by
        have hX := hsplit hX
        rw [max_eq_right hx] at hX
        exact cnt_zero (fun a ha => hX.trans (h1 a (by simpa using ha))) (fun a ha => hX.trans (h2 a ha).1))
      have hpair : pairItems y (fuel + 1) st (items sx (e1 :: e2 :: E) B) = (some (st.newOutput e1 e2)).bind (fun st' => pairItems y fuel st' (items sx E B)) := by
        rw [items_edge sx e1 (e2 :: E) B ?_ (fun a ha => (h2 a ha).2.le), items_edge sx e2 E B h1 (fun a ha => (h2 a ha).1), pair_next]
        · rfl
        · intro a ha hax
          rcases List.mem_cons.1 ha with rfl | ha
          · rfl
          · rcases mem_items ha with ⟨a', ha', rfl⟩ | ⟨a', ha', rfl⟩
            · rfl
            · exact absurd hax (h2 a' ha').2.ne'
        · intro a ha
          rcases List.mem_cons.1 ha with rfl | ha
          · exact hx
          · exact hx.trans (h1 a ha)
      rw [hpair, Option.bind_some]
      exact ih fuel F' _ f' act' tip' _ _ (by simp at hf; omega) g
  | join2 b1 b2 E B hd hx h1 h2 _ ih =>
    intro fuel F st f act tip Epre L0 hf h
    cases fuel with
    | zero => simp at hf
    | succ fuel =>
      have hsol := fun e => h.solid_join hx h1 e
      obtain ⟨st', F', act', g1, g2⟩ := h.join c hd (fun e => (hsol e).1) (fun e => (hsol e).2) (fun X hX => by
        have hX := hsplit hX
        rw [max_eq_right hx] at hX
        exact cnt_zero (fun a ha => hX.trans (h1 a ha).le) (fun a ha => hX.trans (h2 a ha)))
      have hpair : pairItems y (fuel + 1) st (items sx E (b1 :: b2 :: B)) = (st.join b1 b2 y).bind (fun st' => pairItems y fuel st' (items sx E B)) := by
        rw [items_bound sx E b1 (b2 :: B) (fun a ha => lt_of_le_of_lt hx (h1 a ha)) ?_, items_bound sx E b2 B h1 h2, pair_next]
        · rfl
        · intro a ha hax
          rcases List.mem_cons.1 ha with rfl | ha
          · rfl
          · rcases mem_items ha with ⟨a', ha', rfl⟩ | ⟨a', ha', rfl⟩
            · exact absurd hax (lt_of_le_of_lt hx (h1 a' ha')).ne'
            · rfl
        · intro a ha
          rcases List.mem_cons.1 ha with rfl | ha
          · exact hx
          · exact hx.trans (h2 a ha)
      rw [hpair, g1]
      exact ih fuel F' st' f act' tip _ _ (by simp at hf; omega) g2

end

end River
