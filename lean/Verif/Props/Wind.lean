import Verif.Spec.Wind
import Verif.Model.Rect
import Mathlib.Algebra.Ring.Int.Parity
import Mathlib.Data.List.Sort
import Mathlib.Tactic

/-! # Winding counts and contributing edges (C34, C35, C36, C38) -/

set_option linter.unusedSectionVars false

namespace River
variable {K : Type}

/-! ## winding numbers -/

theorem wn_nil (t : PathType) : wn t ([] : List (Edge K)) = 0 := rfl

theorem wn_append (t : PathType) (a b : List (Edge K)) : wn t (a ++ b) = wn t a + wn t b := by
  simp [wn, List.filter_append]

theorem wn_cons (t : PathType) (e : Edge K) (l : List (Edge K)) :
    wn t (e :: l) = (if e.ptype = t then e.windDx else 0) + wn t l := by
  by_cases h : e.ptype = t <;> simp [wn, h]

theorem wn_eq_zero_of (t : PathType) (l : List (Edge K)) (h : ∀ e ∈ l, e.ptype ≠ t) : wn t l = 0 := by
  have : l.filter (fun e => decide (e.ptype = t)) = [] := by
    simp only [List.filter_eq_nil_iff, decide_eq_true_eq]; exact h
  simp [wn, this]

theorem wn_congr (t : PathType) (a b : List (Edge K)) (h : a.map Edge.plain = b.map Edge.plain) : wn t a = wn t b := by
  induction a generalizing b with
  | nil => cases b with
    | nil => rfl
    | cons _ _ => simp at h
  | cons x a ih =>
    cases b with
    | nil => simp at h
    | cons y b =>
      simp only [List.map_cons, List.cons.injEq] at h
      obtain ⟨h1, h2⟩ := h
      have hp : x.plain.ptype = y.plain.ptype := by rw [h1]
      have hd : x.plain.windDx = y.plain.windDx := by rw [h1]
      change x.ptype = y.ptype at hp
      change x.windDx = y.windDx at hd
      rw [wn_cons, wn_cons, ih b h2, hp, hd]

theorem other_ne (t : PathType) : t.other ≠ t := by cases t <;> decide

theorem ne_iff_other (s t : PathType) : s ≠ t ↔ s = t.other := by cases s <;> cases t <;> decide

theorem countsOk_congr (fr : FillRule) (a b : List (Edge K)) (e : Edge K) (h : a.map Edge.plain = b.map Edge.plain) :
    CountsOk fr a e ↔ CountsOk fr b e := by
  have h1 := fun t => wn_congr t a b h
  have h2 : ∀ t, wn t (a ++ [e]) = wn t (b ++ [e]) := fun t => by rw [wn_append, wn_append, h1]
  cases fr <;> simp only [CountsOk, h1, h2]

theorem countsOk_bound (fr : FillRule) (a : List (Edge K)) (e : Edge K) (b : Option Nat) :
    CountsOk fr a { e with bound := b } ↔ CountsOk fr a e := by
  have h2 : ∀ t, wn t (a ++ [{ e with bound := b }]) = wn t (a ++ [e]) := fun t => by
    rw [wn_append, wn_append]; simp [wn_cons, wn_nil]
  cases fr <;> simp only [CountsOk, h2]

/-! ## one edge -/

theorem splitLast_some {α} (p : α → Bool) (l : List α) (a : α) (post : List α) (h : splitLast p l = some (a, post)) :
    ∃ pre, l = pre ++ a :: post ∧ p a = true ∧ ∀ x ∈ post, p x = false := by
  induction l with
  | nil => simp [splitLast] at h
  | cons x l ih =>
    rw [splitLast] at h
    cases hs : splitLast p l with
    | some r =>
      rw [hs] at h
      simp only [Option.some.injEq] at h
      obtain ⟨pre, h1, h2, h3⟩ := ih (by rw [hs, h])
      exact ⟨x :: pre, by rw [h1]; rfl, h2, h3⟩
    | none =>
      rw [hs] at h
      by_cases hp : p x = true
      · simp only [hp, if_true, Option.some.injEq, Prod.mk.injEq] at h
        obtain ⟨rfl, rfl⟩ := h
        refine ⟨[], rfl, hp, ?_⟩
        clear ih
        intro z hz
        by_contra hne
        have : ∀ (m : List α), z ∈ m → splitLast p m ≠ none := by
          intro m
          induction m with
          | nil => simp
          | cons w m ihm =>
            intro hm
            rw [splitLast]
            cases hsm : splitLast p m with
            | some r => simp
            | none =>
              rcases List.mem_cons.mp hm with rfl | hm
              · simp only [Bool.not_eq_false] at hne; simp [hne]
              · exact absurd hsm (ihm hm)
        exact this _ hz hs
      · simp [hp] at h

theorem splitLast_none {α} (p : α → Bool) (l : List α) (h : splitLast p l = none) : ∀ x ∈ l, p x = false := by
  induction l with
  | nil => simp
  | cons x l ih =>
    rw [splitLast] at h
    cases hs : splitLast p l with
    | some r => rw [hs] at h; simp at h
    | none =>
      rw [hs] at h
      by_cases hp : p x = true
      · simp [hp] at h
      · intro z hz
        rcases List.mem_cons.mp hz with rfl | hz
        · simpa using hp
        · exact ih hs z hz

theorem wind2_sum (fr : FillRule) (hfr : fr ≠ .evenOdd) (pt : PathType) (acc : Int) (l : List (Edge K)) :
    wind2 fr pt acc l = acc + wn pt.other l := by
  induction l generalizing acc with
  | nil => simp [wind2, wn_nil]
  | cons e l ih =>
    have hstep : wind2 fr pt acc (e :: l) = wind2 fr pt (if e.ptype ≠ pt then acc + e.windDx else acc) l := by
      simp [wind2, hfr]
    rw [hstep, ih, wn_cons]
    by_cases h : e.ptype ≠ pt
    · rw [if_pos h, if_pos ((ne_iff_other _ _).mp h)]; ring
    · rw [if_neg h, if_neg (fun hc => h ((ne_iff_other _ _).mpr hc))]; ring

theorem wind2_parity (pt : PathType) (acc : Int) (l : List (Edge K)) (hd : DirsOk l) (hacc : acc = 0 ∨ acc = 1) :
    (wind2 .evenOdd pt acc l = 0 ∨ wind2 .evenOdd pt acc l = 1) ∧
      (wind2 .evenOdd pt acc l = 1 ↔ Odd (acc + wn pt.other l)) := by
  induction l generalizing acc with
  | nil =>
    simp only [wind2, List.foldl_nil, wn_nil, add_zero]
    refine ⟨hacc, ?_⟩
    rcases hacc with rfl | rfl <;> decide
  | cons e l ih =>
    have hstep : wind2 .evenOdd pt acc (e :: l) =
        wind2 .evenOdd pt (if e.ptype ≠ pt then (if acc = 0 then 1 else 0) else acc) l := by
      simp [wind2]
    have hde := hd e (by simp)
    have hdl : DirsOk l := fun x hx => hd x (by simp [hx])
    rw [hstep, wn_cons]
    by_cases h : e.ptype ≠ pt
    · rw [if_pos h, if_pos ((ne_iff_other _ _).mp h)]
      have key := ih (if acc = 0 then 1 else 0) hdl (by rcases hacc with rfl | rfl <;> simp)
      refine ⟨key.1, key.2.trans ?_⟩
      rcases hacc with rfl | rfl <;> rcases hde with h1 | h1 <;> rw [h1] <;>
        simp only [if_true, one_ne_zero, if_false, Int.odd_iff] <;> omega
    · rw [if_neg h, if_neg (fun hc => h ((ne_iff_other _ _).mpr hc))]
      have key := ih acc hdl hacc
      rw [zero_add]; exact key

/-- The winding count arithmetic of `calc_windcnt`: with `w` the winding number left of the neighbour `l`. -/
theorem windFrom_spec (w ld ed lc : Int) (hl : ld = 1 ∨ ld = -1) (he : ed = 1 ∨ ed = -1)
    (h : (lc = w ∧ (w + ld).natAbs < w.natAbs) ∨ (lc = w + ld ∧ w.natAbs < (w + ld).natAbs)) :
    (windFrom lc ld ed = w + ld ∧ (w + ld + ed).natAbs < (w + ld).natAbs) ∨
      (windFrom lc ld ed = w + ld + ed ∧ (w + ld).natAbs < (w + ld + ed).natAbs) := by
  unfold windFrom
  rcases hl with rfl | rfl <;> rcases he with rfl | rfl <;> rcases h with ⟨rfl, h⟩ | ⟨rfl, h⟩ <;>
    split_ifs <;> omega

/-- **C34, one edge.** If the edges to the left carry the right counts, `calc_windcnt` gives the edge the right counts. -/
theorem calcWind_ok (fr : FillRule) (left : List (Edge K)) (e : Edge K) (hd : DirsOk left)
    (hde : e.windDx = 1 ∨ e.windDx = -1) (hok : AllCountsOk fr left) : CountsOk fr left (calcWind fr left e) := by
  cases hs : splitLast (fun l => decide (l.ptype = e.ptype)) left with
  | none =>
    have hno : ∀ x ∈ left, x.ptype ≠ e.ptype := by
      intro x hx; simpa using splitLast_none _ _ hs x hx
    have h0 := wn_eq_zero_of e.ptype left hno
    have hc : calcWind fr left e = { e with windCnt := e.windDx, windCnt2 := wind2 fr e.ptype 0 left } := by
      rw [calcWind, hs]
    rw [hc]
    cases fr with
    | evenOdd =>
      have key := wind2_parity e.ptype 0 left hd (Or.inl rfl)
      rw [zero_add] at key
      exact ⟨rfl, key.1, key.2⟩
    | _ =>
      refine ⟨Or.inr ⟨?_, ?_⟩, ?_⟩
      · rw [wn_append, h0, wn_cons, wn_nil]; simp
      · rw [wn_append, h0, wn_cons, wn_nil]
        rcases hde with h | h <;> simp [h]
      · rw [wind2_sum _ (by decide)]; simp
  | some r =>
    obtain ⟨l, between⟩ := r
    obtain ⟨pre, h1, h2, h3⟩ := splitLast_some _ _ _ _ hs
    simp only [decide_eq_true_eq, decide_eq_false_iff_not] at h2 h3
    have hl := hok pre l between h1
    have hdl := hd l (by rw [h1]; simp)
    have hdb : DirsOk between := fun x hx => hd x (by rw [h1]; simp [hx])
    have hb0 := wn_eq_zero_of e.ptype between h3
    have hw : wn e.ptype left = wn e.ptype pre + l.windDx := by
      rw [h1, wn_append, wn_cons, hb0, if_pos h2]; ring
    have hw2 : wn e.ptype.other left = wn e.ptype.other pre + wn e.ptype.other between := by
      rw [h1, wn_append, wn_cons, if_neg (by rw [h2]; exact (other_ne _).symm)]; ring
    have hc : calcWind fr left e = { e with
        windCnt := if fr = .evenOdd then e.windDx else windFrom l.windCnt l.windDx e.windDx
        windCnt2 := wind2 fr e.ptype l.windCnt2 between } := by rw [calcWind, hs]
    rw [hc]
    cases fr with
    | evenOdd =>
      obtain ⟨_, hl2, hl3⟩ := hl
      have key := wind2_parity e.ptype l.windCnt2 between hdb hl2
      refine ⟨rfl, key.1, key.2.trans ?_⟩
      rw [h2] at hl3
      show Odd (l.windCnt2 + wn e.ptype.other between) ↔ Odd (wn e.ptype.other left)
      rw [hw2, Int.odd_add, Int.odd_add, ← hl3]
      rcases hl2 with h | h <;> simp [h]
    | nonZero | positive | negative =>
      obtain ⟨hl1, hl2⟩ := hl
      have hpl : wn l.ptype (pre ++ [l]) = wn e.ptype pre + l.windDx := by
        rw [wn_append, wn_cons, wn_nil, h2]; simp
      rw [hpl, h2] at hl1
      have key := windFrom_spec (wn e.ptype pre) l.windDx e.windDx l.windCnt hdl hde hl1
      have hwe : ∀ e' : Edge K, e'.ptype = e.ptype → e'.windDx = e.windDx →
          wn e.ptype (left ++ [e']) = wn e.ptype pre + l.windDx + e.windDx := by
        intro e' h4 h5; rw [wn_append, hw, wn_cons, wn_nil, if_pos h4, h5]; ring
      rw [← hc]
      have e1 := congrArg (fun z => z.ptype) hc
      have e2 := congrArg (fun z => z.windDx) hc
      have e3 := congrArg (fun z => z.windCnt) hc
      have e4 := congrArg (fun z => z.windCnt2) hc
      simp only [reduceCtorEq, if_false] at e1 e2 e3 e4
      rw [wind2_sum _ (by decide), hl2, h2, ← hw2] at e4
      simp only [CountsOk]
      rw [e1, e3, e4, hwe _ e1 e2, hw]
      exact ⟨key, rfl⟩

/-! ## the whole list -/

theorem allCountsOk_nil (fr : FillRule) : AllCountsOk fr ([] : List (Edge K)) := by
  intro pre e post h; simp at h

theorem allCountsOk_snoc (fr : FillRule) (l : List (Edge K)) (e : Edge K) (hl : AllCountsOk fr l)
    (he : CountsOk fr l e) : AllCountsOk fr (l ++ [e]) := by
  intro pre x post h
  rcases List.eq_nil_or_concat post with rfl | ⟨q, z, rfl⟩
  · have := List.append_inj' (show l ++ [e] = pre ++ [x] from h) rfl
    simp only [List.cons.injEq, and_true] at this
    obtain ⟨rfl, rfl⟩ := this
    exact he
  · have : l ++ [e] = (pre ++ x :: q) ++ [z] := by rw [h]; simp
    exact hl pre x q (List.append_inj' this rfl).1

theorem calcWind_plain (fr : FillRule) (left : List (Edge K)) (e : Edge K) : (calcWind fr left e).plain = e.plain := by
  unfold calcWind; split <;> rfl

theorem calcWind_bound (fr : FillRule) (left : List (Edge K)) (e : Edge K) : (calcWind fr left e).bound = e.bound := by
  unfold calcWind; split <;> rfl

section ordered
variable [FNum K] [LinearOrder K] [LawfulOrd K]

/-- What both loops of `recalc_windcnt` maintain: the passed part is right, the rest is right except at the abscissas
still to come, and the list is the old one up to counts. -/
def RecalcInv (fr : FillRule) (ael : List (Edge K)) (xs : List K) (done rest : List (Edge K)) : Prop :=
  DirsOk (done ++ rest) ∧ rest.Pairwise (fun a b => a.currX ≤ b.currX) ∧ AllCountsOk fr done ∧
    (∀ pre e post, rest = pre ++ e :: post → e.currX ∉ xs → CountsOk fr (done ++ pre) e) ∧
    (done ++ rest).map Edge.plain = ael.map Edge.plain

theorem recalcX_ok (fr : FillRule) (ael : List (Edge K)) (x : K) (xs : List K) (done rest : List (Edge K))
    (hxs : (x :: xs).Pairwise (· ≤ ·)) (h : RecalcInv fr ael (x :: xs) done rest) :
    RecalcInv fr ael xs (recalcX fr x done rest).1 (recalcX fr x done rest).2 := by
  induction rest generalizing done with
  | nil =>
    obtain ⟨h1, h2, h3, h4, h5⟩ := h
    exact ⟨h1, h2, h3, by intro pre e post h; simp [recalcX] at h, h5⟩
  | cons e rest ih =>
    obtain ⟨hd, hrest, hdone, hok, hplainAll⟩ := h
    rw [recalcX]
    by_cases hlt : e.currX < x
    · simp only [lt_eq_decide, hlt, decide_true, if_true]
      have hnot : e.currX ∉ x :: xs := by
        intro hm
        rcases List.mem_cons.mp hm with h | h
        · exact absurd h (ne_of_lt hlt)
        · exact absurd (lt_of_lt_of_le hlt ((List.pairwise_cons.mp hxs).1 _ h)) (lt_irrefl _)
      refine ih (done ++ [e]) ⟨by simpa using hd, (List.pairwise_cons.mp hrest).2,
        allCountsOk_snoc fr done e hdone (by simpa using hok [] e rest rfl hnot), ?_, by simpa using hplainAll⟩
      intro pre z post h hz
      have := hok (e :: pre) z post (by rw [h]; rfl) hz
      simpa using this
    · by_cases hgt : x < e.currX
      · simp only [lt_eq_decide, hlt, hgt, decide_true, decide_false, Bool.false_eq_true, if_true, if_false]
        refine ⟨hd, hrest, hdone, ?_, hplainAll⟩
        intro pre z post h hz
        refine hok pre z post h ?_
        intro hm
        rcases List.mem_cons.mp hm with h1 | h1
        · have hmem : z ∈ e :: rest := by rw [h]; simp
          have hle : e.currX ≤ z.currX := by
            rcases List.mem_cons.mp hmem with rfl | h2
            · exact le_refl _
            · exact (List.pairwise_cons.mp hrest).1 z h2
          rw [h1] at hle
          exact absurd (lt_of_lt_of_le hgt hle) (lt_irrefl _)
        · exact hz h1
      · simp only [lt_eq_decide, hlt, hgt, decide_false, Bool.false_eq_true, if_false]
        have hplain : (calcWind fr done { e with bound := none }).plain = e.plain := calcWind_plain _ _ _
        have hdx : (calcWind fr done { e with bound := none }).windDx = e.windDx := by
          have h : (calcWind fr done { e with bound := none }).plain.windDx = e.plain.windDx := by rw [hplain]
          exact h
        have hdd : DirsOk done := fun z hz => hd z (by simp [hz])
        have hde := hd e (by simp)
        have hcw := calcWind_ok fr done { e with bound := none } hdd hde hdone
        refine ih _ ⟨?_, (List.pairwise_cons.mp hrest).2, allCountsOk_snoc fr done _ hdone hcw, ?_, ?_⟩
        · intro z hz
          simp only [List.append_assoc, List.cons_append, List.nil_append, List.mem_append, List.mem_cons] at hz
          rcases hz with h | rfl | h
          · exact hdd z h
          · rw [hdx]; exact hde
          · exact hd z (by simp [h])
        · intro pre z post h hz
          have h1 := hok (e :: pre) z post (by rw [h]; rfl) hz
          refine (countsOk_congr fr _ _ z ?_).mp h1
          simp [hplain]
        · rw [← hplainAll]; simp [hplain]

theorem recalcGo_ok (fr : FillRule) (ael : List (Edge K)) (xs : List K) (done rest : List (Edge K))
    (hxs : xs.Pairwise (· ≤ ·)) (h : RecalcInv fr ael xs done rest) :
    AllCountsOk fr (recalcGo fr xs done rest) ∧
      (recalcGo fr xs done rest).map Edge.plain = ael.map Edge.plain := by
  induction xs generalizing done rest with
  | nil =>
    rw [recalcGo]
    obtain ⟨-, -, hdone, hok, hp⟩ := h
    refine ⟨?_, hp⟩
    clear hxs hp
    induction rest generalizing done with
    | nil => simpa using hdone
    | cons e rest ih =>
      have := ih (done ++ [e]) (allCountsOk_snoc fr done e hdone (by simpa using hok [] e rest rfl (by simp)))
        (by intro pre x post h hx; have := hok (e :: pre) x post (by rw [h]; rfl) hx; simpa using this)
      simpa using this
  | cons x xs ih =>
    rw [recalcGo]
    exact ih _ _ (List.pairwise_cons.mp hxs).2 (recalcX_ok fr ael x xs done rest hxs h)

theorem insertNum_perm (x : K) (l : List K) : (insertNum x l).Perm (x :: l) := by
  induction l with
  | nil => exact List.Perm.refl _
  | cons y l ih =>
    rw [insertNum]; split
    · exact (ih.cons y).trans (List.Perm.swap _ _ _)
    · exact List.Perm.refl _

theorem sortNum_perm (l : List K) : (sortNum l).Perm l := by
  induction l with
  | nil => exact List.Perm.refl _
  | cons x l ih => exact (insertNum_perm x _).trans (ih.cons x)

theorem insertNum_sorted (x : K) (l : List K) (h : l.Pairwise (· ≤ ·)) : (insertNum x l).Pairwise (· ≤ ·) := by
  induction l with
  | nil => simp [insertNum]
  | cons y l ih =>
    rw [insertNum]
    simp only [lt_eq_decide, decide_eq_true_eq]
    split
    · rename_i hlt
      rw [List.pairwise_cons] at h ⊢
      refine ⟨?_, ih h.2⟩
      intro z hz
      rcases List.mem_cons.mp ((insertNum_perm x l).mem_iff.mp hz) with rfl | hz
      · exact hlt.le
      · exact h.1 z hz
    · rename_i hlt
      rw [List.pairwise_cons]
      refine ⟨?_, h⟩
      intro z hz
      rcases List.mem_cons.mp hz with rfl | hz
      · exact not_lt.mp hlt
      · exact (not_lt.mp hlt).trans ((List.pairwise_cons.mp h).1 z hz)

theorem sortNum_sorted (l : List K) : (sortNum l).Pairwise (· ≤ ·) := by
  induction l with
  | nil => simp [sortNum]
  | cons x l ih => exact insertNum_sorted x _ ih

theorem uniqFrom_spec (x : K) (l : List K) (h : (x :: l).Pairwise (· ≤ ·)) :
    (∀ z, z ∈ x :: uniqFrom x l ↔ z ∈ x :: l) ∧ (x :: uniqFrom x l).Pairwise (· < ·) := by
  induction l generalizing x with
  | nil => simp [uniqFrom]
  | cons y l ih =>
    obtain ⟨h1, h2⟩ := List.pairwise_cons.mp h
    rw [uniqFrom]
    by_cases heq : x = y
    · simp only [eq_eq_decide, heq, decide_true, if_true]
      subst heq
      obtain ⟨h3, h4⟩ := ih x h2
      refine ⟨?_, h4⟩
      intro z; rw [h3]; simp
    · simp only [eq_eq_decide, heq, decide_false, Bool.false_eq_true, if_false]
      obtain ⟨h3, h4⟩ := ih y h2
      refine ⟨?_, ?_⟩
      · intro z; rw [List.mem_cons, h3, List.mem_cons (b := x)]
      · rw [List.pairwise_cons]
        refine ⟨?_, h4⟩
        intro z hz
        have hxy : x < y := lt_of_le_of_ne (h1 y (by simp)) heq
        rcases List.mem_cons.mp ((h3 z).mp hz) with rfl | hz
        · exact hxy
        · exact lt_of_lt_of_le hxy ((List.pairwise_cons.mp h2).1 z hz)

theorem uniqNum_spec (l : List K) (h : l.Pairwise (· ≤ ·)) :
    (∀ x, x ∈ uniqNum l ↔ x ∈ l) ∧ (uniqNum l).Pairwise (· < ·) := by
  cases l with
  | nil => simp [uniqNum]
  | cons x l => exact uniqFrom_spec x l h

/-- **C34.** `recalc_windcnt` on an active edge list ordered from left to right: if every edge whose abscissa is *not*
among the recorded changes already carried the right counts, afterwards *all* edges carry the right counts, and nothing
but the counts (and the attached output bounds) has changed. -/
theorem recalc_windcnt_ok (fr : FillRule) (changes : List K) (ael : List (Edge K)) (hd : DirsOk ael)
    (hsorted : ael.Pairwise (fun a b => a.currX ≤ b.currX))
    (hok : ∀ pre e post, ael = pre ++ e :: post → e.currX ∉ changes → CountsOk fr pre e) :
    AllCountsOk fr (recalcGo fr (uniqNum (sortNum changes)) [] ael) ∧
      (recalcGo fr (uniqNum (sortNum changes)) [] ael).map Edge.plain = ael.map Edge.plain := by
  obtain ⟨h1, h2⟩ := uniqNum_spec (sortNum changes) (sortNum_sorted changes)
  refine recalcGo_ok fr ael (uniqNum (sortNum changes)) [] ael (h2.imp le_of_lt)
    ⟨by simpa using hd, hsorted, allCountsOk_nil fr, ?_, by simp⟩
  intro pre e post h hn
  refine hok pre e post h ?_
  rw [h1, (sortNum_perm changes).mem_iff] at hn
  exact hn

end ordered

/-! ## contributing edges -/

theorem wn_snoc (t : PathType) (pre : List (Edge K)) (e : Edge K) :
    wn t (pre ++ [e]) = wn t pre + (if e.ptype = t then e.windDx else 0) := by
  rw [wn_append, wn_cons, wn_nil, add_zero]

/-- `is_contributing` in terms of the fill rule's verdict: the own count must be one at which membership changes, and the
other type must be inside (intersection), outside (union), … -/
theorem isContributing_iff (ct : ClipType) (fr : FillRule) (pre : List (Edge K)) (e : Edge K)
    (hde : e.windDx = 1 ∨ e.windDx = -1) (hok : CountsOk fr pre e) :
    isContributing ct fr e = true ↔
      ¬ (fr.inside (wn e.ptype pre) ↔ fr.inside (wn e.ptype pre + e.windDx)) ∧
      (match ct with
        | .none => False
        | .intersection => fr.inside (wn e.ptype.other pre)
        | .union => ¬ fr.inside (wn e.ptype.other pre)
        | .difference => (e.ptype = .subject ↔ ¬ fr.inside (wn e.ptype.other pre))
        | .xor => True) := by
  cases fr with
  | evenOdd =>
    obtain ⟨_, h2, h3⟩ := hok
    have h4 : ¬ (Odd (wn e.ptype pre) ↔ Odd (wn e.ptype pre + e.windDx)) := by
      rcases hde with h | h <;> rw [h, Int.odd_iff, Int.odd_iff] <;> omega
    have h5 : e.windCnt2 = 0 ↔ ¬ Odd (wn e.ptype.other pre) := by rw [← h3]; rcases h2 with h | h <;> simp [h]
    have h6 : (e.windCnt2 == 0) = decide (¬ Odd (wn e.ptype.other pre)) := by
      rw [← decide_eq_decide.mpr h5]; rfl
    cases ct <;> simp only [isContributing, FillRule.inside, h4, bne, h6] <;> by_cases hp : e.ptype = .subject <;>
      simp [hp]
  | nonZero | positive | negative =>
    obtain ⟨h1, h2⟩ := hok
    rw [wn_snoc, if_pos rfl] at h1
    simp only [isContributing, FillRule.inside, Bool.and_eq_true, beq_iff_eq, h2]
    refine and_congr ?_ ?_
    · clear h2
      generalize wn e.ptype pre = s at h1 ⊢
      rcases hde with h | h <;> rw [h] at h1 ⊢ <;> omega
    · generalize wn e.ptype.other pre = c
      cases ct <;> by_cases hp : e.ptype = .subject <;> simp [hp]

/-- **C35.** An edge that carries the right counts is used for output exactly when belonging to `subject OP clip` differs
between its left and its right side — for every operation, fill rule, path type and all winding numbers. -/
theorem contributing_iff_changes (ct : ClipType) (fr : FillRule) (pre : List (Edge K)) (e : Edge K)
    (hde : e.windDx = 1 ∨ e.windDx = -1) (hok : CountsOk fr pre e) :
    isContributing ct fr e = true ↔ ¬ (inResult ct fr pre ↔ inResult ct fr (pre ++ [e])) := by
  rw [isContributing_iff ct fr pre e hde hok]
  unfold inResult
  rw [wn_snoc, wn_snoc]
  cases hp : e.ptype with
  | subject =>
    simp only [if_true, reduceCtorEq, if_false, add_zero, PathType.other]
    generalize fr.inside (wn .subject pre) = p
    generalize fr.inside (wn .subject pre + e.windDx) = p'
    generalize fr.inside (wn .clip pre) = q
    cases ct <;> simp only [ClipType.op] <;> tauto
  | clip =>
    simp only [if_true, reduceCtorEq, if_false, add_zero, PathType.other]
    generalize fr.inside (wn .clip pre) = p
    generalize fr.inside (wn .clip pre + e.windDx) = p'
    generalize fr.inside (wn .subject pre) = q
    cases ct <;> simp only [ClipType.op] <;> tauto

theorem inResult_nil (ct : ClipType) (fr : FillRule) : ¬ inResult ct fr ([] : List (Edge K)) := by
  cases ct <;> cases fr <;> simp [inResult, ClipType.op, FillRule.inside, wn_nil]

/-- **C36.** At every position of a scan line (`pre`: the active edges to its left, `post`: to its right), the position
belongs to the result exactly when the number of output edges to its left is odd. -/
theorem inside_iff_odd (ct : ClipType) (fr : FillRule) (pre post : List (Edge K)) (hd : DirsOk (pre ++ post))
    (hok : AllCountsOk fr (pre ++ post)) : inResult ct fr pre ↔ Odd (pre.countP (isContributing ct fr)) := by
  induction pre using List.reverseRecOn generalizing post with
  | nil => simpa using inResult_nil ct fr
  | append_singleton pre e ih =>
    have h := ih (e :: post) (by simpa using hd) (by simpa using hok)
    have he := contributing_iff_changes ct fr pre e (hd e (by simp)) (hok pre e post (by simp))
    rw [List.countP_append, List.countP_singleton]
    by_cases hc : isContributing ct fr e = true
    · rw [if_pos hc, Nat.odd_add_one, ← h]
      have := he.mp hc; tauto
    · rw [if_neg hc, add_zero, ← h]
      tauto

/-- Part of **C36**: when the paths are closed — as many active edges of each type go up as go down — the number of output
edges on a scan line is even. -/
theorem contributing_even (ct : ClipType) (fr : FillRule) (ael : List (Edge K)) (hd : DirsOk ael)
    (hok : AllCountsOk fr ael) (hbal : ∀ t, wn t ael = 0) : Even (ael.countP (isContributing ct fr)) := by
  have h := inside_iff_odd ct fr ael [] (by simpa using hd) (by simpa using hok)
  rw [← Nat.not_odd_iff_even, ← h]
  cases ct <;> cases fr <;> simp [inResult, ClipType.op, FillRule.inside, hbal]

/-- **C36**, for an abscissa: on an ordered active edge list the points at abscissa `x` (not on an edge) belong to the
result exactly when an odd number of output edges lies to the left of `x`. -/
theorem inside_at_iff_odd [FNum K] [LinearOrder K] [LawfulOrd K] (ct : ClipType) (fr : FillRule) (ael : List (Edge K))
    (x : K) (hd : DirsOk ael) (hok : AllCountsOk fr ael) (hsorted : ael.Pairwise (fun a b => a.currX ≤ b.currX)) :
    inResult ct fr (ael.filter (fun e => decide (e.currX < x))) ↔
      Odd (ael.countP (fun e => decide (e.currX < x) && isContributing ct fr e)) := by
  have hsplit : ∀ l : List (Edge K), l.Pairwise (fun a b => a.currX ≤ b.currX) →
      l = l.filter (fun e => decide (e.currX < x)) ++ l.filter (fun e => !decide (e.currX < x)) := by
    intro l hl
    induction l with
    | nil => rfl
    | cons e l ih =>
      obtain ⟨h1, h2⟩ := List.pairwise_cons.mp hl
      by_cases he : e.currX < x
      · rw [List.filter_cons_of_pos (by simpa using he), List.filter_cons_of_neg (by simpa using he)]
        rw [List.cons_append, ← ih h2]
      · have hnil : l.filter (fun e => decide (e.currX < x)) = [] := by
          simp only [List.filter_eq_nil_iff, decide_eq_true_eq]
          intro z hz hlt
          exact he (lt_of_le_of_lt (h1 z hz) hlt)
        rw [List.filter_cons_of_neg (by simpa using he), List.filter_cons_of_pos (by simpa using he)]
        have := ih h2
        rw [hnil] at this ⊢
        rw [List.nil_append] at this ⊢
        rw [← this]
  have h0 := hsplit ael hsorted
  have := inside_iff_odd ct fr (ael.filter (fun e => decide (e.currX < x)))
    (ael.filter (fun e => !decide (e.currX < x))) (by rw [← h0]; exact hd) (by rw [← h0]; exact hok)
  rw [this, List.countP_filter]
  simp only [Bool.and_comm]

/-! ## exchanging subject and clip -/

/-- The same edge with the roles of subject and clip exchanged. -/
def Edge.swapType (e : Edge K) : Edge K := { e with ptype := e.ptype.other }

/-- `clip - subject` expressed with the roles exchanged. -/
def ClipType.opSwap (ct : ClipType) (s c : Prop) : Prop := ct.op c s

theorem wn_swap (t : PathType) (l : List (Edge K)) : wn t (l.map Edge.swapType) = wn t.other l := by
  induction l with
  | nil => rfl
  | cons e l ih =>
    rw [List.map_cons, wn_cons, wn_cons, ih]
    congr 1
    show (if e.ptype.other = t then e.windDx else 0) = _
    cases e.ptype <;> cases t <;> rfl

theorem other_other (t : PathType) : t.other.other = t := by cases t <;> rfl

/-- The counts that are right for an active edge list are right for the list with the roles exchanged. -/
theorem countsOk_swap (fr : FillRule) (pre : List (Edge K)) (e : Edge K) :
    CountsOk fr (pre.map Edge.swapType) e.swapType ↔ CountsOk fr pre e := by
  have h : ∀ t, wn t (pre.map Edge.swapType ++ [e.swapType]) = wn t.other (pre ++ [e]) := fun t => by
    rw [← wn_swap]; simp
  cases fr <;> simp only [CountsOk, h, wn_swap] <;> simp only [Edge.swapType, other_other]

/-- **C38.** For union, intersection and xor, exchanging the roles of subject and clip changes neither the result region at
any position nor the set of output edges; for difference the region becomes that of the opposite difference. -/
theorem swap_roles (ct : ClipType) (fr : FillRule) (ael : List (Edge K)) :
    (ct ≠ .difference →
      (∀ e ∈ ael, isContributing ct fr e.swapType = isContributing ct fr e) ∧
      (inResult ct fr (ael.map Edge.swapType) ↔ inResult ct fr ael)) ∧
    (ct = .difference →
      (inResult ct fr (ael.map Edge.swapType) ↔
        (fr.inside (wn .clip ael) ∧ ¬ fr.inside (wn .subject ael)))) := by
  refine ⟨fun h => ⟨fun e _ => ?_, ?_⟩, ?_⟩
  · cases ct <;> first | exact absurd rfl h | rfl
  · unfold inResult
    rw [wn_swap, wn_swap]
    cases ct <;> simp only [ClipType.op, PathType.other] <;> first | exact absurd rfl h | tauto
  · rintro rfl
    unfold inResult
    rw [wn_swap, wn_swap]
    simp only [ClipType.op, PathType.other]

/-- **C38**, winding counts: `calc_windcnt` does not care which of the two types is called subject. -/
theorem calcWind_swap (fr : FillRule) (left : List (Edge K)) (e : Edge K) :
    calcWind fr (left.map Edge.swapType) e.swapType = (calcWind fr left e).swapType := by
  have hp : ∀ a b : PathType, (a.other = b.other) ↔ (a = b) := by intro a b; cases a <;> cases b <;> decide
  have hw : ∀ (pt : PathType) (l : List (Edge K)) (acc : Int),
      wind2 fr pt.other acc (l.map Edge.swapType) = wind2 fr pt acc l := by
    intro pt l
    induction l with
    | nil => intro acc; rfl
    | cons x l ih =>
      intro acc
      simp only [wind2, List.map_cons, List.foldl_cons] at ih ⊢
      rw [← ih]
      simp only [Edge.swapType, ne_eq, hp]
  have hs : ∀ l : List (Edge K),
      splitLast (fun l => decide (l.ptype = e.swapType.ptype)) (l.map Edge.swapType) =
        (splitLast (fun l => decide (l.ptype = e.ptype)) l).map (fun r => (r.1.swapType, r.2.map Edge.swapType)) := by
    intro l
    induction l with
    | nil => rfl
    | cons x l ih =>
      rw [List.map_cons, splitLast, ih, splitLast]
      cases h : splitLast (fun l => decide (l.ptype = e.ptype)) l with
      | some r => rfl
      | none =>
        simp only [Option.map_none, Edge.swapType, hp]
        by_cases hx : x.ptype = e.ptype <;> simp [hx]
  unfold calcWind
  rw [hs]
  cases h : splitLast (fun l => decide (l.ptype = e.ptype)) left with
  | none =>
    simp only [Option.map_none, Edge.swapType, hw]
  | some r =>
    obtain ⟨l, between⟩ := r
    simp only [Option.map_some, Edge.swapType, hw]

/-! ## Concrete active edge lists -/

/-- An edge for the examples. -/
def demoEdge (i : Nat) (x : ℚ) (dx : Int) (t : PathType) : Edge ℚ :=
  { eid := i, bot := ⟨x, 0⟩, top := ⟨x, 1⟩, currX := x, windDx := dx, ring := 0, vtop := 0, ptype := t }

/-- Two overlapping subject squares and a clip square, none of whose edges has counts yet. -/
def demoAel : List (Edge ℚ) :=
  [demoEdge 0 0 1 .subject, demoEdge 1 1 1 .clip, demoEdge 2 2 1 .subject, demoEdge 3 3 (-1) .clip,
    demoEdge 4 4 (-1) .subject, demoEdge 5 4 (-1) .subject]

example : DirsOk demoAel ∧ demoAel.Pairwise (fun a b => a.currX ≤ b.currX) ∧
    (recalcGo .nonZero (uniqNum (sortNum [4, 0, 1, 3, 2, 4])) [] demoAel).map (fun e => (e.windCnt, e.windCnt2)) =
      [(1, 0), (1, 1), (2, 1), (1, 2), (2, 0), (1, 0)] ∧
    (∀ pre e post, demoAel = pre ++ e :: post → e.currX ∉ [4, 0, 1, 3, 2, 4] → CountsOk .nonZero pre e) := by
  refine ⟨by unfold DirsOk; decide +kernel, by decide +kernel, by decide +kernel, ?_⟩
  intro pre e post h hn
  exfalso
  have he : e ∈ demoAel := by rw [h]; simp
  have : ∀ e ∈ demoAel, e.currX ∈ ([4, 0, 1, 3, 2, 4] : List ℚ) := by decide +kernel
  exact hn (this e he)

end River
