import Verif.Spec.Linked
import Verif.Model.Sweep
import Verif.Lemmas.Fin
import Mathlib.Logic.Function.Basic
import Mathlib.Data.List.Nodup

/-! # C33: the linked lists of active edges and of output bounds -/

namespace River.Links

/-- `Chain` with a given successor of the last node. -/
def ChainE (h : Links) : Option Nat → List Nat → Option Nat → Prop
  | _, [], _ => True
  | before, a :: l, after => h.prev a = before ∧ h.next a = l.head?.or after ∧ ChainE h (some a) l after

theorem chain_iff (h : Links) (b : Option Nat) (l : List Nat) : h.Chain b l ↔ h.ChainE b l none := by
  induction l generalizing b with
  | nil => simp [Chain, ChainE]
  | cons a l ih => simp [Chain, ChainE, ih]

theorem chainE_append (h : Links) (b after : Option Nat) (p q : List Nat) :
    h.ChainE b (p ++ q) after ↔ h.ChainE b p (q.head?.or after) ∧ h.ChainE (p.getLast?.or b) q after := by
  induction p generalizing b with
  | nil => simp [ChainE]
  | cons a p ih =>
    simp only [List.cons_append, ChainE, ih, and_assoc]
    cases p with
    | nil => simp
    | cons c p =>
      simp only [List.cons_append, List.head?_cons, Option.some_or, List.getLast?_cons_cons]
      have : (c :: p).getLast?.or (some a) = (c :: p).getLast?.or b := by
        rw [List.getLast?_cons]; rfl
      rw [this]

theorem chainE_congr {h h' : Links} {l : List Nat} (hp : ∀ a ∈ l, h'.prev a = h.prev a) (hn : ∀ a ∈ l, h'.next a = h.next a)
    (b after : Option Nat) : h'.ChainE b l after ↔ h.ChainE b l after := by
  induction l generalizing b with
  | nil => simp [ChainE]
  | cons a l ih =>
    simp only [ChainE, hp a List.mem_cons_self, hn a List.mem_cons_self]
    rw [ih (fun x hx => hp x (List.mem_cons_of_mem _ hx)) (fun x hx => hn x (List.mem_cons_of_mem _ hx))]

/-- Changing the successor of the last node. -/
theorem chainE_last {h h' : Links} {l : List Nat} {b after after' : Option Nat} (hc : h.ChainE b l after) (hnd : l.Nodup)
    (hp : ∀ a ∈ l, h'.prev a = h.prev a) (hn : ∀ a ∈ l, l.getLast? ≠ some a → h'.next a = h.next a)
    (hl : ∀ a, l.getLast? = some a → h'.next a = after') : h'.ChainE b l after' := by
  induction l generalizing b with
  | nil => simp [ChainE]
  | cons a l ih =>
    obtain ⟨h1, h2, h3⟩ := hc
    rw [List.nodup_cons] at hnd
    refine ⟨by rw [hp a List.mem_cons_self, h1], ?_, ih h3 hnd.2 (fun x hx => hp x (List.mem_cons_of_mem _ hx)) ?_ ?_⟩
    · cases l with
      | nil => simpa using hl a (by simp)
      | cons c l =>
        have hne : (a :: c :: l).getLast? ≠ some a := by
          rw [List.getLast?_cons_cons]
          intro hh
          exact hnd.1 (List.mem_of_getLast? hh)
        rw [hn a List.mem_cons_self hne, h2]; rfl
    · intro x hx hxl
      refine hn x (List.mem_cons_of_mem _ hx) ?_
      cases l with
      | nil => simp at hx
      | cons c l => rwa [List.getLast?_cons_cons]
    · intro x hx
      refine hl x ?_
      cases l with
      | nil => simp at hx
      | cons c l => rwa [List.getLast?_cons_cons]

/-- Changing the predecessor of the first node. -/
theorem chainE_first {h h' : Links} {l : List Nat} {b b' after : Option Nat} (hc : h.ChainE b l after) (hnd : l.Nodup)
    (hn : ∀ a ∈ l, h'.next a = h.next a) (hp : ∀ a ∈ l, l.head? ≠ some a → h'.prev a = h.prev a)
    (hl : ∀ a, l.head? = some a → h'.prev a = b') : h'.ChainE b' l after := by
  cases l with
  | nil => simp [ChainE]
  | cons a l =>
    obtain ⟨h1, h2, h3⟩ := hc
    rw [List.nodup_cons] at hnd
    refine ⟨hl a rfl, by rw [hn a List.mem_cons_self, h2], ?_⟩
    refine (chainE_congr (fun x hx => hp x (List.mem_cons_of_mem _ hx) ?_) (fun x hx => hn x (List.mem_cons_of_mem _ hx)) _ _).2 h3
    intro hh
    simp only [List.head?_cons, Option.some.injEq] at hh
    exact hnd.1 (hh ▸ hx)

theorem represents_iff (h : Links) (l : List Nat) : h.Represents l ↔ h.head = l.head? ∧ l.Nodup ∧ h.ChainE none l none := by
  rw [Represents, chain_iff]

/-- `next` of a node in the middle. -/
theorem chainE_next {h : Links} {b after : Option Nat} {p q : List Nat} {a : Nat} (hc : h.ChainE b (p ++ a :: q) after) :
    h.next a = q.head?.or after ∧ h.prev a = p.getLast?.or b := by
  obtain ⟨_, h2⟩ := (chainE_append ..).1 hc
  exact ⟨h2.2.1, h2.1⟩

/-- What it takes for the list with `n` put between `p` and `q` to be represented. -/
theorem represents_put {h h' : Links} {p q : List Nat} {n : Nat} (hr : h.Represents (p ++ q)) (hn : n ∉ p ++ q)
    (hhead : h'.head = if p = [] then some n else h.head)
    (hprev : ∀ a, h'.prev a = if a = n then p.getLast? else if q.head? = some a then some n else h.prev a)
    (hnext : ∀ a, h'.next a = if a = n then q.head? else if p.getLast? = some a then some n else h.next a) :
    h'.Represents (p ++ n :: q) := by
  rw [represents_iff] at hr ⊢
  obtain ⟨hh, hnd, hc⟩ := hr
  obtain ⟨hc1, hc2⟩ := (chainE_append ..).1 hc
  obtain ⟨hn1, hn2⟩ := not_or.1 (List.mem_append.not.1 hn)
  obtain ⟨hnp, hnq, hdis⟩ := List.nodup_append.1 hnd
  refine ⟨?_, ?_, ?_⟩
  · rw [hhead]
    cases p with
    | nil => simp
    | cons c p => simp [hh]
  · rw [List.nodup_append, List.nodup_cons]
    refine ⟨hnp, ⟨hn2, hnq⟩, ?_⟩
    intro a ha b hb
    rcases List.mem_cons.1 hb with hb | hb
    · subst hb; intro hab; exact hn1 (hab ▸ ha)
    · exact hdis a ha b hb
  · rw [chainE_append]
    refine ⟨?_, ?_, ?_, ?_⟩
    · refine chainE_last hc1 hnp ?_ ?_ ?_
      · intro a ha
        have h1 : a ≠ n := fun hh => hn1 (hh ▸ ha)
        have h2 : q.head? ≠ some a := fun hh => hdis a ha a (List.mem_of_mem_head? hh) rfl
        rw [hprev, if_neg h1, if_neg h2]
      · intro a ha hl
        have h1 : a ≠ n := fun hh => hn1 (hh ▸ ha)
        rw [hnext, if_neg h1, if_neg hl]
      · intro a ha
        have h1 : a ≠ n := fun hh => hn1 (hh ▸ List.mem_of_getLast? ha)
        rw [hnext, if_neg h1, if_pos ha]; rfl
    · rw [hprev, if_pos rfl]; simp
    · rw [hnext, if_pos rfl]; simp
    · refine chainE_first hc2 hnq ?_ ?_ ?_
      · intro a ha
        have h1 : a ≠ n := fun hh => hn2 (hh ▸ ha)
        have h2 : p.getLast? ≠ some a := fun hh => hdis a (List.mem_of_getLast? hh) a ha rfl
        rw [hnext, if_neg h1, if_neg h2]
      · intro a ha hl
        have h1 : a ≠ n := fun hh => hn2 (hh ▸ ha)
        rw [hprev, if_neg h1, if_neg hl]
      · intro a ha
        have h1 : a ≠ n := fun hh => hn2 (hh ▸ List.mem_of_mem_head? ha)
        rw [hprev, if_neg h1, if_pos ha]

/-- What it takes for the list without `e` to be represented. -/
theorem represents_drop {h h' : Links} {p q : List Nat} {e : Nat} (hr : h.Represents (p ++ e :: q))
    (hhead : h'.head = if p = [] then q.head? else h.head)
    (hprev : ∀ a, a ≠ e → h'.prev a = if q.head? = some a then p.getLast? else h.prev a)
    (hnext : ∀ a, a ≠ e → h'.next a = if p.getLast? = some a then q.head? else h.next a) :
    h'.Represents (p ++ q) := by
  rw [represents_iff] at hr ⊢
  obtain ⟨hh, hnd, hc⟩ := hr
  obtain ⟨hc1, hc2⟩ := (chainE_append ..).1 hc
  obtain ⟨hnp, hnq, hdis⟩ := List.nodup_append.1 hnd
  rw [List.nodup_cons] at hnq
  have hep : e ∉ p := fun hh => hdis e hh e List.mem_cons_self rfl
  have hdis' : ∀ a ∈ p, ∀ b ∈ q, a ≠ b := fun a ha b hb => hdis a ha b (List.mem_cons_of_mem _ hb)
  refine ⟨?_, ?_, ?_⟩
  · rw [hhead]
    cases p with
    | nil => simp
    | cons c p => simp [hh]
  · exact List.nodup_append.2 ⟨hnp, hnq.2, hdis'⟩
  · rw [chainE_append]
    refine ⟨?_, ?_⟩
    · refine chainE_last hc1 hnp ?_ ?_ ?_
      · intro a ha
        have h1 : a ≠ e := fun hh => hep (hh ▸ ha)
        have h2 : q.head? ≠ some a := fun hh => hdis' a ha a (List.mem_of_mem_head? hh) rfl
        rw [hprev a h1, if_neg h2]
      · intro a ha hl
        have h1 : a ≠ e := fun hh => hep (hh ▸ ha)
        rw [hnext a h1, if_neg hl]
      · intro a ha
        have h1 : a ≠ e := fun hh => hep (hh ▸ List.mem_of_getLast? ha)
        rw [hnext a h1, if_pos ha]; simp
    · refine chainE_first hc2.2.2 hnq.2 ?_ ?_ ?_
      · intro a ha
        have h1 : a ≠ e := fun hh => hnq.1 (hh ▸ ha)
        have h2 : p.getLast? ≠ some a := fun hh => hdis' a (List.mem_of_getLast? hh) a ha rfl
        rw [hnext a h1, if_neg h2]
      · intro a ha hl
        have h1 : a ≠ e := fun hh => hnq.1 (hh ▸ ha)
        rw [hprev a h1, if_neg hl]
      · intro a ha
        have h1 : a ≠ e := fun hh => hnq.1 (hh ▸ List.mem_of_mem_head? ha)
        rw [hprev a h1, if_pos ha]; simp

theorem findPlace_spec (valid : Nat → Nat → Bool) (n : Nat) (h : Links) (p q : List Nat) (r : Nat) (fuel : Nat)
    (hc : h.ChainE none (p ++ r :: q) none) (hf : q.length ≤ fuel) :
    ∃ q1 q2, q = q1 ++ q2 ∧ findPlace valid n h fuel r q.head? = some ((r :: q1).getLast (by simp), q2.head?) ∧
      r :: insertFrom (fun a b => valid a b) n q = r :: q1 ++ n :: q2 := by
  induction q generalizing p r fuel with
  | nil => exact ⟨[], [], rfl, by cases fuel <;> rfl, rfl⟩
  | cons c q ih =>
    cases fuel with
    | zero => simp at hf
    | succ fuel =>
      have hnx := (chainE_next hc).1
      have hc' : h.ChainE none ((p ++ [r]) ++ c :: q) none := by simpa using hc
      have hnc := (chainE_next hc').1
      simp only [List.head?_cons, findPlace, insertFrom]
      by_cases hv : valid c n = true
      · obtain ⟨q1, q2, hq, h1, h2⟩ := ih (p ++ [r]) c fuel hc' (by simpa using hf)
        refine ⟨c :: q1, q2, by simp [hq], ?_, ?_⟩
        · rw [if_pos hv, hnx]
          simp only [List.head?_cons, Option.some_or, Option.bind_some]
          rw [hnc, Option.or_none, h1]
          simp
        · rw [if_pos hv, h2]; simp
      · exact ⟨[], c :: q, rfl, by simp [hv], by simp [hv]⟩

/-- **C33**: `insert_into_ael(left, newcomer)` terminates, searches from the node `left` onwards and yields a proper doubly
linked list of the old nodes in the old order with the newcomer at the place found. No other node is touched. -/
theorem insertAfter_spec (valid : Nat → Nat → Bool) (n : Nat) (h : Links) (p q : List Nat) (r : Nat) (fuel : Nat)
    (hr : h.Represents (p ++ r :: q)) (hn : n ∉ p ++ r :: q) (hf : q.length ≤ fuel) :
    ∃ h', insertAfter valid n fuel r h = some h' ∧ h'.Represents (p ++ r :: insertFrom valid n q) ∧
      ∀ a, a ∉ n :: p ++ r :: q → h'.prev a = h.prev a ∧ h'.next a = h.next a := by
  obtain ⟨hh, hnd, hc⟩ := (represents_iff ..).1 hr
  have hnx := (chainE_next hc).1
  rw [Option.or_none] at hnx
  obtain ⟨q1, q2, hq, h1, h2⟩ := findPlace_spec valid n h p q r fuel hc hf
  refine ⟨_, by rw [insertAfter, hnx, h1]; rfl, ?_, ?_⟩
  · have e1 : p ++ r :: insertFrom valid n q = (p ++ r :: q1) ++ n :: q2 := by rw [h2]; simp
    have e2 : p ++ r :: q = (p ++ r :: q1) ++ q2 := by simp [hq]
    rw [e1]
    rw [e2] at hr hn hnd
    have hlast : (p ++ r :: q1).getLast? = some ((r :: q1).getLast (by simp)) := by
      rw [List.getLast?_append_of_ne_nil _ (by simp), List.getLast?_eq_some_getLast (by simp)]
    generalize (r :: q1).getLast (by simp) = z at hlast
    have hz : z ∈ p ++ r :: q1 := List.mem_of_getLast? hlast
    have hzn : z ≠ n := by rintro rfl; exact hn (List.mem_append_left _ hz)
    have hzq : q2.head? ≠ some z := fun hh => (List.nodup_append.1 hnd).2.2 z hz z (List.mem_of_mem_head? hh) rfl
    have hnq : q2.head? ≠ some n := fun hh => hn (List.mem_append_right _ (List.mem_of_mem_head? hh))
    refine represents_put hr hn ?_ ?_ ?_
    · rw [if_neg (by simp)]
      cases q2.head? <;> rfl
    · intro a
      rw [hlast]
      cases hq2 : q2.head? with
      | none => simp [setPrev, setNext, Function.update_apply]
      | some c =>
        simp only [setPrev, setNext, Function.update_apply, Option.some.injEq]
        by_cases han : a = n
        · simp [han]
        · rw [if_neg han, if_neg han]
          by_cases hac : a = c
          · simp [hac]
          · rw [if_neg hac, if_neg (fun hh => hac hh.symm)]
    · intro a
      rw [hlast]
      have key : ∀ (h2 : Links), h2.next = Function.update h.next n q2.head? →
          ((h2.setPrev n (some z)).setNext z (some n)).next a = if a = n then q2.head? else if some z = some a then some n else h.next a := by
        intro h2 e
        simp only [setPrev, setNext, e, Function.update_apply, Option.some.injEq]
        by_cases han : a = n
        · rw [han, if_neg (fun hh => hzn hh.symm), if_pos rfl, if_pos rfl]
        · rw [if_neg han, if_neg han]
          by_cases haz : a = z
          · simp [haz]
          · rw [if_neg haz, if_neg (fun hh => haz hh.symm)]
      exact key _ (by cases q2.head? <;> rfl)
  · intro a ha
    have hlast : (r :: q1).getLast (by simp) ∈ r :: q1 := List.getLast_mem _
    generalize (r :: q1).getLast (by simp) = z at hlast
    simp only [List.cons_append, List.mem_cons, List.mem_append, not_or, hq] at ha
    have haz : a ≠ z := by
      rintro rfl
      rcases List.mem_cons.1 hlast with hx | hx
      · exact ha.2.2.1 hx
      · exact ha.2.2.2.1 hx
    have han : a ≠ n := ha.1
    cases hq2 : q2.head? with
    | none => simp [setPrev, setNext, Function.update_apply, han, haz]
    | some c =>
      have hac : a ≠ c := by rintro rfl; exact ha.2.2.2.2 (List.mem_of_mem_head? hq2)
      simp [setPrev, setNext, Function.update_apply, han, haz, hac]

/-- **C33**: `insert_into_ael(newcomer)` terminates and yields a proper doubly linked list, that of the abstract
`insertAel`. No node outside is touched. -/
theorem insert_spec (valid : Nat → Nat → Bool) (n : Nat) (h : Links) (l : List Nat) (fuel : Nat)
    (hr : h.Represents l) (hn : n ∉ l) (hf : l.length ≤ fuel) :
    ∃ h', insert valid n fuel h = some h' ∧ h'.Represents (insertAel valid n l) ∧
      ∀ a, a ∉ n :: l → h'.prev a = h.prev a ∧ h'.next a = h.next a := by
  cases l with
  | nil =>
    have hh : h.head = none := hr.1
    refine ⟨_, by rw [insert, hh], ?_, ?_⟩
    · rw [represents_iff]
      simp [insertAel, ChainE, setPrev, setNext, Function.update_apply]
    · intro a ha
      simp only [List.mem_singleton] at ha
      simp [setPrev, setNext, Function.update_apply, ha]
  | cons f l =>
    have hh : h.head = some f := hr.1
    rw [insert, hh, insertAel]
    by_cases hv : valid f n = true
    · simp only [hv, if_true]
      exact insertAfter_spec valid n h [] l f fuel hr hn (by simp at hf; omega)
    · simp only [hv]
      refine ⟨_, rfl, ?_, ?_⟩
      · have hfn : f ≠ n := by rintro rfl; exact hn List.mem_cons_self
        refine represents_put (p := []) (q := f :: l) hr hn ?_ ?_ ?_
        · simp
        · intro a
          simp only [setPrev, setNext, Function.update_apply, List.getLast?_nil, List.head?_cons, Option.some.injEq]
          by_cases haf : a = f
          · rw [if_pos haf, if_neg (by rw [haf]; exact hfn), if_pos haf.symm]
          · rw [if_neg haf, if_neg (fun hh : f = a => haf hh.symm)]
        · intro a
          simp [setPrev, setNext, Function.update_apply]
      · intro a ha
        simp only [List.mem_cons, not_or] at ha
        simp [setPrev, setNext, Function.update_apply, ha.1, ha.2.1]

/-- **C33**: inserting a second edge after the predecessor of the first one (`insert_into_ael(a->prev_in_ael, b)`,
`vatti.cpp:760`) searches from the position of that predecessor, or from the start of the list. -/
theorem insertLeft_spec (valid : Nat → Nat → Bool) (n a : Nat) (h : Links) (p q : List Nat) (fuel : Nat)
    (hr : h.Represents (p ++ a :: q)) (hn : n ∉ p ++ a :: q) (hf : (p ++ a :: q).length ≤ fuel) :
    ∃ h', insertLeft valid n fuel (h.prev a) h = some h' ∧
      h'.Represents (if p = [] then insertAel valid n (a :: q) else p ++ insertFrom valid n (a :: q)) := by
  obtain ⟨hh, hnd, hc⟩ := (represents_iff ..).1 hr
  have hpv := (chainE_next hc).2
  rw [Option.or_none] at hpv
  rcases List.eq_nil_or_concat p with rfl | ⟨p', z, rfl⟩
  · rw [hpv]
    obtain ⟨h', h1, h2, _⟩ := insert_spec valid n h (a :: q) fuel hr hn (by simpa using hf)
    exact ⟨h', h1, by simpa using h2⟩
  · rw [hpv]
    simp only [List.concat_eq_append, List.getLast?_append, List.getLast?_singleton, Option.some_or, insertLeft] at *
    have e : p' ++ [z] ++ a :: q = p' ++ z :: (a :: q) := by simp
    rw [e] at hr hn
    obtain ⟨h', h1, h2, _⟩ := insertAfter_spec valid n h p' (a :: q) z fuel hr hn (by simp at hf ⊢; omega)
    refine ⟨h', h1, ?_⟩
    rw [if_neg (by simp)]
    simpa using h2

private theorem ends_ne {p q : List Nat} {e : Nat} (hnd : (p ++ e :: q).Nodup) :
    p.getLast? ≠ some e ∧ q.head? ≠ some e ∧ ∀ a, p.getLast? = some a → q.head? ≠ some a := by
  obtain ⟨hnp, hnq, hdis⟩ := List.nodup_append.1 hnd
  rw [List.nodup_cons] at hnq
  refine ⟨fun hh => hdis e (List.mem_of_getLast? hh) e List.mem_cons_self rfl, fun hh => hnq.1 (List.mem_of_mem_head? hh), ?_⟩
  intro a ha hh
  exact hdis a (List.mem_of_getLast? ha) a (List.mem_cons_of_mem _ (List.mem_of_mem_head? hh)) rfl

/-- **C33**: `take_from_ael(e)` removes exactly `e`; the links of `e` become null and no node outside is touched. -/
theorem take_spec (h : Links) (p q : List Nat) (e : Nat) (hr : h.Represents (p ++ e :: q)) :
    (h.take e).Represents (p ++ q) ∧ (h.take e).prev e = none ∧ (h.take e).next e = none ∧
      ∀ a, a ∉ p ++ e :: q → (h.take e).prev a = h.prev a ∧ (h.take e).next a = h.next a := by
  obtain ⟨hh, hnd, hc⟩ := (represents_iff ..).1 hr
  obtain ⟨hnx, hpv⟩ := chainE_next hc
  rw [Option.or_none] at hnx hpv
  obtain ⟨n1, n2, n3⟩ := ends_ne hnd
  have hp0 : p.getLast? = none ↔ p = [] := List.getLast?_eq_none_iff
  refine ⟨represents_drop hr ?_ ?_ ?_, ?_, ?_, ?_⟩
  · rw [take, hnx, hpv]
    cases hpl : p.getLast? with
    | none => rw [if_pos (hp0.1 hpl)]; cases q.head? <;> rfl
    | some z => rw [if_neg (by rintro rfl; simp at hpl)]; cases q.head? <;> rfl
  · intro a ha
    rw [take, hnx, hpv]
    cases hpl : p.getLast? <;> cases hql : q.head? <;>
      simp [setPrev, setNext, Function.update_apply, ha, eq_comm]
  · intro a ha
    rw [take, hnx, hpv]
    cases hpl : p.getLast? <;> cases hql : q.head? <;>
      simp [setPrev, setNext, Function.update_apply, ha, eq_comm]
  · rw [take]; simp [setPrev, setNext]
  · rw [take]; simp [setPrev, setNext]
  · intro a ha
    have hae : a ≠ e := by rintro rfl; simp at ha
    have hap : ∀ z, p.getLast? = some z → a ≠ z := fun z hz hh => ha (List.mem_append_left _ (hh ▸ List.mem_of_getLast? hz))
    have haq : ∀ z, q.head? = some z → a ≠ z := fun z hz hh =>
      ha (List.mem_append_right _ (List.mem_cons_of_mem _ (hh ▸ List.mem_of_mem_head? hz)))
    rw [take, hnx, hpv]
    revert hap haq
    rcases p.getLast? with _ | z <;> rcases q.head? with _ | w <;> intro hap haq <;>
      simp only [reduceCtorEq, false_imp_iff, implies_true, Option.some.injEq, forall_eq'] at hap haq <;>
      simp [setPrev, setNext, Function.update_apply, *]

/-- **C33**: `delete_active_edge(e)` removes exactly `e` and returns the edge that followed it. -/
theorem delete_spec (h : Links) (p q : List Nat) (e : Nat) (hr : h.Represents (p ++ e :: q)) :
    (h.delete e).1.Represents (p ++ q) ∧ (h.delete e).2 = q.head? ∧
      ∀ a, a ∉ p ++ q → (h.delete e).1.prev a = h.prev a ∧ (h.delete e).1.next a = h.next a := by
  obtain ⟨hh, hnd, hc⟩ := (represents_iff ..).1 hr
  obtain ⟨hnx, hpv⟩ := chainE_next hc
  rw [Option.or_none] at hnx hpv
  obtain ⟨n1, n2, n3⟩ := ends_ne hnd
  have hp0 : p.getLast? = none ↔ p = [] := List.getLast?_eq_none_iff
  refine ⟨represents_drop hr ?_ ?_ ?_, ?_, ?_⟩
  · rw [delete, hnx, hpv]
    cases hpl : p.getLast? with
    | none => rw [if_pos (hp0.1 hpl)]
    | some z => rw [if_neg (by rintro rfl; simp at hpl)]; cases q.head? <;> rfl
  · intro a ha
    rw [delete, hnx, hpv]
    cases hpl : p.getLast? <;> cases hql : q.head? <;>
      simp [setPrev, setNext, Function.update_apply, eq_comm]
  · intro a ha
    rw [delete, hnx, hpv]
    cases hpl : p.getLast? <;> cases hql : q.head? <;>
      simp [setPrev, setNext, Function.update_apply, eq_comm]
  · exact hnx
  · intro a ha
    have hap : ∀ z, p.getLast? = some z → a ≠ z := fun z hz hh => ha (List.mem_append_left _ (hh ▸ List.mem_of_getLast? hz))
    have haq : ∀ z, q.head? = some z → a ≠ z := fun z hz hh => ha (List.mem_append_right _ (hh ▸ List.mem_of_mem_head? hz))
    rw [delete, hnx, hpv]
    revert hap haq
    rcases p.getLast? with _ | z <;> rcases q.head? with _ | w <;> intro hap haq <;>
      simp only [reduceCtorEq, false_imp_iff, implies_true, Option.some.injEq, forall_eq'] at hap haq <;>
      simp [setPrev, setNext, Function.update_apply, *]


/-- **C33**: re-inserting a list of edges one after the other. -/
theorem insertMany_spec (valid : Nat → Nat → Bool) (ns : List Nat) (h : Links) (l : List Nat) (fuel : Nat)
    (hr : h.Represents l) (hn : ns.Nodup) (hd : ∀ n ∈ ns, n ∉ l) (hf : l.length + ns.length ≤ fuel) :
    ∃ h', insertMany valid fuel ns h = some h' ∧ h'.Represents (ns.foldl (fun l e => insertAel valid e l) l) := by
  induction ns generalizing h l with
  | nil => exact ⟨h, rfl, hr⟩
  | cons n ns ih =>
    rw [List.nodup_cons] at hn
    simp only [List.length_cons] at hf
    obtain ⟨h1, e1, r1, _⟩ := insert_spec valid n h l fuel hr (hd n List.mem_cons_self) (by omega)
    have hperm : (insertAel valid n l).Perm (n :: l) := by
      have hfrom : ∀ q : List Nat, (insertFrom valid n q).Perm (n :: q) := by
        intro q
        induction q with
        | nil => exact List.Perm.refl _
        | cons c q ihq =>
          simp only [insertFrom]
          split
          · exact (List.Perm.cons c ihq).trans (List.Perm.swap n c q)
          · exact List.Perm.refl _
      cases l with
      | nil => exact List.Perm.refl _
      | cons c q =>
        simp only [insertAel]
        split
        · exact (List.Perm.cons c (hfrom q)).trans (List.Perm.swap n c q)
        · exact List.Perm.refl _
    obtain ⟨h2, e2, r2⟩ := ih h1 (insertAel valid n l) r1 hn.2
      (fun m hm hml => by
        rcases List.mem_cons.1 (hperm.mem_iff.1 hml) with hx | hx
        · exact hn.1 (hx ▸ hm)
        · exact hd m (List.mem_cons_of_mem _ hm) hx)
      (by rw [hperm.length_eq]; simp only [List.length_cons]; omega)
    exact ⟨h2, by rw [insertMany, List.foldlM_cons, e1]; exact e2, r2⟩

/-! ## the order on edges and the order on nodes -/

variable {K : Type}

theorem insertFrom_map (f : Edge K → Nat) (ve : Edge K → Edge K → Bool) (vn : Nat → Nat → Bool) (n : Edge K) (l : List (Edge K))
    (hv : ∀ a ∈ l, vn (f a) (f n) = ve a n) : (insertFrom ve n l).map f = insertFrom vn (f n) (l.map f) := by
  induction l with
  | nil => rfl
  | cons a l ih =>
    simp only [insertFrom, List.map_cons, hv a List.mem_cons_self]
    split
    · rw [List.map_cons, ih (fun b hb => hv b (List.mem_cons_of_mem _ hb))]
    · rfl

/-- The insertion on edges used in the rest of the model is the one on nodes. -/
theorem insertAel_map (f : Edge K → Nat) (ve : Edge K → Edge K → Bool) (vn : Nat → Nat → Bool) (n : Edge K) (l : List (Edge K))
    (hv : ∀ a ∈ l, vn (f a) (f n) = ve a n) : (insertAel ve n l).map f = insertAel vn (f n) (l.map f) := by
  cases l with
  | nil => rfl
  | cons a l =>
    simp only [insertAel, List.map_cons, hv a List.mem_cons_self]
    split
    · rw [List.map_cons, insertFrom_map f ve vn n l (fun b hb => hv b (List.mem_cons_of_mem _ hb))]
    · rfl

theorem takeAll_nil [FTrans K] (xs : List K) : takeAll xs ([] : List (Edge K)) = ([], []) := by
  induction xs with
  | nil => rfl
  | cons x xs ih => simp [takeAll, takeAt, ih]

/-- **C33**: the loop of `resort_ael` that takes edges out while walking along the list visits every edge once, keeps the
list proper, and takes out exactly the edges the abstract `takeAll` takes out, in the same order. -/
theorem resortTake_spec [FTrans K] (x : Nat → K) (fuel : Nat) (xs : List K) (p : List Nat) (q : List (Edge K)) (h : Links)
    (acc : List Nat) (hx : ∀ e ∈ q, x e.eid = e.currX) (hr : h.Represents (p ++ q.map Edge.eid)) (hf : xs.length + q.length ≤ fuel) :
    ∃ h', resortTake x fuel xs (q.map Edge.eid).head? h acc = some (h', acc ++ (takeAll xs q).2.map Edge.eid) ∧
      h'.Represents (p ++ (takeAll xs q).1.map Edge.eid) := by
  induction fuel generalizing xs p q h acc with
  | zero =>
    have h1 : xs = [] := List.length_eq_zero_iff.1 (by omega)
    subst h1
    exact ⟨h, by simp [resortTake, takeAll], by simpa [takeAll] using hr⟩
  | succ fuel ih =>
    cases xs with
    | nil => exact ⟨h, by simp [resortTake, takeAll], by simpa [takeAll] using hr⟩
    | cons c cs =>
      cases q with
      | nil => exact ⟨h, by simp [resortTake, takeAll_nil], by simpa [takeAll_nil] using hr⟩
      | cons e q =>
        have hx' : ∀ e ∈ q, x e.eid = e.currX := fun a ha => hx a (List.mem_cons_of_mem _ ha)
        have hxe : x e.eid = e.currX := hx e List.mem_cons_self
        simp only [List.length_cons] at hf
        simp only [List.map_cons] at hr
        have hc := ((represents_iff ..).1 hr).2.2
        have hnx := (chainE_next hc).1
        rw [Option.or_none] at hnx
        simp only [List.map_cons, List.head?_cons, resortTake, hxe]
        by_cases h1 : (e.currX ==. c) = true
        · have ht : takeAll (c :: cs) (e :: q) = ((takeAll (c :: cs) q).1, e :: (takeAll (c :: cs) q).2) := by
            simp [takeAll, takeAt, h1]
          obtain ⟨h', e', r'⟩ := ih (c :: cs) p q (h.take e.eid) (acc ++ [e.eid]) hx' (take_spec h p _ e.eid hr).1
            (by simp only [List.length_cons]; omega)
          refine ⟨h', ?_, by rw [ht]; exact r'⟩
          rw [if_pos h1, hnx, e', ht]
          simp
        · by_cases h2 : (c <. e.currX) = true
          · have ht : takeAll (c :: cs) (e :: q) = takeAll cs (e :: q) := by
              simp [takeAll, takeAt, h1, h2]
            obtain ⟨h', e', r'⟩ := ih cs p (e :: q) h acc hx (by simpa using hr) (by simp only [List.length_cons]; omega)
            refine ⟨h', ?_, by rw [ht]; exact r'⟩
            rw [if_neg h1, if_pos h2, ht]
            simpa using e'
          · have ht : takeAll (c :: cs) (e :: q) = (e :: (takeAll (c :: cs) q).1, (takeAll (c :: cs) q).2) := by
              simp [takeAll, takeAt, h1, h2]
            obtain ⟨h', e', r'⟩ := ih (c :: cs) (p ++ [e.eid]) q h acc hx' (by simpa using hr)
              (by simp only [List.length_cons]; omega)
            refine ⟨h', ?_, by rw [ht]; simpa using r'⟩
            rw [if_neg h1, if_neg h2, hnx, e', ht]

/-! ## the output bound list -/

section Obl

theorem links_modB (o : Outs K) (i : Nat) (f : Bound K → Bound K) (a : Nat) :
    (o.modB i f).links.prev a = (if i = a then (o.bounds[a]?).bind (fun b => (f b).prev) else o.links.prev a) ∧
    (o.modB i f).links.next a = (if i = a then (o.bounds[a]?).bind (fun b => (f b).next) else o.links.next a) := by
  simp only [Outs.links, Outs.modB, List.getElem?_modify]
  by_cases h : i = a
  · simp [h]
    cases o.bounds[a]? <;> simp
  · simp only [if_neg h]
    cases o.bounds[a]? <;> simp

theorem modB_next (o : Outs K) (i : Nat) (v : Option Nat) (hi : i < o.bounds.length) (a : Nat) :
    (o.modB i (fun x => { x with next := v })).links.prev a = o.links.prev a ∧
    (o.modB i (fun x => { x with next := v })).links.next a = if i = a then v else o.links.next a := by
  obtain ⟨h1, h2⟩ := links_modB o i (fun x => { x with next := v }) a
  refine ⟨?_, ?_⟩
  · rw [h1]; by_cases h : i = a
    · rw [if_pos h]; rfl
    · rw [if_neg h]
  · rw [h2]; by_cases h : i = a
    · rw [if_pos h, if_pos h, ← h, List.getElem?_eq_getElem hi]; rfl
    · rw [if_neg h, if_neg h]

theorem modB_prev (o : Outs K) (i : Nat) (v : Option Nat) (hi : i < o.bounds.length) (a : Nat) :
    (o.modB i (fun x => { x with prev := v })).links.next a = o.links.next a ∧
    (o.modB i (fun x => { x with prev := v })).links.prev a = if i = a then v else o.links.prev a := by
  obtain ⟨h1, h2⟩ := links_modB o i (fun x => { x with prev := v }) a
  refine ⟨?_, ?_⟩
  · rw [h2]; by_cases h : i = a
    · rw [if_pos h]; rfl
    · rw [if_neg h]
  · rw [h1]; by_cases h : i = a
    · rw [if_pos h, if_pos h, ← h, List.getElem?_eq_getElem hi]; rfl
    · rw [if_neg h, if_neg h]

theorem modB_length (o : Outs K) (i : Nat) (f : Bound K → Bound K) : (o.modB i f).bounds.length = o.bounds.length := by
  simp [Outs.modB]

/-- **C33**: `delete_obl_bound` removes exactly the given bound from the list of output bounds. -/
theorem deleteObl_spec (o : Outs K) (p q : List Nat) (b : Nat) (hr : o.links.Represents (p ++ b :: q))
    (hlt : ∀ i ∈ p ++ b :: q, i < o.bounds.length) : (o.deleteObl b).links.Represents (p ++ q) := by
  obtain ⟨hh, hnd, hc⟩ := (represents_iff ..).1 hr
  obtain ⟨hnx, hpv⟩ := chainE_next hc
  rw [Option.or_none] at hnx hpv
  have hp0 : p.getLast? = none ↔ p = [] := List.getLast?_eq_none_iff
  have hb : b < o.bounds.length := hlt b (by simp)
  have hge : o.bounds[b]? = some o.bounds[b] := List.getElem?_eq_getElem hb
  have hnx' : o.bounds[b].next = q.head? := by simpa [Outs.links, hge] using hnx
  have hpv' : o.bounds[b].prev = p.getLast? := by simpa [Outs.links, hge] using hpv
  have hplt : ∀ z, p.getLast? = some z → z < o.bounds.length := fun z hz => hlt z (by simp [List.mem_of_getLast? hz])
  have hqlt : ∀ z, q.head? = some z → z < o.bounds.length := fun z hz => hlt z (by simp [List.mem_of_mem_head? hz])
  refine represents_drop hr ?_ ?_ ?_ <;> rw [Outs.deleteObl, hge] <;> simp only [hnx', hpv']
  · cases hpl : p.getLast? with
    | none => rw [if_pos (hp0.1 hpl)]; cases q.head? <;> rfl
    | some z => rw [if_neg (by rintro rfl; simp at hpl)]; cases q.head? <;> rfl
  · intro a ha
    rcases hpl : p.getLast? with _ | z <;> rcases hql : q.head? with _ | w
    · simp [Outs.links]
    · have e := (modB_prev { o with oblFirst := some w } w none (hqlt w hql) a).2
      simp only [e]
      simp [Outs.links]
    · have e := (modB_next o z none (hplt z hpl) a).1
      simp only [e]; simp
    · have e := (modB_prev (o.modB z (fun x => { x with next := some w })) w (some z)
        (by rw [modB_length]; exact hqlt w hql) a).2
      simp only [e, (modB_next o z (some w) (hplt z hpl) a).1]
      simp
  · intro a ha
    rcases hpl : p.getLast? with _ | z <;> rcases hql : q.head? with _ | w
    · simp [Outs.links]
    · have e := (modB_prev { o with oblFirst := some w } w none (hqlt w hql) a).1
      simp only [e]
      simp [Outs.links]
    · have e := (modB_next o z none (hplt z hpl) a).2
      simp only [e]; simp
    · have e := (modB_prev (o.modB z (fun x => { x with next := some w })) w (some z)
        (by rw [modB_length]; exact hqlt w hql) a).1
      simp only [e, (modB_next o z (some w) (hplt z hpl) a).2]
      simp

theorem linkObl_links (l : List Nat) (o : Outs K) (last : Nat) (hlast : last < o.bounds.length)
    (hlt : ∀ i ∈ l, i < o.bounds.length) (hnd : (last :: l).Nodup) :
    (linkObl o last l).oblFirst = o.oblFirst ∧
    (linkObl o last l).links.ChainE (o.links.prev last) (last :: l) (o.links.next ((last :: l).getLast (by simp))) ∧
    ∀ a, a ∉ last :: l → (linkObl o last l).links.prev a = o.links.prev a ∧ (linkObl o last l).links.next a = o.links.next a := by
  induction l generalizing o last with
  | nil => exact ⟨rfl, ⟨rfl, by simp [linkObl], trivial⟩, fun a _ => ⟨rfl, rfl⟩⟩
  | cons i l ih =>
    have hi : i < o.bounds.length := hlt i List.mem_cons_self
    have hil : i < (o.modB last (fun x => { x with next := some i })).bounds.length := by rw [modB_length]; exact hi
    have hne : last ≠ i := by rintro rfl; simp at hnd
    have hnd' := (List.nodup_cons.1 hnd)
    obtain ⟨h1, h2, h3⟩ := ih ((o.modB last (fun x => { x with next := some i })).modB i (fun x => { x with prev := some last })) i
      (by rw [modB_length]; exact hil) (fun j hj => by rw [modB_length, modB_length]; exact hlt j (List.mem_cons_of_mem _ hj)) hnd'.2
    have hprev : ∀ a, ((o.modB last (fun x => { x with next := some i })).modB i (fun x => { x with prev := some last })).links.prev a =
        if i = a then some last else o.links.prev a := by
      intro a
      rw [(modB_prev _ i (some last) hil a).2, (modB_next o last (some i) hlast a).1]
    have hnext : ∀ a, ((o.modB last (fun x => { x with next := some i })).modB i (fun x => { x with prev := some last })).links.next a =
        if last = a then some i else o.links.next a := by
      intro a
      rw [(modB_prev _ i (some last) hil a).1, (modB_next o last (some i) hlast a).2]
    rw [linkObl]
    refine ⟨h1, ⟨?_, ?_, ?_⟩, ?_⟩
    · rw [(h3 last hnd'.1).1, hprev, if_neg (fun hh => hne hh.symm)]
    · rw [(h3 last hnd'.1).2, hnext, if_pos rfl]; rfl
    · rw [hprev, if_pos rfl, hnext] at h2
      have hz : last ≠ (i :: l).getLast (by simp) := fun hh => hnd'.1 (hh ▸ List.getLast_mem _)
      rw [if_neg hz] at h2
      simpa using h2
    · intro a ha
      rw [List.mem_cons, not_or] at ha
      obtain ⟨g1, g2⟩ := h3 a ha.2
      refine ⟨?_, ?_⟩
      · rw [g1, hprev, if_neg (fun hh => ha.2 (by simp [hh]))]
      · rw [g2, hnext, if_neg (fun hh => ha.1 hh.symm)]

/-- **C33**: the new list of output bounds built at the end of `update_ouput_bound` is a proper list of the given bounds
exactly when it has at most one bound or its last bound was also the last one of the old list (the code does not clear
`next_in_obl` of the last bound). -/
theorem rebuildObl_spec (o : Outs K) (l : List Nat) (hlt : ∀ i ∈ l, i < o.bounds.length) (hnd : l.Nodup) :
    (rebuildObl o l).links.Represents l ↔ (l.length ≤ 1 ∨ ∀ z, l.getLast? = some z → o.links.next z = none) := by
  cases l with
  | nil => simp [Represents, rebuildObl, Chain, Outs.links]
  | cons i l =>
    have hi := hlt i List.mem_cons_self
    obtain ⟨h1, h2, h3⟩ := linkObl_links l ({ o with oblFirst := some i }.modB i (fun x => { x with prev := none, next := none })) i
      (by rw [modB_length]; exact hi) (fun j hj => by rw [modB_length]; exact hlt j (List.mem_cons_of_mem _ hj)) hnd
    have hp : ∀ a, ({ o with oblFirst := some i }.modB i (fun x => { x with prev := none, next := none })).links.prev a =
        if i = a then none else o.links.prev a := by
      intro a
      rw [(links_modB ..).1]
      cases o.bounds[a]? <;> simp [Outs.links]
    have hn : ∀ a, ({ o with oblFirst := some i }.modB i (fun x => { x with prev := none, next := none })).links.next a =
        if i = a then none else o.links.next a := by
      intro a
      rw [(links_modB ..).2]
      cases o.bounds[a]? <;> simp [Outs.links]
    rw [hp, if_pos rfl] at h2
    have hgl : (i :: l).getLast? = some ((i :: l).getLast (by simp)) := List.getLast?_eq_some_getLast (by simp)
    have hchain : ∀ after, (rebuildObl o (i :: l)).links.ChainE none (i :: l) after →
        (rebuildObl o (i :: l)).links.next ((i :: l).getLast (by simp)) = after := by
      intro after hc
      have e : (i :: l) = (i :: l).dropLast ++ [(i :: l).getLast (by simp)] := (List.dropLast_append_getLast (by simp)).symm
      generalize (rebuildObl o (i :: l)).links = L at hc ⊢
      rw [e] at hc
      have hx := (chainE_next hc).1
      simpa using hx
    have hz := hchain _ h2
    rw [represents_iff]
    constructor
    · rintro ⟨_, _, hc⟩
      rw [hn] at hz
      have hz' := hchain _ hc
      rw [hz'] at hz
      by_cases hil : i = (i :: l).getLast (by simp)
      · left
        cases l with
        | nil => simp
        | cons j l =>
          exfalso
          have : i ∈ j :: l := by rw [hil]; exact List.getLast_mem _
          exact (List.nodup_cons.1 hnd).1 this
      · right
        rw [if_neg hil] at hz
        intro z hzz
        rw [hgl] at hzz
        rw [← Option.some.inj hzz, ← hz]
    · intro hor
      refine ⟨by rw [rebuildObl]; exact h1, hnd, ?_⟩
      rw [hn] at h2
      have : (if i = (i :: l).getLast (by simp) then none else o.links.next ((i :: l).getLast (by simp))) = none := by
        split
        · rfl
        · rcases hor with hor | hor
          · have : l = [] := List.length_eq_zero_iff.1 (by simp only [List.length_cons] at hor; omega)
            subst this
            simp_all
          · exact hor _ hgl
      rw [this] at h2
      exact h2

/-- The walk along the list of output bounds delivers the represented list. -/
theorem oblWalk_spec (o : Outs K) (l : List Nat) (hr : o.links.Represents l) (hlt : ∀ i ∈ l, i < o.bounds.length) (fuel : Nat)
    (hf : l.length ≤ fuel) : oblWalk o.bounds fuel o.oblFirst = some l := by
  obtain ⟨hh, hnd, hc⟩ := (represents_iff ..).1 hr
  have key : ∀ (l : List Nat) (b : Option Nat) (fuel : Nat), o.links.ChainE b l none → (∀ i ∈ l, i < o.bounds.length) → l.length ≤ fuel →
      oblWalk o.bounds fuel l.head? = some l := by
    intro l
    induction l with
    | nil => intro b fuel _ _ _; cases fuel <;> rfl
    | cons a l ih =>
      intro b fuel hc hlt hf
      cases fuel with
      | zero => simp at hf
      | succ fuel =>
        obtain ⟨_, h2, h3⟩ := hc
        have ha : o.bounds[a]? = some (o.bounds[a]'(hlt a List.mem_cons_self)) := List.getElem?_eq_getElem (hlt a List.mem_cons_self)
        simp only [Outs.links, ha, Option.bind_some, Option.or_none] at h2
        simp only [List.head?_cons, oblWalk, ha, Option.bind_some, h2]
        rw [ih (some a) fuel h3 (fun i hi => hlt i (List.mem_cons_of_mem _ hi)) (by simpa using hf)]
        rfl
  have := key l none fuel hc hlt hf
  rwa [← hh] at this

/-- When the last bound of the new list still points into it, walking along the list never ends. -/
theorem oblWalk_endless : ∃ (o : Outs Nat) (l : List Nat), (∀ i ∈ l, i < o.bounds.length) ∧ l.Nodup ∧
    o.links.Represents l.reverse ∧ ∀ fuel, oblWalk (rebuildObl o l).bounds fuel (rebuildObl o l).oblFirst = none := by
  refine ⟨⟨[⟨some 1, none, 0, none, 5, 1⟩, ⟨none, some 0, 0, none, 3, -1⟩], [], some 1⟩, [0, 1], by decide, by decide, ?_, ?_⟩
  · rw [Represents]
    refine ⟨rfl, by decide, rfl, rfl, rfl, rfl, trivial⟩
  · have key : ∀ fuel i, i < 2 → oblWalk ([⟨none, some 1, 0, none, 5, 1⟩, ⟨some 0, some 0, 0, none, 3, -1⟩] : List (Bound Nat)) fuel (some i) = none := by
      intro fuel
      induction fuel with
      | zero => intro i _; rfl
      | succ fuel ih =>
        intro i hi
        match i, hi with
        | 0, _ => simp [oblWalk, ih]
        | 1, _ => simp [oblWalk, ih]
    intro fuel
    exact key fuel 0 (by omega)

end Obl

/-! ## concrete cases -/

/-- The list 4 - 7 - 2, and node 9 outside it. -/
def demo : Links where
  prev i := if i = 7 then some 4 else if i = 2 then some 7 else none
  next i := if i = 4 then some 7 else if i = 7 then some 2 else none
  head := some 4

theorem demo_represents : demo.Represents [4, 7, 2] := by
  refine ⟨rfl, by decide, rfl, rfl, rfl, rfl, rfl, rfl, trivial⟩

/-- The specifications apply to a list of three nodes. -/
example : (∃ h', insert (fun a b => decide (a < b)) 9 3 demo = some h' ∧ h'.Represents [4, 7, 2, 9]) ∧
    (demo.take 7).Represents [4, 2] ∧ (demo.delete 4).1.Represents [7, 2] := by
  refine ⟨?_, (take_spec demo [4] [2] 7 demo_represents).1, (delete_spec demo [] [7, 2] 4 demo_represents).1⟩
  obtain ⟨h', h1, h2, _⟩ := insert_spec (fun a b => decide (a < b)) 9 demo [4, 7, 2] 3 demo_represents (by decide) (by decide)
  exact ⟨h', h1, h2⟩

end River.Links
