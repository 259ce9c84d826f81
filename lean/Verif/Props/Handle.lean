import Verif.Spec.Handle
import Verif.RatTrans
import Verif.Props.Break
import Mathlib.Data.List.Perm.Subperm

/-! # C66, C67: objects of class `processor`

Level: any arithmetic. -/

namespace River
variable {K : Type}

theorem deref_ok {s : PState K} {v a : Nat} {c : Clipper K} : s.deref v = .ok (a, c) ↔ s.vars v = some a ∧ s.heap[a]? = some (some c) := by
  unfold PState.deref
  cases hv : s.vars v with
  | none => simp
  | some b =>
    cases hh : s.heap[b]? with
    | none =>
      simp only [hh, reduceCtorEq, Option.some.injEq, false_iff, not_and]
      rintro rfl h
      rw [hh] at h; cases h
    | some o =>
      cases o with
      | none =>
        simp only [hh, reduceCtorEq, Option.some.injEq, false_iff, not_and]
        rintro rfl h
        rw [hh] at h; cases h
      | some c' =>
        simp only [hh, Except.ok.injEq, Prod.mk.injEq, Option.some.injEq]
        constructor
        · rintro ⟨rfl, rfl⟩; exact ⟨rfl, hh⟩
        · rintro ⟨rfl, h⟩
          rw [hh] at h
          exact ⟨rfl, by simpa using h⟩

theorem deref_cases (s : PState K) (v : Nat) : s.deref v = .error .memory ∨ ∃ a c, s.deref v = .ok (a, c) := by
  unfold PState.deref
  split
  · exact Or.inl rfl
  · split
    · exact Or.inr ⟨_, _, rfl⟩
    · exact Or.inl rfl

/-- The objects not freed. -/
def PState.alive (s : PState K) : Nat := s.heap.countP Option.isSome

theorem alive_set_some (l : List (Option (Clipper K))) (a : Nat) (c c' : Clipper K) (h : l[a]? = some (some c)) :
    (l.set a (some c')).countP Option.isSome = l.countP Option.isSome := by
  induction l generalizing a with
  | nil => simp at h
  | cons x l ih =>
    cases a with
    | zero =>
      simp only [List.getElem?_cons_zero, Option.some.injEq] at h
      subst h
      simp
    | succ a =>
      simp only [List.getElem?_cons_succ] at h
      simp only [List.set_cons_succ, List.countP_cons, ih a h]

theorem alive_set_none (l : List (Option (Clipper K))) (a : Nat) (c : Clipper K) (h : l[a]? = some (some c)) :
    (l.set a none).countP Option.isSome + 1 = l.countP Option.isSome := by
  induction l generalizing a with
  | nil => simp at h
  | cons x l ih =>
    cases a with
    | zero =>
      simp only [List.getElem?_cons_zero, Option.some.injEq] at h
      subst h
      simp
    | succ a =>
      simp only [List.getElem?_cons_succ] at h
      have := ih a h
      simp only [List.set_cons_succ, List.countP_cons]
      omega

variable [FTrans K]

/-- What a successful operation that is not a copy does to the heap: nothing, a new object, one object freed, one object changed. -/
theorem step_cases {s s' : PState K} {op : POp K} (h : op.step s = .ok s') :
    (∃ v, op = .create v ∧ s' = ({ s with heap := s.heap ++ [some Clipper.new] } : PState K).point v (some s.heap.length)) ∨
    (∃ v w, op = .copy v w ∧ s' = s.point v (s.vars w)) ∨
    (∃ v w, op = .assign v w ∧ s' = s.point v (s.vars w)) ∨
    (∃ v a c, op = .destroy v ∧ s.vars v = some a ∧ s.heap[a]? = some (some c) ∧
      s' = ({ s with heap := s.heap.set a none } : PState K).point v none) ∨
    (∃ v a c c', op.var = v ∧ ¬ op.Shares ∧ (∀ l, op.scope l = if v ∈ l then some l else none) ∧ s.vars v = some a ∧ s.heap[a]? = some (some c) ∧
      s'.heap = s.heap.set a (some c') ∧ s'.vars = s.vars ∧ ∃ extra, s'.log = s.log ++ extra ∧ ∀ e ∈ extra, e.1 = v) := by
  cases op with
  | create v => left; exact ⟨v, rfl, by simpa [POp.step] using h.symm⟩
  | copy v w => right; left; exact ⟨v, w, rfl, by simpa [POp.step] using h.symm⟩
  | assign v w => right; right; left; exact ⟨v, w, rfl, by simpa [POp.step] using h.symm⟩
  | destroy v =>
    right; right; right; left
    rcases deref_cases s v with hd | ⟨a, c, hd⟩
    · rw [POp.step, hd] at h; cases h
    · rw [POp.step, hd] at h
      obtain ⟨h1, h2⟩ := deref_ok.1 hd
      refine ⟨v, a, c, rfl, h1, h2, ?_⟩
      simpa [bind, Except.bind] using h.symm
  | add v ps pt =>
    right; right; right; right
    rcases deref_cases s v with hd | ⟨a, c, hd⟩
    · rw [POp.step, hd] at h; cases h
    · rw [POp.step, hd] at h
      obtain ⟨h1, h2⟩ := deref_ok.1 hd
      simp only [bind, Except.bind] at h
      split at h
      · cases h
      · next c' _ =>
        simp only [Except.ok.injEq] at h
        subst h
        exact ⟨v, a, c, c', rfl, id, fun l => rfl, h1, h2, rfl, rfl, [], by simp, by simp⟩
  | read v calls pt =>
    right; right; right; right
    rcases deref_cases s v with hd | ⟨a, c, hd⟩
    · rw [POp.step, hd] at h; cases h
    · rw [POp.step, hd] at h
      obtain ⟨h1, h2⟩ := deref_ok.1 hd
      simp only [bind, Except.bind] at h
      split at h
      · cases h
      · next c' _ =>
        simp only [Except.ok.injEq] at h
        subst h
        exact ⟨v, a, c, c', rfl, id, fun l => rfl, h1, h2, rfl, rfl, [], by simp, by simp⟩
  | process v env msort fuel ct fr out =>
    right; right; right; right
    rcases deref_cases s v with hd | ⟨a, c, hd⟩
    · rw [POp.step, hd] at h; cases h
    · rw [POp.step, hd] at h
      obtain ⟨h1, h2⟩ := deref_ok.1 hd
      simp only [bind, Except.bind] at h
      split at h
      · next c' out' _ =>
        simp only [Except.ok.injEq] at h
        subst h
        exact ⟨v, a, c, c', rfl, id, fun l => rfl, h1, h2, rfl, rfl, [(v, out')], by simp, by simp⟩
      · cases h

theorem run_cons (op : POp K) (p : List (POp K)) (s : PState K) :
    (op :: p).foldlM POp.step s = (op.step s).bind (fun s' => p.foldlM POp.step s') := rfl

omit [FTrans K] in
theorem scope_cons (op : POp K) (p : List (POp K)) (l : List Nat) :
    (op :: p).foldlM POp.scope l = (op.scope l).bind (fun l' => p.foldlM POp.scope l') := rfl

/-! ## Counting variables and objects -/

/-- The operation is a copy. -/
def POp.isCopy : POp K → Bool
  | .copy _ _ => true
  | _ => false

theorem count_step {s s' : PState K} {op : POp K} {l l' : List Nat} (h : op.step s = .ok s') (hl : op.scope l = some l') :
    l'.length + s.alive = l.length + s'.alive + (if op.isCopy then 1 else 0) := by
  unfold PState.alive
  rcases step_cases h with ⟨v, rfl, rfl⟩ | ⟨v, w, rfl, rfl⟩ | ⟨v, w, rfl, rfl⟩ | ⟨v, a, c, rfl, h1, h2, rfl⟩ | ⟨v, a, c, c', h0, h0', hsc, h1, h2, h3, _⟩
  · simp only [POp.scope] at hl
    split at hl
    · cases hl
    · simp only [Option.some.injEq] at hl
      subst hl
      simp [PState.point, POp.isCopy, List.countP_append]
      omega
  · simp only [POp.scope] at hl
    split at hl
    · cases hl
    · simp only [Option.some.injEq] at hl
      subst hl
      simp [PState.point, POp.isCopy]
      omega
  · simp only [POp.scope] at hl
    split at hl
    · simp only [Option.some.injEq] at hl
      subst hl
      simp [PState.point, POp.isCopy]
    · cases hl
  · simp only [POp.scope] at hl
    split at hl
    · next hv =>
      simp only [Option.some.injEq] at hl
      subst hl
      have := alive_set_none s.heap a c h2
      have hlen := List.length_erase_of_mem hv
      have hpos : 0 < l.length := List.length_pos_of_mem hv
      simp only [PState.point, POp.isCopy, Bool.false_eq_true, if_false]
      omega
    · cases hl
  · rw [hsc] at hl
    split at hl
    · simp only [Option.some.injEq] at hl
      subst hl
      have hc : op.isCopy = false := by
        cases op <;> first | rfl | exact absurd trivial h0'
      rw [h3, alive_set_some _ _ _ _ h2, hc]
      simp
    · cases hl

theorem count_run (p : List (POp K)) (s s' : PState K) (l l' : List Nat) (h : p.foldlM POp.step s = .ok s') (hl : p.foldlM POp.scope l = some l') :
    l'.length + s.alive = l.length + s'.alive + p.countP POp.isCopy := by
  induction p generalizing s l with
  | nil =>
    simp only [List.foldlM_nil, pure, Except.pure, Except.ok.injEq, Option.pure_def, Option.some.injEq] at h hl
    subst h; subst hl; simp
  | cons op p ih =>
    rw [run_cons] at h
    rw [scope_cons] at hl
    obtain ⟨l1, hl1, hl2⟩ := Option.bind_eq_some_iff.1 hl
    cases hs : op.step s with
    | error e => rw [hs] at h; cases h
    | ok s1 =>
      rw [hs] at h
      have h1 := count_step hs hl1
      have h2 := ih s1 l1 h hl2
      rw [List.countP_cons]
      omega

/-! ## Without sharing, variables own their objects -/

/-- The variables alive are `l`, each refers to an object of its own, and every object is referred to. -/
structure PState.Own (l : List Nat) (s : PState K) : Prop where
  nodup : l.Nodup
  alive : ∀ v, v ∈ l ↔ ∃ a, s.vars v = some a
  valid : ∀ v a, s.vars v = some a → ∃ c, s.heap[a]? = some (some c)
  inj : ∀ v w a, s.vars v = some a → s.vars w = some a → v = w
  owned : ∀ (a : Nat) (c : Clipper K), s.heap[a]? = some (some c) → ∃ v, s.vars v = some a

omit [FTrans K] in
theorem own_init : (PState.init (K := K)).Own [] := ⟨List.nodup_nil, by simp [PState.init], by simp [PState.init], by simp [PState.init], by simp [PState.init]⟩

theorem own_step {s s' : PState K} {op : POp K} {l l' : List Nat} (O : s.Own l) (hn : ¬ op.Shares) (h : op.step s = .ok s')
    (hl : op.scope l = some l') : s'.Own l' := by
  rcases step_cases h with ⟨v, rfl, rfl⟩ | ⟨v, w, rfl, rfl⟩ | ⟨v, w, rfl, rfl⟩ | ⟨v, a, c, rfl, h1, h2, rfl⟩ | ⟨v, a, c, c', h0, h0', hsc, h1, h2, h3, h4, _⟩
  · simp only [POp.scope] at hl
    split at hl
    · cases hl
    · next hv =>
      simp only [Option.some.injEq] at hl
      subst hl
      have hfresh : ∀ w a, s.vars w = some a → a < s.heap.length := fun w a hw => by
        obtain ⟨c, hc⟩ := O.valid w a hw
        exact (List.getElem?_eq_some_iff.1 hc).1
      refine ⟨List.nodup_cons.2 ⟨hv, O.nodup⟩, ?_, ?_, ?_, ?_⟩
      · intro u
        simp only [PState.point, Function.update_apply, List.mem_cons]
        split
        · next e => simp [e]
        · next e => simp [e, O.alive u]
      · intro u a hu
        simp only [PState.point, Function.update_apply] at hu ⊢
        split at hu
        · simp only [Option.some.injEq] at hu
          subst hu
          exact ⟨Clipper.new, by simp⟩
        · obtain ⟨c, hc⟩ := O.valid u a hu
          exact ⟨c, by rw [List.getElem?_append_left (hfresh u a hu)]; exact hc⟩
      · intro u w a hu hw
        simp only [PState.point, Function.update_apply] at hu hw
        split at hu
        · next e =>
          split at hw
          · next e' => rw [e, e']
          · simp only [Option.some.injEq] at hu
            subst hu
            exact absurd (hfresh w _ hw) (Nat.lt_irrefl _)
        · split at hw
          · simp only [Option.some.injEq] at hw
            subst hw
            exact absurd (hfresh u _ hu) (Nat.lt_irrefl _)
          · exact O.inj u w a hu hw
      · intro a c hc
        simp only [PState.point] at hc ⊢
        by_cases ha : a < s.heap.length
        · rw [List.getElem?_append_left ha] at hc
          obtain ⟨u, hu⟩ := O.owned a c hc
          refine ⟨u, ?_⟩
          rw [Function.update_apply, if_neg ?_]
          · exact hu
          · rintro rfl
            exact hv ((O.alive u).2 ⟨a, hu⟩)
        · refine ⟨v, ?_⟩
          rw [Function.update_self]
          have := (List.getElem?_eq_some_iff.1 hc).1
          simp only [List.length_append, List.length_cons, List.length_nil] at this
          congr 1
          omega
  · exact absurd trivial hn
  · simp only [POp.Shares, ne_eq, not_not] at hn
    subst hn
    simp only [POp.scope] at hl
    split at hl
    · simp only [Option.some.injEq] at hl
      subst hl
      simpa [PState.point] using O
    · cases hl
  · simp only [POp.scope] at hl
    split at hl
    · simp only [Option.some.injEq] at hl
      subst hl
      refine ⟨O.nodup.erase v, ?_, ?_, ?_, ?_⟩
      · intro u
        rw [O.nodup.mem_erase_iff, O.alive u]
        simp only [PState.point, Function.update_apply]
        split
        · next e => simp [e]
        · next e => simp [e]
      · intro u b hu
        simp only [PState.point, Function.update_apply] at hu ⊢
        split at hu
        · cases hu
        · next e =>
          obtain ⟨c', hc'⟩ := O.valid u b hu
          refine ⟨c', ?_⟩
          rw [List.getElem?_set_ne ?_]
          · exact hc'
          · rintro rfl
            exact e (O.inj u v a hu h1)
      · intro u w b hu hw
        simp only [PState.point, Function.update_apply] at hu hw
        split at hu
        · cases hu
        · split at hw
          · cases hw
          · exact O.inj u w b hu hw
      · intro b c' hc'
        simp only [PState.point] at hc' ⊢
        have hab : a ≠ b := by
          rintro rfl
          rw [List.getElem?_set_self (List.getElem?_eq_some_iff.1 h2).1] at hc'
          cases hc'
        rw [List.getElem?_set_ne hab] at hc'
        obtain ⟨u, hu⟩ := O.owned b c' hc'
        refine ⟨u, ?_⟩
        rw [Function.update_apply, if_neg ?_]
        · exact hu
        · rintro rfl
          rw [h1] at hu
          exact hab (by simpa using hu)
    · cases hl
  · rw [hsc] at hl
    split at hl
    · simp only [Option.some.injEq] at hl
      subst hl
      have hset : ∀ (b : Nat), (∃ c, s'.heap[b]? = some (some c)) ↔ ∃ c, s.heap[b]? = some (some c) := by
        intro b
        rw [h3]
        by_cases hb : a = b
        · subst hb
          rw [List.getElem?_set_self (List.getElem?_eq_some_iff.1 h2).1]
          simp [h2]
        · rw [List.getElem?_set_ne hb]
      refine ⟨O.nodup, fun u => by rw [h4]; exact O.alive u, ?_, ?_, ?_⟩
      · intro u b hu
        rw [h4] at hu
        exact (hset b).2 (O.valid u b hu)
      · intro u w b hu hw
        rw [h4] at hu hw
        exact O.inj u w b hu hw
      · intro b x hx
        rw [h4]
        obtain ⟨x', hx'⟩ := (hset b).1 ⟨x, hx⟩
        exact O.owned b x' hx'
    · cases hl

/-- Operations of a variable alive do not touch memory that was freed. -/
theorem own_safe {s : PState K} {op : POp K} {l l' : List Nat} (O : s.Own l) (hl : op.scope l = some l') : op.step s ≠ .error .memory := by
  have hd : ∀ v, v ∈ l → ∃ a c, s.deref v = .ok (a, c) := fun v hv => by
    obtain ⟨a, ha⟩ := (O.alive v).1 hv
    obtain ⟨c, hc⟩ := O.valid v a ha
    exact ⟨a, c, deref_ok.2 ⟨ha, hc⟩⟩
  cases op with
  | create v => simp [POp.step]
  | copy v w => simp [POp.step]
  | assign v w => simp [POp.step]
  | destroy v =>
    simp only [POp.scope] at hl
    split at hl
    · next hv =>
      obtain ⟨a, c, h⟩ := hd v hv
      rw [POp.step, h]
      simp [bind, Except.bind]
    · cases hl
  | add v ps pt =>
    simp only [POp.scope] at hl
    split at hl
    · next hv =>
      obtain ⟨a, c, h⟩ := hd v hv
      rw [POp.step, h]
      simp only [bind, Except.bind]
      split <;> simp
    · cases hl
  | read v calls pt =>
    simp only [POp.scope] at hl
    split at hl
    · next hv =>
      obtain ⟨a, c, h⟩ := hd v hv
      rw [POp.step, h]
      simp only [bind, Except.bind]
      split <;> simp
    · cases hl
  | process v env msort fuel ct fr out =>
    simp only [POp.scope] at hl
    split at hl
    · next hv =>
      obtain ⟨a, c, h⟩ := hd v hv
      rw [POp.step, h]
      simp only [bind, Except.bind]
      split <;> simp
    · cases hl

theorem own_run (p : List (POp K)) (s : PState K) (l l' : List Nat) (O : s.Own l) (hn : ∀ op ∈ p, ¬ op.Shares) (hl : p.foldlM POp.scope l = some l') :
    p.foldlM POp.step s = .error .call ∨ ∃ s', p.foldlM POp.step s = .ok s' ∧ s'.Own l' := by
  induction p generalizing s l with
  | nil =>
    simp only [List.foldlM_nil, Option.pure_def, Option.some.injEq] at hl
    subst hl
    exact Or.inr ⟨s, rfl, O⟩
  | cons op p ih =>
    rw [scope_cons] at hl
    rw [run_cons]
    obtain ⟨l1, hl1, hl2⟩ := Option.bind_eq_some_iff.1 hl
    cases hs : op.step s with
    | error e =>
      cases e with
      | memory => exact absurd hs (own_safe O hl1)
      | call => exact Or.inl rfl
    | ok s1 => exact ih s1 l1 (own_step O (hn op List.mem_cons_self) hs hl1) (fun x hx => hn x (List.mem_cons_of_mem _ hx)) hl2

/-! ## An object no variable refers to is lost -/

/-- The object at `a` is not freed and no variable refers to it. -/
def PState.Lost (s : PState K) (a : Nat) : Prop := (∃ c, s.heap[a]? = some (some c)) ∧ ∀ v, s.vars v ≠ some a

theorem lost_step {s s' : PState K} {op : POp K} {a : Nat} (L : s.Lost a) (h : op.step s = .ok s') : s'.Lost a := by
  obtain ⟨⟨c0, hc0⟩, hv0⟩ := L
  rcases step_cases h with ⟨v, rfl, rfl⟩ | ⟨v, w, rfl, rfl⟩ | ⟨v, w, rfl, rfl⟩ | ⟨v, b, c, rfl, h1, h2, rfl⟩ | ⟨v, b, c, c', h0, h0', hsc, h1, h2, h3, h4, _⟩
  · have hlt := (List.getElem?_eq_some_iff.1 hc0).1
    refine ⟨⟨c0, by simp only [PState.point]; rw [List.getElem?_append_left hlt]; exact hc0⟩, fun u => ?_⟩
    simp only [PState.point, Function.update_apply]
    split
    · simp; omega
    · exact hv0 u
  · refine ⟨⟨c0, hc0⟩, fun u => ?_⟩
    simp only [PState.point, Function.update_apply]
    split
    · exact hv0 w
    · exact hv0 u
  · refine ⟨⟨c0, hc0⟩, fun u => ?_⟩
    simp only [PState.point, Function.update_apply]
    split
    · exact hv0 w
    · exact hv0 u
  · refine ⟨⟨c0, ?_⟩, fun u => ?_⟩
    · simp only [PState.point]
      rw [List.getElem?_set_ne (fun e => hv0 v (by rw [h1, e]))]
      exact hc0
    · simp only [PState.point, Function.update_apply]
      split
      · simp
      · exact hv0 u
  · refine ⟨⟨c0, ?_⟩, fun u => by rw [h4]; exact hv0 u⟩
    rw [h3, List.getElem?_set_ne (fun e => hv0 v (by rw [h1, e]))]
    exact hc0

theorem lost_run (p : List (POp K)) (s s' : PState K) (a : Nat) (L : s.Lost a) (h : p.foldlM POp.step s = .ok s') : s'.Lost a := by
  induction p generalizing s with
  | nil =>
    simp only [List.foldlM_nil, pure, Except.pure, Except.ok.injEq] at h
    subst h; exact L
  | cons op p ih =>
    rw [run_cons] at h
    cases hs : op.step s with
    | error e => rw [hs] at h; cases h
    | ok s1 => rw [hs] at h; exact ih s1 (lost_step L hs) h

omit [FTrans K] in
theorem first_sharing (p : List (POp K)) (h : ∃ op ∈ p, op.Shares) : ∃ p1 op p2, p = p1 ++ op :: p2 ∧ op.Shares ∧ ∀ x ∈ p1, ¬ x.Shares := by
  induction p with
  | nil => simp at h
  | cons x p ih =>
    by_cases hx : x.Shares
    · exact ⟨[], x, p, rfl, hx, by simp⟩
    · obtain ⟨op, ho, hs⟩ := h
      rcases List.mem_cons.1 ho with rfl | ho
      · exact absurd hs hx
      · obtain ⟨p1, y, p2, h1, h2, h3⟩ := ih ⟨op, ho, hs⟩
        refine ⟨x :: p1, y, p2, by rw [h1]; rfl, h2, fun z hz => ?_⟩
        rcases List.mem_cons.1 hz with rfl | hz
        · exact hx
        · exact h3 z hz

/-- **C66**: a whole program that neither copies a processor nor assigns one to another never uses or frees an object that was freed,
and when it is through, every object it allocated is freed. -/
theorem processor_memory (p : List (POp K)) (hp : WholeProg p) (hn : ∀ op ∈ p, ¬ op.Shares) :
    runProg p = .error .call ∨ ∃ s, runProg p = .ok s ∧ ∀ x ∈ s.heap, x = none := by
  rcases own_run p PState.init [] [] own_init hn hp with h | ⟨s, h, O⟩
  · exact Or.inl h
  · refine Or.inr ⟨s, h, fun x hx => ?_⟩
    cases x with
    | none => rfl
    | some c =>
      obtain ⟨a, ha⟩ := List.getElem?_of_mem hx
      obtain ⟨v, hv⟩ := O.owned a c ha
      exact absurd ((O.alive v).2 ⟨a, hv⟩) (by simp)

/-- **C66**: a whole program that copies a processor, or assigns one to another, never gets through: an object is freed twice or used
after it was freed (or one of its calls already failed). -/
theorem processor_copy (p : List (POp K)) (hp : WholeProg p) (hc : ∃ op ∈ p, op.Shares) : ∀ s, runProg p ≠ .ok s := by
  intro s hs
  have hcount := count_run p PState.init s [] [] hs hp
  simp only [List.length_nil, PState.init, PState.alive, List.countP_nil] at hcount
  have h0 : s.heap.countP Option.isSome = 0 := by omega
  have hcp : p.countP POp.isCopy = 0 := by omega
  obtain ⟨p1, op, p2, rfl, hop, hp1⟩ := first_sharing p hc
  cases op with
  | copy v w =>
    rw [List.countP_eq_zero] at hcp
    exact hcp _ (List.mem_append_right _ List.mem_cons_self) rfl
  | assign v w =>
    simp only [POp.Shares, ne_eq] at hop
    unfold WholeProg at hp
    rw [List.foldlM_append] at hp
    obtain ⟨l1, hl1, hl2⟩ := Option.bind_eq_some_iff.1 hp
    rw [runProg, List.foldlM_append] at hs
    rcases own_run p1 PState.init [] l1 own_init hp1 hl1 with h | ⟨s1, h, O⟩
    · rw [h] at hs; cases hs
    · rw [h] at hs
      simp only [bind, Except.bind, run_cons] at hs
      rw [scope_cons] at hl2
      obtain ⟨l2, hl3, _⟩ := Option.bind_eq_some_iff.1 hl2
      simp only [POp.scope] at hl3
      split at hl3
      · next hvw =>
        obtain ⟨a, ha⟩ := (O.alive v).1 hvw.1
        obtain ⟨c, hc'⟩ := O.valid v a ha
        have L : (s1.point v (s1.vars w)).Lost a := by
          refine ⟨⟨c, hc'⟩, fun u => ?_⟩
          simp only [PState.point, Function.update_apply]
          split
          · intro hw
            exact hop (O.inj v w a ha hw)
          · next hu =>
            intro hu'
            exact hu (O.inj u v a hu' ha)
        obtain ⟨⟨c2, hc2⟩, _⟩ := lost_run p2 _ s a L hs
        rw [List.countP_eq_zero] at h0
        exact h0 _ (List.mem_of_getElem? hc2) rfl
      · cases hl3
  | create v => exact hop
  | destroy v => exact hop
  | add v ps pt => exact hop
  | read v calls pt => exact hop
  | process v env msort fuel ct fr out => exact hop

/-! ## Independence -/

/-- In `t` only `v` exists, with the same content and history as in `s`. -/
structure Alike (v : Nat) (s t : PState K) : Prop where
  same : (s.vars v = none ∧ t.vars v = none) ∨ ∃ a b o, s.vars v = some a ∧ t.vars v = some b ∧ s.heap[a]? = some o ∧ t.heap[b]? = some o
  log : t.log = s.log.filter (fun e => e.1 == v)

omit [FTrans K] in
theorem alike_deref {v : Nat} {s t : PState K} (A : Alike v s t) : (s.deref v = .error .memory ∧ t.deref v = .error .memory) ∨
    ∃ a b c, s.deref v = .ok (a, c) ∧ t.deref v = .ok (b, c) := by
  rcases A.same with ⟨h1, h2⟩ | ⟨a, b, o, h1, h2, h3, h4⟩
  · left
    simp [PState.deref, h1, h2]
  · cases o with
    | none => left; simp [PState.deref, h1, h2, h3, h4]
    | some c => right; exact ⟨a, b, c, deref_ok.2 ⟨h1, h3⟩, deref_ok.2 ⟨h2, h4⟩⟩

omit [FTrans K] in
theorem alike_set {v : Nat} {s t : PState K} (A : Alike v s t) {a b : Nat} {c : Clipper K} (hs : s.deref v = .ok (a, c)) (ht : t.deref v = .ok (b, c))
    (c' : Clipper K) (e : List (Nat × List (Path K))) (he : ∀ x ∈ e, x.1 = v) :
    Alike v { s with heap := s.heap.set a (some c'), log := s.log ++ e } { t with heap := t.heap.set b (some c'), log := t.log ++ e } := by
  obtain ⟨h1, h2⟩ := deref_ok.1 hs
  obtain ⟨h3, h4⟩ := deref_ok.1 ht
  refine ⟨Or.inr ⟨a, b, some c', h1, h3, ?_, ?_⟩, ?_⟩
  · exact List.getElem?_set_self (List.getElem?_eq_some_iff.1 h2).1
  · exact List.getElem?_set_self (List.getElem?_eq_some_iff.1 h4).1
  · simp only [List.filter_append, A.log]
    congr 1
    rw [eq_comm, List.filter_eq_self]
    intro x hx
    simpa using he x hx

theorem alike_step {v : Nat} {s t : PState K} (A : Alike v s t) {op : POp K} (hv : op.var = v) (hn : ¬ op.Shares) :
    (∃ e, op.step s = .error e ∧ op.step t = .error e) ∨ ∃ s' t', op.step s = .ok s' ∧ op.step t = .ok t' ∧ Alike v s' t' := by
  cases op with
  | create w =>
    simp only [POp.var] at hv
    subst hv
    refine Or.inr ⟨_, _, rfl, rfl, Or.inr ⟨s.heap.length, t.heap.length, some Clipper.new, ?_, ?_, ?_, ?_⟩, A.log⟩ <;> simp [PState.point]
  | copy w x => exact absurd trivial hn
  | assign w x =>
    simp only [POp.var] at hv
    subst hv
    simp only [POp.Shares, ne_eq, not_not] at hn
    subst hn
    refine Or.inr ⟨_, _, rfl, rfl, ?_⟩
    simpa [PState.point] using A
  | destroy w =>
    simp only [POp.var] at hv
    subst hv
    rcases alike_deref A with ⟨h1, h2⟩ | ⟨a, b, c, h1, h2⟩
    · exact Or.inl ⟨.memory, by rw [POp.step, h1]; rfl, by rw [POp.step, h2]; rfl⟩
    · simp only [POp.step, h1, h2, bind, Except.bind]
      refine Or.inr ⟨_, _, rfl, rfl, Or.inl ?_, A.log⟩
      simp [PState.point]
  | add w ps pt =>
    simp only [POp.var] at hv
    subst hv
    rcases alike_deref A with ⟨h1, h2⟩ | ⟨a, b, c, h1, h2⟩
    · exact Or.inl ⟨.memory, by rw [POp.step, h1]; rfl, by rw [POp.step, h2]; rfl⟩
    · simp only [POp.step, h1, h2, bind, Except.bind]
      cases c.addPath ps pt with
      | none => exact Or.inl ⟨_, rfl, rfl⟩
      | some c' =>
        refine Or.inr ⟨_, _, rfl, rfl, ?_⟩
        simpa using alike_set A h1 h2 c' [] (by simp)
  | read w calls pt =>
    simp only [POp.var] at hv
    subst hv
    rcases alike_deref A with ⟨h1, h2⟩ | ⟨a, b, c, h1, h2⟩
    · exact Or.inl ⟨.memory, by rw [POp.step, h1]; rfl, by rw [POp.step, h2]; rfl⟩
    · simp only [POp.step, h1, h2, bind, Except.bind]
      cases c.addReader calls pt with
      | none => exact Or.inl ⟨_, rfl, rfl⟩
      | some c' =>
        refine Or.inr ⟨_, _, rfl, rfl, ?_⟩
        simpa using alike_set A h1 h2 c' [] (by simp)
  | process w env msort fuel ct fr out =>
    simp only [POp.var] at hv
    subst hv
    rcases alike_deref A with ⟨h1, h2⟩ | ⟨a, b, c, h1, h2⟩
    · exact Or.inl ⟨.memory, by rw [POp.step, h1]; rfl, by rw [POp.step, h2]; rfl⟩
    · simp only [POp.step, h1, h2, bind, Except.bind]
      cases c.processPaths env msort fuel ct fr out with
      | none => exact Or.inl ⟨_, rfl, rfl⟩
      | some r =>
        cases r with
        | none => exact Or.inl ⟨_, rfl, rfl⟩
        | some r =>
          obtain ⟨c', out'⟩ := r
          exact Or.inr ⟨_, _, rfl, rfl, alike_set A h1 h2 c' [(w, out')] (by simp)⟩

theorem alike_other {v : Nat} {s s' t : PState K} {l : List Nat} (O : s.Own l) (A : Alike v s t) {op : POp K} (hv : op.var ≠ v)
    (hn : ¬ op.Shares) (h : op.step s = .ok s') : Alike v s' t := by
  rcases step_cases h with ⟨w, rfl, rfl⟩ | ⟨w, x, rfl, rfl⟩ | ⟨w, x, rfl, rfl⟩ | ⟨w, a, c, rfl, h1, h2, rfl⟩ | ⟨w, a, c, c', h0, h0', hsc, h1, h2, h3, h4, e, h5, h6⟩
  · simp only [POp.var] at hv
    refine ⟨?_, A.log⟩
    simp only [PState.point]
    rw [Function.update_of_ne (Ne.symm hv)]
    rcases A.same with hh | ⟨a, b, o, g1, g2, g3, g4⟩
    · exact Or.inl hh
    · refine Or.inr ⟨a, b, o, g1, g2, ?_, g4⟩
      rw [List.getElem?_append_left (List.getElem?_eq_some_iff.1 g3).1]
      exact g3
  · exact absurd trivial hn
  · simp only [POp.Shares, ne_eq, not_not] at hn
    subst hn
    simpa [PState.point] using A
  · simp only [POp.var] at hv
    refine ⟨?_, A.log⟩
    simp only [PState.point]
    rw [Function.update_of_ne (Ne.symm hv)]
    rcases A.same with hh | ⟨a', b, o, g1, g2, g3, g4⟩
    · exact Or.inl hh
    · refine Or.inr ⟨a', b, o, g1, g2, ?_, g4⟩
      rw [List.getElem?_set_ne (fun e => hv (O.inj w v a h1 (by rw [g1, e])))]
      exact g3
  · refine ⟨?_, ?_⟩
    · rw [h4]
      rcases A.same with hh | ⟨a', b, o, g1, g2, g3, g4⟩
      · exact Or.inl hh
      · refine Or.inr ⟨a', b, o, g1, g2, ?_, g4⟩
        rw [h3, List.getElem?_set_ne (fun e => hv (h0.trans (O.inj w v a h1 (by rw [g1, e]))))]
        exact g3
    · rw [h5, List.filter_append, A.log]
      have : e.filter (fun x => x.1 == v) = [] := by
        rw [List.filter_eq_nil_iff]
        intro x hx
        rw [h6 x hx]
        simpa [← h0] using hv
      rw [this, List.append_nil]

theorem alike_run (v : Nat) (p : List (POp K)) (s t : PState K) (l l' : List Nat) (O : s.Own l) (A : Alike v s t) (hn : ∀ op ∈ p, ¬ op.Shares)
    (hl : p.foldlM POp.scope l = some l') (s' : PState K) (h : p.foldlM POp.step s = .ok s') :
    ∃ t', (p.filter (fun op => op.var == v)).foldlM POp.step t = .ok t' ∧ Alike v s' t' := by
  induction p generalizing s t l with
  | nil =>
    simp only [List.foldlM_nil, pure, Except.pure, Except.ok.injEq] at h
    subst h
    exact ⟨t, rfl, A⟩
  | cons op p ih =>
    rw [run_cons] at h
    rw [scope_cons] at hl
    obtain ⟨l1, hl1, hl2⟩ := Option.bind_eq_some_iff.1 hl
    have hno := hn op List.mem_cons_self
    cases hs : op.step s with
    | error e => rw [hs] at h; cases h
    | ok s1 =>
      rw [hs] at h
      have O1 := own_step O hno hs hl1
      rw [List.filter_cons]
      by_cases hv : op.var = v
      · rw [if_pos (by simpa using hv), run_cons]
        rcases alike_step A hv hno with ⟨e, he, _⟩ | ⟨s2, t2, h1, h2, A2⟩
        · rw [hs] at he; cases he
        · rw [hs, Except.ok.injEq] at h1
          subst h1
          rw [h2]
          exact ih s1 t2 l1 O1 A2 (fun x hx => hn x (List.mem_cons_of_mem _ hx)) hl2 h
      · rw [if_neg (by simpa using hv)]
        exact ih s1 t l1 O1 (alike_other O A hv hno hs) (fun x hx => hn x (List.mem_cons_of_mem _ hx)) hl2 h

omit [FTrans K] in
theorem alike_init (v : Nat) : Alike v (PState.init (K := K)) PState.init := ⟨Or.inl ⟨rfl, rfl⟩, rfl⟩

/-- **C67**: processors do not influence each other. In a program without sharing, however the operations on different variables are
interleaved, every variable gets the results it gets when only its own operations are carried out. -/
theorem processors_independent (p : List (POp K)) (l : List Nat) (hl : p.foldlM POp.scope [] = some l) (hn : ∀ op ∈ p, ¬ op.Shares) (s : PState K)
    (h : runProg p = .ok s) (v : Nat) :
    ∃ t, runProg (p.filter (fun op => op.var == v)) = .ok t ∧ t.log = s.log.filter (fun e => e.1 == v) := by
  obtain ⟨t, h1, A⟩ := alike_run v p PState.init PState.init [] l own_init (alike_init v) hn hl s h
  exact ⟨t, h1, A.log⟩

theorem alone_run (p : List (POp K)) (s : PState K) (l l' : List Nat) (O : s.Own l) (T : Nat → PState K) (A : ∀ v, Alike v s (T v)) (hn : ∀ op ∈ p, ¬ op.Shares)
    (hl : p.foldlM POp.scope l = some l') (h : ∀ v, ∃ t, (p.filter (fun op => op.var == v)).foldlM POp.step (T v) = .ok t) :
    ∃ s', p.foldlM POp.step s = .ok s' := by
  induction p generalizing s l T with
  | nil => exact ⟨s, rfl⟩
  | cons op p ih =>
    rw [scope_cons] at hl
    obtain ⟨l1, hl1, hl2⟩ := Option.bind_eq_some_iff.1 hl
    have hno := hn op List.mem_cons_self
    obtain ⟨t0, h0⟩ := h op.var
    rw [List.filter_cons, if_pos (by simp), run_cons] at h0
    rw [run_cons]
    rcases alike_step (A op.var) rfl hno with ⟨e, _, he⟩ | ⟨s1, t1, h1, h2, A1⟩
    · rw [he] at h0; cases h0
    · rw [h1]
      rw [h2] at h0
      refine ih s1 l1 (own_step O hno h1 hl1) (Function.update T op.var t1) ?_ (fun x hx => hn x (List.mem_cons_of_mem _ hx)) hl2 ?_
      · intro v
        by_cases hv : v = op.var
        · subst hv
          rw [Function.update_self]; exact A1
        · rw [Function.update_of_ne hv]
          exact alike_other O (A v) (Ne.symm hv) hno h1
      · intro v
        by_cases hv : v = op.var
        · subst hv
          rw [Function.update_self]; exact ⟨t0, h0⟩
        · rw [Function.update_of_ne hv]
          obtain ⟨t, ht⟩ := h v
          rw [List.filter_cons, if_neg (by simpa using Ne.symm hv)] at ht
          exact ⟨t, ht⟩

/-- **C67**: and a program without sharing gets through if the operations on each variable alone do. -/
theorem processors_interleave (p : List (POp K)) (l : List Nat) (hl : p.foldlM POp.scope [] = some l) (hn : ∀ op ∈ p, ¬ op.Shares)
    (h : ∀ v, ∃ t, runProg (p.filter (fun op => op.var == v)) = .ok t) : ∃ s, runProg p = .ok s :=
  alone_run p PState.init [] l own_init (fun _ => PState.init) alike_init hn hl h

/-! ## Concrete cases -/

/-- A point of the examples. -/
private def q (x y : Int) : Vec2 ℚ := ⟨x, y⟩

/-- Two processors in use at the same time. -/
def twoProcessors (env : Env ℚ) : List (POp ℚ) :=
  [.create 0, .create 1, .add 0 [Path.moveto Path.empty (q 0 0) |>.lineto (q 4 0) |>.lineto (q 4 4)] .subject,
   .read 1 [.move (q 0 0) (q 0 0), .line (q 0 0) (q 8 0), .line (q 8 0) (q 8 8)] .clip,
   .process 0 env id 9 .union .nonZero [], .process 1 env id 9 .none .nonZero [], .destroy 0, .assign 1 1, .destroy 1]

/-- The hypotheses of C66 and C67 are met. -/
theorem twoProcessors_ok (env : Env ℚ) : WholeProg (twoProcessors env) ∧ ∀ op ∈ twoProcessors env, ¬ op.Shares := by
  refine ⟨rfl, ?_⟩
  simp [twoProcessors, POp.Shares]

/-- The results in `output` of a run, with the variable. -/
def results (r : Except Fault (PState ℚ)) : Option (List (Nat × List (Path ℚ))) :=
  match r with
  | .ok s => some s.log
  | .error _ => none

/-- The run gets through: the first processor delivers its triangle, the second nothing. -/
theorem twoProcessors_run : results (runProg (twoProcessors demoEnv)) =
    some [(0, [(((Path.empty.moveto (q 0 0)).lineto (q 4 0)).lineto (q 4 4)).lineto (q 0 0)]), (1, [])] := by
  decide +kernel

/-- **C66**: a copy (as made by passing a processor by value, or by a growing `std::vector<processor>`) is destroyed, and the
object is freed a second time when the original is destroyed. -/
theorem copied_processor : WholeProg ([.create 0, .copy 1 0, .destroy 1, .destroy 0] : List (POp ℚ)) ∧
    runProg ([.create 0, .copy 1 0, .destroy 1, .destroy 0] : List (POp ℚ)) = .error .memory := ⟨rfl, rfl⟩

/-- **C66**: using the original after its copy is gone. -/
theorem copied_used : runProg ([.create 0, .copy 1 0, .destroy 1, .add 0 [] .clip] : List (POp ℚ)) = .error .memory := rfl

/-- **C66**: assigning loses one object and frees the other twice. -/
theorem assigned_processor : runProg ([.create 0, .create 1, .assign 0 1, .destroy 1, .destroy 0] : List (POp ℚ)) = .error .memory := rfl

end River
