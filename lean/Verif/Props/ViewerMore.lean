import Verif.Props.Viewer
import Verif.Spec.General

/-!
# The debug viewer (C83, C84): every drawing comes to an end; a concrete case
-/

namespace River
namespace Viewer

section
variable {K : Type} [FNum K] {f : Formats K} {pen : Pen K} {zero : Seg K}

omit [FNum K] in
/-- How often a step of program `i`, or for it, was made. -/
def stepsOf (i : ℕ) (ls : List (Label K)) : ℕ := (ls.filter fun
  | .sent j _ => j == i
  | .refused j _ => j == i
  | .handled j => j == i
  | .answered j => j == i
  | .drew j _ => j == i
  | _ => false).length

omit [FNum K] in
theorem stepsOf_snoc (i : ℕ) (ls : List (Label K)) (l : Label K) : stepsOf i (ls ++ [l]) = stepsOf i ls + stepsOf i [l] := by
  simp [stepsOf, List.filter_append]

/-- **C84**: no program keeps the viewer busy for ever: a shape takes at most four steps, whatever the schedule. -/
theorem viewer_steps {progs : ℕ → List (Shape K)} {ls : List (Label K)} {s : VState K} (h : Run f pen zero (start progs) ls (some s)) (i : ℕ) :
    stepsOf i ls + 4 * (s.todo i).length + 3 * (coming i s.arrived).length + s.handled.count i + (queued i s.queue).length ≤
      4 * (progs i).length := by
  generalize hr : some s = r at h
  induction h generalizing s with
  | nil => cases hr; simp [stepsOf, start, coming, queued]
  | snoc ls l s' r h hs ih =>
    subst hr
    have ih := ih rfl
    rw [stepsOf_snoc]
    generalize hr : some s = r at hs
    cases hs with
    | send j x rest hw ht =>
      cases hr
      rw [coming_append]
      by_cases hj : j = i
      · subst hj
        rw [ht] at ih
        simp [stepsOf, coming] at ih ⊢
        omega
      · have hj' : ¬ i = j := fun e => hj e.symm
        simp [stepsOf, coming, hj, hj'] at ih ⊢
        omega
    | refuse j x rest hw ht =>
      cases hr
      by_cases hj : j = i
      · subst hj
        rw [ht] at ih
        simp [stepsOf] at ih ⊢
        omega
      · have hj' : ¬ i = j := fun e => hj e.symm
        simp [stepsOf, hj, hj'] at ih ⊢
        omega
    | handle j p a b ha =>
      cases hr
      rw [ha] at ih
      rw [queued_append]
      by_cases hj : j = i
      · subst hj
        have hq : (queued j ((((route p.url).bind fun type => (getFile (some [p.file]) type).1).map fun e => (j, e)).toList)).length ≤ 1 := by
          refine (List.length_filterMap_le _ _).trans ?_
          cases (((route p.url).bind fun type => (getFile (some [p.file]) type).1).map fun e => (j, e)) <;> simp
        simp [stepsOf, coming] at ih hq ⊢
        omega
      · have hq : queued i ((((route p.url).bind fun type => (getFile (some [p.file]) type).1).map fun e => (j, e)).toList) = [] := by
          unfold queued
          rw [List.filterMap_eq_nil_iff]
          intro e he
          rw [Option.mem_toList, Option.map_eq_some_iff] at he
          obtain ⟨e', _, rfl⟩ := he
          simp [hj]
        rw [hq]
        simp [stepsOf, coming, hj, List.count_singleton] at ih ⊢
        omega
    | answer j a b ha =>
      cases hr
      rw [ha] at ih
      by_cases hj : j = i
      · subst hj
        simp [stepsOf, List.count_append] at ih ⊢
        omega
      · simp [stepsOf, List.count_append, List.count_cons, hj] at ih ⊢
        omega
    | draw j buffer type q hq =>
      cases hr
      rw [hq] at ih
      by_cases hj : j = i
      · subst hj
        simp [stepsOf, queued] at ih ⊢
        omega
      · simp [stepsOf, queued, hj] at ih ⊢
        omega
    | clear => cases hr; simpa [stepsOf] using ih
    | mouse o c e =>
      rw [eq_comm, Option.map_eq_some_iff] at hr
      obtain ⟨v, _, rfl⟩ := hr
      simpa [stepsOf] using ih

/-- **C84**: and it never gets stuck: as long as a shape has not been drawn, some thread can make a step other than refusing a request. -/
theorem viewer_progress (hf : f.Faithful) {progs : ℕ → List (Shape K)} {ls : List (Label K)} {s : VState K}
    (h : Run f pen zero (start progs) ls (some s)) (hleft : ¬ (s.Quiet ∧ ∀ i, s.todo i = [])) : ∃ l t, Step f pen zero s l (some t) ∧
      ((∃ i x, l = .sent i x) ∨ (∃ i, l = .handled i) ∨ (∃ i, l = .answered i) ∨ ∃ i x, l = .drew i x) := by
  cases hq : s.queue with
  | cons e q => obtain ⟨i, b, t⟩ := e; exact ⟨_, _, .draw s i b t q hq, Or.inr (Or.inr (Or.inr ⟨_, _, rfl⟩))⟩
  | nil =>
    cases ha : s.arrived with
    | cons e a => obtain ⟨i, p⟩ := e; exact ⟨_, _, .handle s i p [] a ha, Or.inr (Or.inl ⟨_, rfl⟩)⟩
    | nil =>
      cases hh : s.handled with
      | cons i a => exact ⟨_, _, .answer s i [] a hh, Or.inr (Or.inr (Or.inl ⟨_, rfl⟩))⟩
      | nil =>
        have hw : ∀ i, s.wait i = false := by
          intro i
          have := (h.inv hf i).one
          rw [ha, hh] at this
          by_contra hne
          rw [Bool.not_eq_false] at hne
          rw [hne] at this
          simp [coming] at this
        by_cases ht : ∀ i, s.todo i = []
        · exact absurd ⟨⟨hw, hq⟩, ht⟩ hleft
        · push Not at ht
          obtain ⟨i, hi⟩ := ht
          obtain ⟨x, rest, hx⟩ := List.exists_cons_of_ne_nil hi
          exact ⟨_, _, .send s i x rest (hw i) hx, Or.inl ⟨_, _, rfl⟩⟩

/-- A concrete case of C84: two programs, the second one's shape overtakes the first one's on the way. The first program's shapes stay in order. -/
theorem viewer_interleaved (hf : f.Faithful) (a b c : Shape K) : ∃ ls s,
    Run f pen zero (start fun i => if i = 0 then [a, b] else if i = 1 then [c] else []) ls (some s) ∧
    s.pane.shown = [c.look, a.look, b.look] ∧ drawn 0 ls = [some a.look, some b.look] ∧ drawn 1 ls = [some c.look] := by
  obtain ⟨ta, a1, a2, a3⟩ := shape_arrives f hf a
  obtain ⟨tb, b1, b2, b3⟩ := shape_arrives f hf b
  obtain ⟨tc, c1, c2, c3⟩ := shape_arrives f hf c
  have r1 := Run.snoc _ _ _ _ (Run.nil (f := f) (pen := pen) (zero := zero)
    (s₀ := start fun i => if i = 0 then [a, b] else if i = 1 then [c] else [])) (.send _ 0 a [b] rfl rfl)
  have r2 := Run.snoc _ _ _ _ r1 (.send _ 1 c [] rfl rfl)
  have r3 := Run.snoc _ _ _ _ r2 (.handle _ 1 (c.post f) [(0, a.post f)] [] rfl)
  have r4 := Run.snoc _ _ _ _ r3 (.handle _ 0 (a.post f) [] [] rfl)
  have r5 := Run.snoc _ _ _ _ r4 (.answer _ 0 [1] [] rfl)
  have r6 := Run.snoc _ _ _ _ r5 (.send _ 0 b [] rfl rfl)
  simp only [c1, a1, a2, c2, Option.bind_some, Option.map_some, Option.toList_some, start, List.nil_append, List.cons_append] at r6
  have r7 := Run.snoc _ _ _ _ r6 (.draw _ 1 (c.post f).file tc _ rfl)
  have r8 := Run.snoc _ _ _ _ r7 (.draw _ 0 (a.post f).file ta _ rfl)
  have r9 := Run.snoc _ _ _ _ r8 (.handle _ 0 (b.post f) [] [] rfl)
  simp only [b1, b2, Option.bind_some, Option.map_some, Option.toList_some, List.nil_append] at r9
  have r10 := Run.snoc _ _ _ _ r9 (.draw _ 0 (b.post f).file tb _ rfl)
  simp only [a3, b3, c3] at r10
  exact ⟨_, _, r10, rfl, rfl, rfl⟩

end

/-! ## A format that keeps the contract -/

/-- A natural number as that many ones and a zero. -/
def natWire : Wire ℕ := ⟨fun n => List.replicate n 1 ++ [0], fun b => ((b.takeWhile (· == 1)).length, b.drop ((b.takeWhile (· == 1)).length + 1))⟩

theorem natWire_faithful : natWire.Faithful := by
  intro n r
  have h : (List.replicate n (1 : UInt8) ++ (0 :: r)).takeWhile (· == 1) = List.replicate n 1 := by
    induction n with
    | zero => rfl
    | succ n ih => rw [List.replicate_succ, List.cons_append, List.takeWhile_cons]; simp [ih]
  show ((_ : List UInt8).length, _) = _
  rw [show natWire.put n ++ r = List.replicate n (1 : UInt8) ++ (0 :: r) by simp [natWire], h]
  rw [List.length_replicate]
  congr 1
  have : n + 1 = (List.replicate n (1 : UInt8) ++ [0]).length := by simp
  rw [show List.replicate n (1 : UInt8) ++ 0 :: r = (List.replicate n (1 : UInt8) ++ [0]) ++ r by simp, this, List.drop_left]

/-- One value after the other. -/
def Wire.then {α β : Type} (w : Wire α) (v : Wire β) : Wire (α × β) :=
  ⟨fun p => w.put p.1 ++ v.put p.2, fun b => (((w.get b).1, (v.get (w.get b).2).1), (v.get (w.get b).2).2)⟩

theorem Wire.then_faithful {α β : Type} {w : Wire α} {v : Wire β} (hw : w.Faithful) (hv : v.Faithful) : (w.then v).Faithful := by
  intro p r
  simp [Wire.then, List.append_assoc, hw _ _, hv _ _]

/-- The same under another name. -/
def Wire.via {α β : Type} (w : Wire α) (to' : β → α) (back : α → β) : Wire β := ⟨fun b => w.put (to' b), fun b => (back (w.get b).1, (w.get b).2)⟩

theorem Wire.via_faithful {α β : Type} {w : Wire α} (hw : w.Faithful) {g : β → α} {k : α → β} (h : ∀ b, k (g b) = b) : (w.via g k).Faithful := by
  intro b r
  simp [Wire.via, hw _ _, h]

/-- Rational numbers: sign, numerator, denominator. -/
def ratWire : Wire ℚ := (natWire.then (natWire.then natWire)).via (fun q => (if q < 0 then 1 else 0, q.num.natAbs, q.den))
  (fun t => (if t.1 = 1 then -(t.2.1 : ℚ) else t.2.1) / t.2.2)

theorem ratWire_faithful : ratWire.Faithful := by
  refine Wire.via_faithful (Wire.then_faithful natWire_faithful (Wire.then_faithful natWire_faithful natWire_faithful)) fun q => ?_
  by_cases h : q < 0
  · have hn : (q.num.natAbs : ℚ) = -(q.num : ℚ) := by
      have : (q.num.natAbs : ℤ) = -q.num := by have := Rat.num_neg.2 h; omega
      have h2 := congrArg (Int.cast : ℤ → ℚ) this
      rwa [Int.cast_natCast, Int.cast_neg] at h2
    simp only [h, if_true, hn, neg_neg]
    exact Rat.num_div_den q
  · have hn : (q.num.natAbs : ℚ) = (q.num : ℚ) := by
      have : (q.num.natAbs : ℤ) = q.num := by have := Rat.num_nonneg.2 (not_lt.1 h); omega
      have h2 := congrArg (Int.cast : ℤ → ℚ) this
      rwa [Int.cast_natCast] at h2
    simp only [h, if_false, hn, zero_ne_one]
    exact Rat.num_div_den q

/-- Formats for rational numbers. -/
def ratFormats : Formats ℚ := ⟨ratWire,
  (natWire.then (ratWire.then (natWire.then natWire))).via (fun p => (p.color, p.width, p.style, if p.cosmetic then 1 else 0))
    (fun t => ⟨t.1, t.2.1, t.2.2.1, t.2.2.2 == 1⟩),
  (natWire.then natWire).via (fun b => (b.color, b.style)) (fun t => ⟨t.1, t.2⟩)⟩

theorem ratFormats_faithful : ratFormats.Faithful := by
  refine ⟨ratWire_faithful, ?_, ?_⟩ <;> unfold ratFormats <;> dsimp only
  · refine Wire.via_faithful (Wire.then_faithful natWire_faithful (Wire.then_faithful ratWire_faithful
      (Wire.then_faithful natWire_faithful natWire_faithful))) fun p => ?_
    rcases p with ⟨_, _, _, _ | _⟩ <;> rfl
  · exact Wire.via_faithful (Wire.then_faithful natWire_faithful natWire_faithful) fun b => rfl

section
variable {K : Type} [Field K] [LinearOrder K] [IsStrictOrderedRing K] [FTrans K] [Exact K]

attribute [local instance 10000] FTrans.toFNum

/-- **C83**: with exact arithmetic a point is a disc of diameter 1 around it, filled with the colour of the pen. -/
theorem point_disc (p : Vec2 K) (pen : Pen K) : ∃ r, (Shape.point p pen).look = .ellipse r pen ⟨pen.color, 1⟩ ∧
    r.w = 1 ∧ r.h = 1 ∧ r.x + r.w / 2 = p.x ∧ r.y + r.h / 2 = p.y := by
  have hl : (FNum.lit (1 / 2) : K) = 1 / 2 := by rw [Exact.lit_eq]; norm_num
  refine ⟨_, rfl, ?_, ?_, ?_, ?_⟩ <;> simp only [hl, Exact.add_eq, Exact.sub_eq] <;> ring
end

end Viewer
end River
