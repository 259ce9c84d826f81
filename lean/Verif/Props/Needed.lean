import Verif.Props.PolygonsDemo
import Verif.Props.Witness

/-! # C59: the conditions on the polygons are needed

For each of the conditions `meet`, `corner`, `start`, `overlap`, `minima` of `GeneralPolygons` there are polygons that meet all other conditions and for
which `process` fails or delivers something else. (Of the other conditions, `proper` and `turn` are dispensable, see C90; `range` holds for every finite
double but the lowest.) -/

namespace River

/-- The conditions of `GeneralPolygons`. -/
inductive Cond | proper | turn | range | meet | along | corner | start | overlap | minima
  deriving DecidableEq

/-- What each of them says. -/
def Cond.Holds {K : Type} [Field K] [LinearOrder K] (Ps : List (List (Vec2 K))) : Cond → Prop
  | .proper => ∀ s ∈ Ps.flatMap polySides, s.1 ≠ s.2
  | .turn => ∀ P ∈ Ps, ∃ p ∈ P, ∃ q ∈ P, p.y ≠ q.y
  | .range => ∀ P ∈ Ps, ∀ p ∈ P, -(dblMax : K) ≤ p.x ∧ p.x ≤ dblMax ∧ -(dblMax : K) < p.y ∧ p.y ≤ dblMax
  | .meet => (Ps.flatMap polySides).Pairwise (fun s t => MeetOk s.1 s.2 t.1 t.2)
  | .along => ∀ s ∈ Ps.flatMap polySides, ∀ t ∈ Ps.flatMap polySides, t.1.y ≠ t.2.y → Parallel s.1 s.2 t.1 t.2 →
      ∀ p, p = s.1 ∨ p = s.2 → InsideSeg p t.1 t.2 → ∃ u ∈ Ps.flatMap polySides, ¬ Parallel u.1 u.2 t.1 t.2 ∧ OnSeg p u.1 u.2
  | .corner => ∀ P ∈ Ps, ∀ i n, Ledge P i n → ∀ j, j < n → ∀ p, OnSeg p (cornerAt P (i + j)) (cornerAt P (i + j + 1)) →
      (Ps.flatMap polySides).Pairwise (fun s t => OnSeg p s.1 s.2 → OnSeg p t.1 t.2 → GoesUp p s.1 s.2 → GoesUp p t.1 t.2 →
        Parallel s.1 s.2 t.1 t.2)
  | .start => ∀ (k k' : Nat) (P P' : List (Vec2 K)), Ps[k]? = some P → Ps[k']? = some P' → ∀ i i' n n', Ledge P i n → Ledge P' i' n' →
      ¬ (k = k' ∧ i % P.length = i' % P.length) → ledgeStart P i n ≠ ledgeStart P' i' n'
  | .overlap => ∀ (k k' : Nat) (P P' : List (Vec2 K)), Ps[k]? = some P → Ps[k']? = some P' → ∀ i i' n n', Ledge P i n → Ledge P' i' n' →
      ∀ j j', j < n → j' < n' →
      ¬ (k = k' ∧ (i + j) % P.length = (i' + j') % P.length) → (cornerAt P i).y = (cornerAt P' i').y →
      max (cornerAt P (i + j)).x (cornerAt P (i + j + 1)).x ≤ min (cornerAt P' (i' + j')).x (cornerAt P' (i' + j' + 1)).x ∨
        max (cornerAt P' (i' + j')).x (cornerAt P' (i' + j' + 1)).x ≤ min (cornerAt P (i + j)).x (cornerAt P (i + j + 1)).x
  | .minima => ∀ P ∈ Ps, ∀ (a b : Vec2 K) (l : List (Vec2 K)) (hl : l ≠ []), Successive P (a :: l ++ [b]) →
      ∀ y, (∀ q ∈ l, q.y = y) → y < a.y → y < b.y →
      (Ps.flatMap polySides).Pairwise (fun u v => ¬ (RunsBetween y (l.getLast hl, b) (a, l.head hl) u ∧ RunsBetween y (l.getLast hl, b) (a, l.head hl) v))

theorem generalPolygons_iff {K : Type} [Field K] [LinearOrder K] (Ps : List (List (Vec2 K))) : GeneralPolygons Ps ↔ ∀ c, Cond.Holds Ps c := by
  constructor
  · rintro ⟨h1, h2, h3, h4, h5, h6, h7, h8, h9⟩ c
    cases c <;> assumption
  · intro h
    exact ⟨h .proper, h .turn, h .range, h .meet, h .along, h .corner, h .start, h .overlap, h .minima⟩

/-- A finite check for every condition. -/
def condB (Ps : List (List (Vec2 ℚ))) : Cond → Bool
  | .proper => (Ps.flatMap polySides).all (fun s => decide (s.1 ≠ s.2))
  | .turn => Ps.all (fun P => P.any (fun p => P.any (fun q => decide (p.y ≠ q.y))))
  | .range => Ps.all (fun P => P.all (fun p => decide (-dblMax ≤ p.x ∧ p.x ≤ dblMax ∧ -dblMax < p.y ∧ p.y ≤ dblMax)))
  | .meet => decide ((Ps.flatMap polySides).Pairwise (fun s t => meetB s.1 s.2 t.1 t.2 = true))
  | .along => alongB (Ps.flatMap polySides)
  | .corner => (allLedges Ps).all (fun a => (List.range a.2.2).all (fun j =>
      decide ((Ps.flatMap polySides).Pairwise (fun s t => cornerB (cornerAt a.1.2 (a.2.1 + j), cornerAt a.1.2 (a.2.1 + j + 1)) s t = true))))
  | .start => (allLedges Ps).all (fun a => (allLedges Ps).all (fun b => (decide (a.1.1 = b.1.1) && decide (a.2.1 = b.2.1)) ||
      decide (ledgeStart a.1.2 a.2.1 a.2.2 ≠ ledgeStart b.1.2 b.2.1 b.2.2)))
  | .overlap => (allLedges Ps).all (fun a => (allLedges Ps).all (fun b => (List.range a.2.2).all (fun j => (List.range b.2.2).all (fun j' =>
      let p := cornerAt a.1.2 (a.2.1 + j)
      let p' := cornerAt a.1.2 (a.2.1 + j + 1)
      let q := cornerAt b.1.2 (b.2.1 + j')
      let q' := cornerAt b.1.2 (b.2.1 + j' + 1)
      (decide (a.1.1 = b.1.1) && decide ((a.2.1 + j) % a.1.2.length = (b.2.1 + j') % a.1.2.length)) ||
        decide ((cornerAt a.1.2 a.2.1).y ≠ (cornerAt b.1.2 b.2.1).y) || decide (max p.x p'.x ≤ min q.x q'.x) || decide (max q.x q'.x ≤ min p.x p'.x)))))
  | .minima => Ps.all (minimaB (Ps.flatMap polySides))

theorem condB_sound {Ps : List (List (Vec2 ℚ))} {c : Cond} (h : condB Ps c = true) : Cond.Holds Ps c := by
  cases c <;> simp only [condB, Bool.and_eq_true, Bool.or_eq_true, List.all_eq_true, List.any_eq_true, decide_eq_true_eq, List.mem_range] at h
  · exact h
  · exact h
  · intro P hP p hp
    simpa using h P hP p hp
  · exact h.imp (fun h => meetB_sound h)
  · exact alongB_sound h
  · intro P hP i n hL j hj p hp
    obtain ⟨k, hk⟩ := List.getElem?_of_mem hP
    have := h _ (mem_allLedges hk hL) j hj
    dsimp only at this
    rw [Nat.add_assoc, cornerAt_mod, cornerAt_mod, ← Nat.add_assoc] at this
    refine this.imp (fun h ps pt us ut => cornerB_sound h ?_ hp ps pt us ut)
    show (cornerAt P (i + j)).y = (cornerAt P (i + j + 1)).y
    rw [hL.flat j hj.le, Nat.add_assoc, hL.flat (j + 1) hj]
  · intro k k' P P' hP hP' i i' n n' hL hL' hne
    rcases h _ (mem_allLedges hP hL) _ (mem_allLedges hP' hL') with h | h
    · refine absurd ⟨h.1, ?_⟩ hne
      have e : P = P' := Option.some.inj (by rw [← hP, ← hP', show k = k' from h.1])
      subst e
      exact h.2
    · dsimp only at h
      rw [(mem_ledges hL).2.2, (mem_ledges hL').2.2] at h
      exact h
  · intro k k' P P' hP hP' i i' n n' hL hL' j j' hj hj' hne hy
    have := h _ (mem_allLedges hP hL) _ (mem_allLedges hP' hL') j hj j' hj'
    dsimp only at this
    have e0 : cornerAt P (i % P.length) = cornerAt P i := cornerAt_mod P i 0
    have e0' : cornerAt P' (i' % P'.length) = cornerAt P' i' := cornerAt_mod P' i' 0
    rw [Nat.add_assoc (i % P.length), cornerAt_mod, cornerAt_mod, ← Nat.add_assoc, Nat.add_assoc (i' % P'.length), cornerAt_mod, cornerAt_mod, ← Nat.add_assoc,
      e0, e0'] at this
    rcases this with ((h | h) | h) | h
    · refine absurd ⟨h.1, ?_⟩ hne
      have e : P = P' := Option.some.inj (by rw [← hP, ← hP', show k = k' from h.1])
      subst e
      have := h.2
      rwa [Nat.mod_add_mod, Nat.mod_add_mod] at this
    · exact absurd hy h
    · exact Or.inl h
    · exact Or.inr h
  · intro P hP a b l hl hsucc y hy ha hb
    exact bottomB_sound hl (minimaB_sound (h P hP) hsucc) hy ha hb

/-- Polygons given by pairs of numbers. -/
def ofPairs (Ps : List (List (ℚ × ℚ))) : List (List (Vec2 ℚ)) := Ps.map (·.map (fun p => ⟨p.1, p.2⟩))

/-- The witnesses: subject, clip, operation (the rule is `positive`). -/
def needs : Cond → List (List (ℚ × ℚ)) × List (List (ℚ × ℚ)) × ClipType
  | .meet => ([[(0, 0), (10, 5), (0, 10)]], [[(-4, 1), (1 / 1000000, 5), (4, 9), (-6, 19 / 2)]], .intersection)
  | .corner => ([[(1, 0), (2, 1), (4, 1), (0, 2)]], [[(3, 2), (1, 0), (2, 0)], [(1, 0), (4, 1), (4, 2)]], .union)
  | .start => ([[(2, 1), (1, 1), (2, 2), (1, 0), (3, 0)]], [[(2, 1), (3, 1), (3, 2), (1, 0)]], .union)
  | .overlap => ([[(3, 0), (4, 1), (3, 2)]], [[(0, 0), (4, 1), (1, 1), (3, 2)], [(2, 0), (4, 1), (3, 2), (2, 1), (1, 1)]], .union)
  | _ => ([[(2, 1), (3, 3), (0, 2), (4, 1)]], [[(3, 0), (2, 4), (1, 1)]], .union)

/-! ## more rounds than needed change nothing -/

section
variable {K : Type} [FTrans K]

/-- Once the main loop has finished (or failed), a larger bound on its rounds makes no difference. -/
theorem sweep_steady (rings : List (Ring K)) (ct : ClipType) (fr : FillRule) (fuel k : Nat) (y : K) (st : St K) (r : Option (Option (St K)))
    (h : sweep rings ct fr fuel y st = r) (hr : r ≠ some none) : sweep rings ct fr (fuel + k) y st = r := by
  induction fuel generalizing y st with
  | zero => exact absurd h.symm hr
  | succ fuel ih =>
    rw [show fuel + 1 + k = (fuel + k) + 1 by omega]
    unfold sweep at h ⊢
    cases h1 : sweepA rings ct fr y st with
    | none => rw [h1] at h; exact h
    | some st1 =>
      rw [h1] at h
      simp only [Option.bind_some] at h ⊢
      cases h2 : popScan y st1.scan with
      | none => rw [h2] at h; exact h
      | some q =>
        obtain ⟨y', scan'⟩ := q
        rw [h2] at h
        simp only at h ⊢
        cases h3 : sweepB rings y' { st1 with scan := scan' } with
        | none => rw [h3] at h; exact h
        | some st2 =>
          rw [h3] at h
          simp only [Option.bind_some] at h ⊢
          exact ih y' st2 h

/-- The same for `process`. -/
theorem process_steady {σ : Type} (env : Env K) (msort : List (LocMin K) → List (LocMin K)) (fuel k : Nat) (c : Clipper K) (ct : ClipType) (fr : FillRule)
    (f : Funcs K σ) (u : σ) (r : Option (Option (Clipper K × σ))) (h : c.process env msort fuel ct fr f u = r) (hr : r ≠ some none) :
    c.process env msort (fuel + k) ct fr f u = r := by
  unfold Clipper.process at h ⊢
  cases h1 : processIntersect env c.rings with
  | none => rw [h1] at h; exact h
  | some rings =>
    rw [h1] at h
    simp only [Option.bind_some] at h ⊢
    cases h2 : popScan (FNum.neg FNum.maxNum) (resetSt msort rings c.out c.changes c.scan).scan with
    | none => rw [h2] at h; exact h
    | some q =>
      obtain ⟨y, scan'⟩ := q
      rw [h2] at h
      simp only at h ⊢
      cases h3 : sweep rings ct fr fuel y { resetSt msort rings c.out c.changes c.scan with scan := scan' } with
      | none =>
        rw [h3] at h
        rw [sweep_steady rings ct fr fuel k y _ none h3 (by simp)]
        exact h
      | some o =>
        cases o with
        | none => rw [h3] at h; exact absurd h.symm hr
        | some st' =>
          rw [h3] at h
          rw [sweep_steady rings ct fr fuel k y _ (some (some st')) h3 (by simp)]
          exact h

end

/-- The call of `process` fails with undefined behaviour, or it delivers nothing although there are points in the result. -/
def GoesWrong (subject clip : List (List (ℚ × ℚ))) (ct : ClipType) : Prop :=
  ∃ c1 c2 : Clipper ℚ, (Clipper.new (K := ℚ)).addPath ((ofPairs subject).map (fun P => Path.build (polyCmds P))) .subject = some c1 ∧
    c1.addPath ((ofPairs clip).map (fun P => Path.build (polyCmds P))) .clip = some c2 ∧
    ((∀ fuel, 60 ≤ fuel → c2.process demoEnv minsort fuel ct .positive Path.recorder [] = none) ∨
      ∃ X y : ℚ, InResult (ofPairs subject) (ofPairs clip) ct .positive X y ∧
        ∀ fuel, 60 ≤ fuel → ∃ c', c2.process demoEnv minsort fuel ct .positive Path.recorder [] = some (some (c', [])))

/-- A finite check for `GoesWrong`, with the point to look at. -/
def wrongB (subject clip : List (List (ℚ × ℚ))) (ct : ClipType) (X y : ℚ) : Bool :=
  match (Clipper.new (K := ℚ)).addPath ((ofPairs subject).map (fun P => Path.build (polyCmds P))) .subject with
  | none => false
  | some c1 => match c1.addPath ((ofPairs clip).map (fun P => Path.build (polyCmds P))) .clip with
    | none => false
    | some c2 => match c2.process demoEnv minsort 60 ct .positive Path.recorder [] with
      | none => true
      | some none => false
      | some (some (_, es)) => es.isEmpty && match ct with
        | .union => decide (0 < polyWinding (ofPairs subject) X y ∨ 0 < polyWinding (ofPairs clip) X y)
        | .intersection => decide (0 < polyWinding (ofPairs subject) X y ∧ 0 < polyWinding (ofPairs clip) X y)
        | _ => false

theorem wrongB_sound {subject clip : List (List (ℚ × ℚ))} {ct : ClipType} {X y : ℚ} (h : wrongB subject clip ct X y = true) :
    GoesWrong subject clip ct := by
  unfold wrongB at h
  cases h1 : (Clipper.new (K := ℚ)).addPath ((ofPairs subject).map (fun P => Path.build (polyCmds P))) .subject with
  | none => rw [h1] at h; cases h
  | some c1 =>
    rw [h1] at h
    dsimp only at h
    cases h2 : c1.addPath ((ofPairs clip).map (fun P => Path.build (polyCmds P))) .clip with
    | none => rw [h2] at h; cases h
    | some c2 =>
      rw [h2] at h
      dsimp only at h
      refine ⟨c1, c2, h1, h2, ?_⟩
      cases h3 : c2.process demoEnv minsort 60 ct .positive Path.recorder [] with
      | none =>
        refine Or.inl (fun fuel hf => ?_)
        obtain ⟨k, rfl⟩ := Nat.exists_eq_add_of_le hf
        exact process_steady _ _ 60 k c2 _ _ _ _ none h3 (by simp)
      | some o =>
        cases o with
        | none => rw [h3] at h; cases h
        | some q =>
          obtain ⟨c', es⟩ := q
          rw [h3] at h
          dsimp only at h
          rw [Bool.and_eq_true] at h
          obtain ⟨he, hin⟩ := h
          refine Or.inr ⟨X, y, ?_, fun fuel hf => ?_⟩
          · unfold InResult
            cases ct <;> simp only [decide_eq_true_eq, Bool.false_eq_true] at hin
            · exact hin
            · exact hin
          · obtain ⟨k, rfl⟩ := Nat.exists_eq_add_of_le hf
            rw [List.isEmpty_iff.1 he] at h3
            exact ⟨c', process_steady _ _ 60 k c2 _ _ _ _ _ h3 (by simp)⟩

/-- **C59.** None of these conditions of `GeneralPolygons` can be dropped: there are polygons that meet all others, and an operation whose result is
directed as `process_polygons` asks, for which the call fails or delivers nothing although it should. -/
theorem conditions_needed (c : Cond) (hc : c = .meet ∨ c = .corner ∨ c = .start ∨ c = .overlap ∨ c = .minima) :
    ∃ subject clip : List (List (ℚ × ℚ)), ∃ ct : ClipType, (∀ c', c' ≠ c → Cond.Holds (ofPairs subject ++ ofPairs clip) c') ∧
      Consistent (ofPairs subject) (ofPairs clip) ct .positive 1 ∧ GoesWrong subject clip ct := by
  refine ⟨(needs c).1, (needs c).2.1, (needs c).2.2, ?_, ?_, ?_⟩
  · intro c' hne
    apply condB_sound
    revert c'
    rcases hc with rfl | rfl | rfl | rfl | rfl <;> intro c' <;> cases c' <;> first | (intro h; exact absurd rfl h) | (intro _; decide +kernel)
  · apply consistent_positive
    rcases hc with rfl | rfl | rfl | rfl | rfl <;> decide
  · rcases hc with rfl | rfl | rfl | rfl | rfl
    · exact wrongB_sound (X := 1) (y := 7) (by decide +kernel)
    · exact wrongB_sound (X := 7 / 4) (y := 1 / 4) (by decide +kernel)
    · exact wrongB_sound (X := 0) (y := 0) (by decide +kernel)
    · exact wrongB_sound (X := 0) (y := 0) (by decide +kernel)
    · exact wrongB_sound (X := 0) (y := 0) (by decide +kernel)

end River
