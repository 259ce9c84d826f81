import Mathlib.Analysis.SpecialFunctions.Complex.Arg
import Mathlib.Data.List.Sort
import Verif.Props.Walk

/-! # C63: the next half edge, by the positions of the points -/

namespace River

/-- The sort of the list of a point leaves it ordered by the comparator of the code, by the angles the code computes (`decl.cpp:131-173`). -/
def DOrder.Angular (o : DOrder ℝ) (addr : Nat → Nat) : Prop :=
  ∀ (d : Dcel ℝ) (l : List PEdge), (o.sortP d l).Pairwise (fun a b => peLess (fun pe => (d.angle pe).getD 0) addr b a = false)

/-- The direction from `p` to `q`, in `(-π, π]`. -/
noncomputable def heading (p q : Vec2 ℝ) : ℝ := Complex.arg ⟨q.x - p.x, q.y - p.y⟩

theorem sortAngle_heading (s e : Vec2 ℝ) : sortAngle s e = heading s e := by
  unfold sortAngle heading
  dsimp only
  split
  · rename_i hh
    have hh : Complex.arg ⟨e.x - s.x, e.y - s.y⟩ = -Real.pi := of_decide_eq_true hh
    exact absurd hh (ne_of_gt (Complex.neg_pi_lt_arg _))
  · rfl

/-- Two half edges that point to the left are sorted alike, whatever sign the zero difference of their ordinates has (for doubles `atan2` then
returns `π` for one and `-π` for the other): the angle is `π` for both. -/
theorem sortAngle_left {K : Type} [FAngle K] (hrefl : (FNum.neg (FAngle.pi : K) ==. FNum.neg FAngle.pi) = true)
    (hne : ((FAngle.pi : K) ==. FNum.neg FAngle.pi) = false) (hneg : FNum.neg (FNum.neg (FAngle.pi : K)) = FAngle.pi) {s e : Vec2 K}
    (h : FAngle.atan2 (e.sub s).y (e.sub s).x = (FAngle.pi : K) ∨ FAngle.atan2 (e.sub s).y (e.sub s).x = FNum.neg (FAngle.pi : K)) :
    sortAngle s e = FAngle.pi := by
  unfold sortAngle
  rcases h with h | h
  · simp [h, hne]
  · simp [h, hrefl, hneg]

theorem ends_of {K : Type} {d : Dcel K} {i : Nat} {e : HEdge K} {a b : DPoint K} (h : d.edges[i]? = some (some e)) (ha : d.points[e.start]? = some a)
    (hb : d.points[e.fin]? = some b) : d.ends i = some (a.p, b.p) := by
  unfold Dcel.ends
  rw [h]
  simp [ha, hb]

/-- A half edge that leaves a point is sorted by the direction it leaves in, one that arrives by the direction it comes from. -/
theorem angle_away {d : Dcel ℝ} (ht : d.Twinned) {i : Nat} {e : HEdge ℝ} {a b : DPoint ℝ} (h : d.edges[i]? = some (some e))
    (ha : d.points[e.start]? = some a) (hb : d.points[e.fin]? = some b) :
    d.angle ⟨i, true⟩ = some (heading a.p b.p) ∧ d.angle ⟨i, false⟩ = some (heading b.p a.p) := by
  constructor
  · unfold Dcel.angle
    rw [h, ends_of h ha hb]
    simp [sortAngle_heading]
  · obtain ⟨j, e', t, h1, h2, h3, _, h5, h6⟩ := ht i ((mem_live d i).2 ⟨e, h⟩)
    rw [h] at h1
    cases Option.some.inj (Option.some.inj h1)
    unfold Dcel.angle
    rw [h]
    simp only [Option.bind_eq_bind, Option.bind_some, h3, Bool.false_eq_true, if_false]
    rw [ends_of h2 (by rw [← h6]; exact hb) (by rw [← h5]; exact ha)]
    simp [sortAngle_heading]

/-- **C63**, by positions: at the point `p` where the half edge `e` from `a` arrives, `get_next` follows, among all half edges that leave `p` and have
no predecessor, the first one met when turning counter-clockwise from the way back to `a`. -/
theorem next_sharpest {o : DOrder ℝ} (ho : o.Ok) {addr : Nat → Nat} (hs : o.Angular addr) {d : Dcel ℝ} (h : d.Wf) (ht : d.Twinned) (g : FaceGraph)
    {e n a p : Nat} {A P : DPoint ℝ} (he : d.Runs e a p) (hA : d.points[a]? = some A) (hP : d.points[p]? = some P) (hne : a ≠ p)
    (hn : getNext g (d.around o p) e = some n) :
    ∃ b B, d.Runs n p b ∧ d.points[b]? = some B ∧ g.prev n = none ∧
      ∀ x c C, d.Runs x p c → d.points[c]? = some C → g.prev x = none →
        CcwLe (heading P.p A.p) (heading P.p B.p) (heading P.p C.p) := by
  obtain ⟨E, hE, rfl, rfl⟩ := he
  have hmem : ∀ x b, (⟨x, b⟩ : PEdge) ∈ d.around o E.fin ↔ ∃ X, d.edges[x]? = some (some X) ∧ X.at b = E.fin := by
    intro x b
    unfold Dcel.around
    rw [(ho.sortP d _).mem_iff, hP]
    exact h.entry _ _ hP x b
  have hsort : (d.around o E.fin).Pairwise (fun a b => peLess (fun pe => (d.angle pe).getD 0) addr b a = false) := hs d _
  obtain ⟨h1, h2, h3⟩ := getNext_sharpest (fun pe => (d.angle pe).getD 0) addr g (d.around o E.fin) hsort e n (by
    intro hm
    obtain ⟨X, hX, hat⟩ := (hmem _ _).1 hm
    rw [hE] at hX
    cases Option.some.inj (Option.some.inj hX)
    exact hne hat) hn
  obtain ⟨N, hN, hat⟩ := (hmem _ _).1 h1
  have hNs : N.start = E.fin := hat
  obtain ⟨B, hB⟩ : ∃ B, d.points[N.fin]? = some B := ⟨_, List.getElem?_eq_getElem (h.ends n N hN).2⟩
  refine ⟨N.fin, B, ⟨N, hN, hNs, rfl⟩, hB, h2, ?_⟩
  rintro x c C ⟨X, hX, hXs, rfl⟩ hC hp
  have := h3 x ((hmem x true).2 ⟨X, hX, hXs⟩) hp
  rw [(angle_away ht hE hA hP).2, (angle_away ht hN (by rw [hNs]; exact hP) hB).1, (angle_away ht hX (by rw [hXs]; exact hP) hC).1] at this
  exact this

/-! ## such sorts exist, and the theorem applies -/

section
variable {K : Type} [FNum K] [LinearOrder K] [LawfulOrd K]

theorem peLess_total (angle : PEdge → K) (addr : Nat → Nat) (a b : PEdge) : peLess angle addr b a = false ∨ peLess angle addr a b = false := by
  unfold peLess
  rw [lt_eq_decide, lt_eq_decide]
  rcases lt_trichotomy (angle a) (angle b) with h | h | h
  · left; simp [h, h.le]
  · rw [h]
    simp only [lt_irrefl, decide_false, Bool.false_eq_true, if_false]
    cases a.emit <;> cases b.emit <;> simp
    · rcases le_total (addr b.edge) (addr a.edge) with h | h
      · exact Or.inl h
      · exact Or.inr h
    · rcases le_total (addr b.edge) (addr a.edge) with h | h
      · exact Or.inl h
      · exact Or.inr h
  · right; simp [h, h.le]

/-- What the comparator says, by cases. -/
theorem peLess_false_iff (angle : PEdge → K) (addr : Nat → Nat) (a b : PEdge) : peLess angle addr b a = false ↔
    angle a < angle b ∨ (angle a = angle b ∧ ((a.emit = true ∧ b.emit = false) ∨ (a.emit = b.emit ∧ addr b.edge ≤ addr a.edge))) := by
  unfold peLess
  rw [lt_eq_decide, lt_eq_decide]
  rcases lt_trichotomy (angle a) (angle b) with h | h | h
  · simp [h, h.not_gt]
  · rw [h]
    cases a.emit <;> cases b.emit <;> simp
  · simp [h, h.not_gt, h.ne']

theorem peLess_trans (angle : PEdge → K) (addr : Nat → Nat) (a b c : PEdge) (h1 : peLess angle addr b a = false) (h2 : peLess angle addr c b = false) :
    peLess angle addr c a = false := by
  rw [peLess_false_iff] at *
  rcases h1 with h1 | ⟨h1, h1'⟩ <;> rcases h2 with h2 | ⟨h2, h2'⟩
  · exact Or.inl (h1.trans h2)
  · exact Or.inl (h2 ▸ h1)
  · exact Or.inl (h1 ▸ h2)
  · refine Or.inr ⟨h1.trans h2, ?_⟩
    rcases h1' with ⟨p, q⟩ | ⟨p, q⟩ <;> rcases h2' with ⟨r, s⟩ | ⟨r, s⟩
    · rw [q] at r; cases r
    · exact Or.inl ⟨p, by rw [← r, q]⟩
    · exact Or.inl ⟨by rw [p, r], s⟩
    · exact Or.inr ⟨p.trans r, s.trans q⟩

end

/-- Sorting by insertion. -/
noncomputable def angularOrder : DOrder ℝ where
  iter l := l
  scanAddr i := i
  sortB _ _ l := l
  sortP d l := l.insertionSort (fun a b => peLess (fun pe => (d.angle pe).getD 0) id b a = false)

theorem angularOrder_ok : angularOrder.Ok ∧ angularOrder.Angular id := by
  refine ⟨⟨fun _ => List.Perm.refl _, fun _ _ h => h, fun _ _ _ => List.Perm.refl _, fun _ _ => List.perm_insertionSort _ _⟩, ?_⟩
  intro d l
  have : Std.Total (fun a b => peLess (fun pe => (d.angle pe).getD 0) id b a = false) := ⟨fun a b => peLess_total _ _ a b⟩
  have : IsTrans _ (fun a b => peLess (fun pe => (d.angle pe).getD 0) id b a = false) := ⟨fun a b c => peLess_trans _ _ a b c⟩
  exact List.pairwise_insertionSort _ _

/-- Two roads meet in the origin: half edges 0 and 1 run between it and (1, 0), 2 and 3 between it and (0, 1). -/
noncomputable def corner : Dcel ℝ where
  cur := .subject
  points := [⟨⟨0, 0⟩, [⟨0, false⟩, ⟨1, true⟩, ⟨2, true⟩, ⟨3, false⟩]⟩, ⟨⟨1, 0⟩, [⟨0, true⟩, ⟨1, false⟩]⟩, ⟨⟨0, 1⟩, [⟨2, false⟩, ⟨3, true⟩]⟩]
  edges := [some ⟨1, 0, some 1, .subject, []⟩, some ⟨0, 1, some 0, .subject, []⟩, some ⟨0, 2, some 3, .subject, []⟩, some ⟨2, 0, some 2, .subject, []⟩]

theorem corner_wf : corner.Wf ∧ corner.Twinned := by
  refine ⟨⟨?_, ?_⟩, ?_⟩
  · intro i e h
    rcases i with _ | _ | _ | _ | i <;> simp [corner] at h ⊢ <;> subst h <;> simp
  · intro p q h x b
    have key : ∀ x, corner.edges[x]? = match x with
        | 0 => some (some (⟨1, 0, some 1, .subject, []⟩ : HEdge ℝ)) | 1 => some (some (⟨0, 1, some 0, .subject, []⟩ : HEdge ℝ))
        | 2 => some (some (⟨0, 2, some 3, .subject, []⟩ : HEdge ℝ)) | 3 => some (some (⟨2, 0, some 2, .subject, []⟩ : HEdge ℝ)) | _ + 4 => none := by
      intro x
      rcases x with _ | _ | _ | _ | x <;> simp [corner]
    rw [key]
    rcases p with _ | _ | _ | p <;> simp [corner] at h <;> subst h <;> rcases x with _ | _ | _ | _ | x <;> cases b <;> simp [HEdge.at]
  · intro i hi
    obtain ⟨e, he⟩ := (mem_live _ i).1 hi
    rcases i with _ | _ | _ | _ | i <;> simp [corner] at he
    · exact ⟨1, ⟨1, 0, some 1, .subject, []⟩, ⟨0, 1, some 0, .subject, []⟩, by simp [corner], by simp [corner], rfl, rfl, rfl, rfl⟩
    · exact ⟨0, ⟨0, 1, some 0, .subject, []⟩, ⟨1, 0, some 1, .subject, []⟩, by simp [corner], by simp [corner], rfl, rfl, rfl, rfl⟩
    · exact ⟨3, ⟨0, 2, some 3, .subject, []⟩, ⟨2, 0, some 2, .subject, []⟩, by simp [corner], by simp [corner], rfl, rfl, rfl, rfl⟩
    · exact ⟨2, ⟨2, 0, some 2, .subject, []⟩, ⟨0, 2, some 3, .subject, []⟩, by simp [corner], by simp [corner], rfl, rfl, rfl, rfl⟩

/-- Arriving in the origin from (1, 0), the walk goes on to (0, 1), with every sort the comparator allows: the other half edge leads straight back. -/
theorem corner_turn {o : DOrder ℝ} (ho : o.Ok) {addr : Nat → Nat} (hs : o.Angular addr) :
    getNext corner.graph (corner.around o 0) 0 = some 2 := by
  have hp : (corner.around o 0).Perm [⟨0, false⟩, ⟨1, true⟩, ⟨2, true⟩, ⟨3, false⟩] := ho.sortP corner _
  obtain ⟨n, hn⟩ : ∃ n, getNext corner.graph (corner.around o 0) 0 = some n := by
    have h0 := hp.mem_iff.2 (show (⟨0, false⟩ : PEdge) ∈ _ from List.mem_cons_self)
    obtain ⟨i, hi⟩ : ∃ i, (corner.around o 0).findIdx? (fun pe => pe.edge == 0) = some i := by
      rw [← Option.isSome_iff_exists, List.findIdx?_isSome, List.any_eq_true]
      exact ⟨_, h0, rfl⟩
    have h2 : (⟨2, true⟩ : PEdge) ∈ (corner.around o 0).drop (i + 1) ++ (corner.around o 0).take (i + 1) := by
      rw [List.mem_append, or_comm, ← List.mem_append, List.take_append_drop]
      exact hp.mem_iff.2 (by simp)
    unfold getNext
    rw [hi, Option.bind_some]
    cases hf : List.find? (fun pe => pe.emit && (corner.graph.prev pe.edge).isNone) ((corner.around o 0).drop (i + 1) ++ (corner.around o 0).take (i + 1)) with
    | none => exact absurd (List.find?_eq_none.1 hf _ h2) (by simp [Dcel.graph])
    | some a => exact ⟨a.edge, rfl⟩
  rw [hn]
  obtain ⟨b, B, ⟨N, hN, hs', hf⟩, hB, -, hall⟩ := next_sharpest ho hs corner_wf.1 corner_wf.2 corner.graph
    (a := 1) (p := 0) (A := ⟨⟨1, 0⟩, [⟨0, true⟩, ⟨1, false⟩]⟩) (P := ⟨⟨0, 0⟩, [⟨0, false⟩, ⟨1, true⟩, ⟨2, true⟩, ⟨3, false⟩]⟩)
    ⟨⟨1, 0, some 1, .subject, []⟩, by simp [corner], rfl, rfl⟩ (by simp [corner]) (by simp [corner]) (by decide) hn
  rcases n with _ | _ | _ | _ | n <;> simp [corner] at hN <;> subst hN <;> simp at hs'
  · exfalso
    subst hf
    simp [corner] at hB
    subst hB
    have := hall 2 2 ⟨⟨0, 1⟩, [⟨2, false⟩, ⟨3, true⟩]⟩ ⟨⟨0, 2, some 3, .subject, []⟩, by simp [corner], rfl, rfl⟩ (by simp [corner]) rfl
    have e1 : heading ⟨0, 0⟩ ⟨1, 0⟩ = 0 := by
      unfold heading
      have : (⟨1 - 0, 0 - 0⟩ : ℂ) = ((1 : ℝ) : ℂ) := by apply Complex.ext <;> simp
      rw [this]
      exact Complex.arg_ofReal_of_nonneg zero_le_one
    have e2 : heading ⟨0, 0⟩ ⟨0, 1⟩ = Real.pi / 2 := by
      unfold heading
      have : (⟨0 - 0, 1 - 0⟩ : ℂ) = Complex.I := by apply Complex.ext <;> simp
      rw [this, Complex.arg_I]
    unfold CcwLe at this
    simp only [e1, e2] at this
    rcases this with ⟨h, _⟩ | ⟨_, h, _⟩
    · exact absurd h (lt_irrefl _)
    · exact absurd h (not_le.2 (by positivity))
  · rfl

end River
