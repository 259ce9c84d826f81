import Verif.Model.Sweep
import Mathlib.Order.Basic
import Mathlib.Algebra.Group.Nat.Even
import Mathlib.Data.List.Basic
import Mathlib.Tactic.Ring

/-! # Pairing off active edges and output bounds

Both lists are sorted by abscissa and have alternating directions, beginning with the same one. Then each step of the
pairing loop of `update_ouput_bound` takes the first edge and the first bound, the first two edges, or the first two
bounds, and everything left lies to the right of what was taken. -/

namespace River
variable {K : Type}

section Lists
variable {α β : Type} [LinearOrder K]

/-- Directions alternate, beginning with `τ`. -/
def AltDir (d : α → Int) : Int → List α → Prop
  | _, [] => True
  | τ, a :: l => d a = τ ∧ AltDir d (-τ) l

/-- The three kinds of steps. -/
inductive Match (xe : α → K) (de : α → Int) (xb : β → K) (db : β → Int) : List α → List β → Prop
  | nil : Match xe de xb db [] []
  | one (e b E B) : de e = db b → (∀ c ∈ E, xe e ≤ xe c ∧ xb b ≤ xe c) → (∀ c ∈ B, xe e ≤ xb c ∧ xb b ≤ xb c) →
      (xe e < xb b → ∀ c ∈ E, xb b < xe c) → Match xe de xb db E B → Match xe de xb db (e :: E) (b :: B)
  | open2 (e1 e2 E B) : de e1 = - de e2 → xe e1 ≤ xe e2 → (∀ c ∈ E, xe e2 ≤ xe c) → (∀ c ∈ B, xe e2 ≤ xb c ∧ xe e1 < xb c) →
      Match xe de xb db E B → Match xe de xb db (e1 :: e2 :: E) B
  | join2 (b1 b2 E B) : db b1 = - db b2 → xb b1 ≤ xb b2 → (∀ c ∈ E, xb b2 < xe c) → (∀ c ∈ B, xb b2 ≤ xb c) →
      Match xe de xb db E B → Match xe de xb db E (b1 :: b2 :: B)

theorem countP_lt_cons (x : α → K) (a : α) (l : List α) (X : K) :
    (a :: l).countP (fun e => decide (x e < X)) = l.countP (fun e => decide (x e < X)) + (if x a < X then 1 else 0) := by
  rw [List.countP_cons]
  simp only [decide_eq_true_eq]

theorem countP_zero (x : α → K) (l : List α) (X : K) (h : ∀ a ∈ l, X ≤ x a) : l.countP (fun e => decide (x e < X)) = 0 := by
  rw [List.countP_eq_zero]
  intro a ha
  simpa using h a ha

omit [LinearOrder K] in
theorem altDir_two (d : α → Int) {τ : Int} {a b : α} {l : List α} (h : AltDir d τ (a :: b :: l)) : d a = - d b ∧ AltDir d τ l := by
  obtain ⟨h1, h2, h3⟩ := h
  refine ⟨by rw [h1, h2, neg_neg], ?_⟩
  rw [neg_neg] at h3; exact h3

theorem match_of (xe : α → K) (de : α → Int) (xb : β → K) (db : β → Int) (n : Nat) : ∀ (τ : Int) (E : List α) (B : List β),
    E.length + B.length ≤ n → E.Pairwise (fun a b => xe a ≤ xe b) → B.Pairwise (fun a b => xb a ≤ xb b) →
    AltDir de τ E → AltDir db τ B → Even (E.length + B.length) → Match xe de xb db E B := by
  induction n with
  | zero =>
    intro τ E B hn
    have h1 : E = [] := List.length_eq_zero_iff.1 (by omega)
    have h2 : B = [] := List.length_eq_zero_iff.1 (by omega)
    subst h1 h2
    intros; exact Match.nil
  | succ n ih =>
    intro τ E B hn se sb ae ab hl
    -- the three steps
    have one : ∀ e b E' B', E = e :: E' → B = b :: B' → (∀ c ∈ E', xb b ≤ xe c) → (∀ c ∈ B', xe e ≤ xb c) →
        (xe e < xb b → ∀ c ∈ E', xb b < xe c) → Match xe de xb db E B := by
      rintro e b E' B' rfl rfl h1 h2 h3
      rw [List.pairwise_cons] at se sb
      refine Match.one e b E' B' (by rw [ae.1, ab.1]) (fun c hc => ⟨se.1 c hc, h1 c hc⟩) (fun c hc => ⟨h2 c hc, sb.1 c hc⟩) h3 ?_
      refine ih (-τ) E' B' (by simp at hn; omega) se.2 sb.2 ae.2 ab.2 ?_
      rw [Nat.even_iff] at hl ⊢
      simp only [List.length_cons] at hl
      omega
    have open2 : ∀ e1 e2 E', E = e1 :: e2 :: E' → (∀ c ∈ B, xe e2 ≤ xb c ∧ xe e1 < xb c) → Match xe de xb db E B := by
      rintro e1 e2 E' rfl h1
      obtain ⟨d1, d2⟩ := altDir_two de ae
      rw [List.pairwise_cons, List.pairwise_cons] at se
      refine Match.open2 e1 e2 E' B d1 (se.1 e2 (by simp)) se.2.1 h1 ?_
      refine ih τ E' B (by simp at hn; omega) se.2.2 sb d2 ab ?_
      rw [Nat.even_iff] at hl ⊢
      simp only [List.length_cons] at hl
      omega
    have join2 : ∀ b1 b2 B', B = b1 :: b2 :: B' → (∀ c ∈ E, xb b2 < xe c) → Match xe de xb db E B := by
      rintro b1 b2 B' rfl h1
      obtain ⟨d1, d2⟩ := altDir_two db ab
      rw [List.pairwise_cons, List.pairwise_cons] at sb
      refine Match.join2 b1 b2 E B' d1 (sb.1 b2 (by simp)) h1 sb.2.1 ?_
      refine ih τ E B' (by simp at hn; omega) se sb.2.2 ae d2 ?_
      rw [Nat.even_iff] at hl ⊢
      simp only [List.length_cons] at hl
      omega
    have min1 : ∀ {γ : Type} (x : γ → K) (a : γ) (l : List γ), (a :: l).Pairwise (fun a b => x a ≤ x b) → ∀ c ∈ a :: l, x a ≤ x c := by
      intro γ x a l h c hc
      rcases List.mem_cons.1 hc with rfl | hc
      · exact le_refl _
      · exact (List.pairwise_cons.1 h).1 c hc
    match hE : E, hB : B with
    | [], [] => exact Match.nil
    | [], [b] => simp at hl
    | [], b1 :: b2 :: B' => exact join2 b1 b2 B' rfl (by simp)
    | [e], [] => simp at hl
    | e1 :: e2 :: E', [] => exact open2 e1 e2 E' rfl (by simp)
    | e :: E', b :: B' =>
      have sE := min1 xe e E' se
      have sB := min1 xb b B' sb
      rcases lt_trichotomy (xe e) (xb b) with h | h | h
      · match hE' : E' with
        | [] => exact one e b [] B' rfl rfl (by simp) (fun c hc => h.le.trans (sB c (List.mem_cons_of_mem _ hc))) (by simp)
        | e2 :: E'' =>
          rcases le_or_gt (xe e2) (xb b) with h2 | h2
          · exact open2 e e2 E'' rfl (fun c hc => ⟨h2.trans (sB c hc), lt_of_lt_of_le h (sB c hc)⟩)
          · have h3 : ∀ c ∈ e2 :: E'', xb b < xe c := fun c hc => lt_of_lt_of_le h2 (min1 xe e2 E'' (List.pairwise_cons.1 se).2 c hc)
            exact one e b _ B' rfl rfl (fun c hc => (h3 c hc).le) (fun c hc => h.le.trans (sB c (List.mem_cons_of_mem _ hc))) (fun _ => h3)
      · exact one e b E' B' rfl rfl (fun c hc => h ▸ sE c (List.mem_cons_of_mem _ hc)) (fun c hc => h ▸ sB c (List.mem_cons_of_mem _ hc))
          (fun hh => absurd h hh.ne)
      · match hB' : B' with
        | [] => exact one e b E' [] rfl rfl (fun c hc => h.le.trans (sE c (List.mem_cons_of_mem _ hc))) (by simp) (fun hh => absurd hh h.not_gt)
        | b2 :: B'' =>
          rcases lt_or_ge (xb b2) (xe e) with h2 | h2
          · exact join2 b b2 B'' rfl (fun c hc => lt_of_lt_of_le h2 (sE c hc))
          · have h3 : ∀ c ∈ b2 :: B'', xe e ≤ xb c := fun c hc => h2.trans (min1 xb b2 B'' (List.pairwise_cons.1 sb).2 c hc)
            exact one e b E' _ rfl rfl (fun c hc => h.le.trans (sE c (List.mem_cons_of_mem _ hc))) h3 (fun hh => absurd hh h.not_gt)

/-- How many of the items to the left of an abscissa disappear with a pair that is taken. -/
theorem take_two (n : Nat) (P Q : Prop) [Decidable P] [Decidable Q] (h : ¬ (P ↔ Q) → n = 0) :
    (if (P ↔ Q) then 0 else 1) + n % 2 = (n + (if P then 1 else 0) + (if Q then 1 else 0)) % 2 := by
  by_cases hP : P <;> by_cases hQ : Q <;> simp only [hP, hQ, if_true, if_false, iff_self, true_iff, false_iff, not_true, not_false_eq_true] at h ⊢
  · omega
  · rw [h (by simp)]
  · rw [h (by simp)]
  · omega

end Lists

/-! ## the sorted items -/

section Items
variable [FTrans K] [LinearOrder K] [LawfulOrd K]

theorem insertItem_le (it : Item K) (l : List (Item K)) (h : ∀ c ∈ l, it.x ≤ c.x) : insertItem it l = it :: l := by
  cases l with
  | nil => rfl
  | cons c l =>
    rw [insertItem, if_neg]
    rw [LawfulOrd.lt_iff]
    exact not_lt.2 (h c List.mem_cons_self)

theorem insertItem_perm (it : Item K) (l : List (Item K)) : (insertItem it l).Perm (it :: l) := by
  induction l with
  | nil => exact List.Perm.refl _
  | cons c l ih =>
    rw [insertItem]
    split
    · exact (List.Perm.cons c ih).trans (List.Perm.swap it c l)
    · exact List.Perm.refl _

theorem sortItems_perm (l : List (Item K)) : (sortItems l).Perm l := by
  induction l with
  | nil => exact List.Perm.refl _
  | cons c l ih => exact (insertItem_perm c _).trans (List.Perm.cons c ih)

/-- A smallest item in the middle comes first. -/
theorem sortItems_min (E : List (Item K)) (c : Item K) (B : List (Item K)) (h1 : ∀ e ∈ E, c.x < e.x) (h2 : ∀ b ∈ B, c.x ≤ b.x) :
    sortItems (E ++ c :: B) = c :: sortItems (E ++ B) := by
  induction E with
  | nil => exact insertItem_le c _ (fun b hb => h2 b ((sortItems_perm B).mem_iff.1 hb))
  | cons e E ih =>
    show insertItem e (sortItems (E ++ c :: B)) = c :: insertItem e (sortItems (E ++ B))
    rw [ih (fun a ha => h1 a (List.mem_cons_of_mem _ ha)), insertItem, if_pos]
    rw [LawfulOrd.lt_iff]
    exact h1 e List.mem_cons_self

/-- The items to be paired off. -/
def items (sx : Nat → K) (E : List (Edge K)) (B : List Nat) : List (Item K) :=
  sortItems (E.map Item.edge ++ B.map (fun i => Item.bound i (sx i)))

theorem mem_items {sx : Nat → K} {E : List (Edge K)} {B : List Nat} {it : Item K} (h : it ∈ items sx E B) :
    (∃ e ∈ E, it = .edge e) ∨ ∃ b ∈ B, it = .bound b (sx b) := by
  rw [items, (sortItems_perm _).mem_iff, List.mem_append, List.mem_map, List.mem_map] at h
  rcases h with ⟨e, he, rfl⟩ | ⟨e, he, rfl⟩
  · exact Or.inl ⟨e, he, rfl⟩
  · exact Or.inr ⟨e, he, rfl⟩

theorem items_gt {sx : Nat → K} {E : List (Edge K)} {B : List Nat} {x0 : K} (h1 : ∀ e ∈ E, x0 < e.currX) (h2 : ∀ b ∈ B, x0 < sx b) :
    ∀ it ∈ items sx E B, x0 < it.x := by
  intro it hit
  rcases mem_items hit with ⟨e, he, rfl⟩ | ⟨b, hb, rfl⟩
  · exact h1 e he
  · exact h2 b hb

theorem items_cons (sx : Nat → K) (e : Edge K) (E : List (Edge K)) (B : List Nat) :
    items sx (e :: E) B = insertItem (.edge e) (items sx E B) := rfl

theorem items_bound (sx : Nat → K) (E : List (Edge K)) (b : Nat) (B : List Nat) (h1 : ∀ e ∈ E, sx b < e.currX) (h2 : ∀ c ∈ B, sx b ≤ sx c) :
    items sx E (b :: B) = .bound b (sx b) :: items sx E B := by
  rw [items, List.map_cons, sortItems_min]
  · rfl
  · intro it hit
    obtain ⟨e, he, rfl⟩ := List.mem_map.1 hit
    exact h1 e he
  · intro it hit
    obtain ⟨e, he, rfl⟩ := List.mem_map.1 hit
    exact h2 e he
theorem items_edge (sx : Nat → K) (e : Edge K) (E : List (Edge K)) (B : List Nat) (h1 : ∀ c ∈ E, e.currX ≤ c.currX)
    (h2 : ∀ c ∈ B, e.currX ≤ sx c) : items sx (e :: E) B = .edge e :: items sx E B := by
  rw [items_cons, insertItem_le]
  intro c hc
  rcases mem_items hc with ⟨a, ha, rfl⟩ | ⟨a, ha, rfl⟩
  · exact h1 a ha
  · exact h2 a ha

/-! ## the pairing loop -/

/-- The first item has no partner of the other kind at its abscissa. -/
theorem pair_next (y : K) (fuel : Nat) (st : St K) (a b : Item K) (M : List (Item K))
    (h : ∀ c ∈ b :: M, c.x = a.x → c.isEdge = a.isEdge) :
    pairItems y (fuel + 1) st (a :: b :: M) = (connect y st a b).bind (fun st' => pairItems y fuel st' M) := by
  rw [pairItems]
  cases hd : (b :: M).dropWhile (fun n => (n.x ==. a.x) && (n.isEdge == a.isEdge)) with
  | nil => rfl
  | cons n t =>
    have hn : ((n.x ==. a.x) && (n.isEdge == a.isEdge)) = false := by
      have hh := List.head?_dropWhile_not (fun n : Item K => (n.x ==. a.x) && (n.isEdge == a.isEdge)) (b :: M)
      rw [hd] at hh
      simpa using hh
    have hm : n ∈ b :: M := (List.dropWhile_sublist _).subset (by rw [hd]; simp)
    have hx : (n.x ==. a.x) = false := by
      cases hc : (n.x ==. a.x) with
      | false => rfl
      | true =>
        rw [hc, h n hm ((LawfulOrd.eq_iff _ _).1 hc)] at hn
        simp at hn
    simp only [hx, Bool.false_eq_true, if_false]

/-- The first edge and the first bound have the same abscissa. -/
theorem pair_eq (y : K) (fuel : Nat) (st : St K) (sx : Nat → K) (e : Edge K) (b : Nat) (E : List (Edge K)) (B : List Nat) (hx : e.currX = sx b)
    (hs : E.Pairwise (fun a b => a.currX ≤ b.currX)) (h1 : ∀ c ∈ E, e.currX ≤ c.currX) (h2 : ∀ c ∈ B, e.currX ≤ sx c) :
    pairItems y (fuel + 1) st (items sx (e :: E) (b :: B)) =
      (st.updateBound b e).bind (fun st' => pairItems y fuel st' (items sx E B)) := by
  have key : ∀ E' : List (Edge K), E'.Pairwise (fun a b => a.currX ≤ b.currX) → (∀ c ∈ E', e.currX ≤ c.currX) →
      ∃ S T, items sx E' (b :: B) = S ++ .bound b (sx b) :: T ∧ items sx E' B = S ++ T ∧ ∀ c ∈ S, c.x = e.currX ∧ c.isEdge = true := by
    intro E'
    induction E' with
    | nil =>
      intro _ _
      refine ⟨[], items sx [] B, ?_, rfl, by simp⟩
      rw [items_bound sx [] b B (by simp) (by rw [← hx]; exact h2)]; rfl
    | cons a E' ih =>
      intro hs' hm
      rw [List.pairwise_cons] at hs'
      rcases (hm a (by simp)).lt_or_eq with hlt | heq
      · refine ⟨[], items sx (a :: E') B, ?_, rfl, by simp⟩
        rw [items_bound sx (a :: E') b B ?_ (by rw [← hx]; exact h2)]
        · rfl
        · intro c hc
          rw [← hx]
          rcases List.mem_cons.1 hc with rfl | hc
          · exact hlt
          · exact lt_of_lt_of_le hlt (hs'.1 c hc)
      · obtain ⟨S, T, g1, g2, g3⟩ := ih hs'.2 (fun c hc => hm c (List.mem_cons_of_mem _ hc))
        have hB : ∀ c ∈ B, a.currX ≤ sx c := by rw [← heq]; exact h2
        refine ⟨.edge a :: S, T, ?_, ?_, ?_⟩
        · rw [items_edge sx a E' (b :: B) hs'.1, g1]; rfl
          intro c hc
          rcases List.mem_cons.1 hc with rfl | hc
          · rw [← heq, hx]
          · exact hB c hc
        · rw [items_edge sx a E' B hs'.1 hB, g2]; rfl
        · intro c hc
          rcases List.mem_cons.1 hc with rfl | hc
          · exact ⟨heq.symm, rfl⟩
          · exact g3 c hc
  obtain ⟨S, T, g1, g2, g3⟩ := key E hs h1
  rw [items_edge sx e E (b :: B) h1 (by
    intro c hc
    rcases List.mem_cons.1 hc with rfl | hc
    · exact hx.le
    · exact h2 c hc), g1, g2]
  conv_lhs => rw [pairItems.eq_def]
  have hS : ∀ c ∈ S, ((c.x ==. (Item.edge e).x) && (c.isEdge == (Item.edge e).isEdge)) = true := by
    intro c hc
    rw [Bool.and_eq_true, LawfulOrd.eq_iff]
    exact ⟨(g3 c hc).1, by rw [(g3 c hc).2]; rfl⟩
  have hb : (((Item.bound b (sx b)).x ==. (Item.edge e).x) && ((Item.bound b (sx b) : Item K).isEdge == (Item.edge e).isEdge)) = false := by
    rw [show (Item.bound b (sx b) : Item K).isEdge = false from rfl, show (Item.edge e).isEdge = true from rfl]; simp
  simp only
  rw [List.takeWhile_append_of_pos hS, List.dropWhile_append_of_pos hS]
  simp only [List.takeWhile_cons, List.dropWhile_cons, hb, Bool.false_eq_true, if_false, List.append_nil]
  have h3 : ((Item.bound b (sx b) : Item K).x ==. (Item.edge e).x) = true := (LawfulOrd.eq_iff _ _).2 hx.symm
  simp only [h3, if_true]
  rfl

end Items

end River
