import Verif.Spec.Ring
import Verif.Props.Path
import Mathlib.Data.List.Basic
import Mathlib.Tactic.Ring
import Mathlib.Tactic.Linarith
import Mathlib.Data.Int.ModEq

/-! # Contour intake (C27) and local extrema (C28) -/

set_option linter.unusedSectionVars false

namespace River

section order
variable {K : Type} [LinearOrder K]

theorem downInto_succ (Y : ℤ → K) (z : ℤ) :
    DownInto Y (z + 1) ↔ Y (z + 1) < Y z ∨ (Y (z + 1) = Y z ∧ DownInto Y z) := by
  unfold DownInto
  constructor
  · rintro ⟨k, h1, h2⟩
    cases k with
    | zero => left; simpa using h1
    | succ k =>
      right
      have e : Y z = Y (z + 1) := by
        have := h2 1 (by omega); simpa using this
      refine ⟨e.symm, k, ?_, ?_⟩
      · rw [e]; rw [show z - ((k : ℤ) + 1) = z + 1 - (((k + 1 : Nat) : ℤ) + 1) by push_cast; ring]; exact h1
      · intro l hl
        rw [e, ← h2 (l + 1) (by omega)]
        congr 1; push_cast; ring
  · rintro (h | ⟨e, k, h1, h2⟩)
    · exact ⟨0, by simpa using h, by intro l hl; have : l = 0 := by omega
                                     subst this; simp⟩
    · refine ⟨k + 1, ?_, ?_⟩
      · rw [e, show z + 1 - (((k + 1 : Nat) : ℤ) + 1) = z - ((k : ℤ) + 1) by push_cast; ring]; exact h1
      · intro l hl
        rw [e]
        cases l with
        | zero => simpa using e
        | succ l => rw [← h2 l (by omega)]; congr 1; push_cast; ring

theorem upInto_succ (Y : ℤ → K) (z : ℤ) :
    UpInto Y (z + 1) ↔ Y z < Y (z + 1) ∨ (Y (z + 1) = Y z ∧ UpInto Y z) := by
  exact downInto_succ (K := Kᵒᵈ) Y z

theorem not_down_up (Y : ℤ → K) (z : ℤ) : ¬ (DownInto Y z ∧ UpInto Y z) := by
  rintro ⟨⟨k, h1, h2⟩, ⟨m, h3, h4⟩⟩
  rcases lt_trichotomy k m with h | h | h
  · have := h4 (k + 1) (by omega)
    push_cast at this; rw [this] at h1; exact lt_irrefl _ h1
  · subst h; exact lt_asymm h1 h3
  · have := h2 (m + 1) (by omega)
    push_cast at this; rw [this] at h3; exact lt_irrefl _ h3

theorem isCyc_mul {ys : List K} {Y : ℤ → K} (h : IsCyc ys Y) (z : ℤ) (m : Nat) : Y (z + m * ys.length) = Y z := by
  induction m with
  | zero => simp
  | succ m ih => rw [← ih, ← h.1 (z + m * ys.length)]; congr 1; push_cast; ring

theorem downInto_cyc {ys : List K} {Y : ℤ → K} (h : IsCyc ys Y) (z : ℤ) : DownInto Y (z + ys.length) ↔ DownInto Y z := by
  have e : ∀ w : ℤ, Y (w + ys.length) = Y w := h.1
  unfold DownInto
  have e2 : ∀ a : ℤ, Y (z + ys.length - a) = Y (z - a) := by
    intro a; rw [show z + ys.length - a = (z - a) + ys.length by ring, e]
  simp only [e, e2]

theorem upInto_cyc {ys : List K} {Y : ℤ → K} (h : IsCyc ys Y) (z : ℤ) : UpInto Y (z + ys.length) ↔ UpInto Y z := by
  exact downInto_cyc (K := Kᵒᵈ) h z

theorem exists_cyc (ys : List K) (hne : ys ≠ []) : ∃ Y, IsCyc ys Y := by
  have hpos : 0 < ys.length := List.length_pos_of_ne_nil hne
  have hlt : ∀ z : ℤ, (z % ys.length).toNat < ys.length := by
    intro z
    have h1 := Int.emod_nonneg z (show (ys.length : ℤ) ≠ 0 by omega)
    have h2 := Int.emod_lt_of_pos z (show (0 : ℤ) < ys.length by omega)
    omega
  refine ⟨fun z => ys[(z % ys.length).toNat]'(hlt z), ?_, ?_⟩
  · intro z; simp
  · intro i y hi
    obtain ⟨h, rfl⟩ := List.getElem?_eq_some_iff.mp hi
    have : ((i : ℤ) % ys.length).toNat = i := by
      rw [Int.emod_eq_of_lt (by omega) (by omega)]; simp
    simp only [this]

/-- Going down without a local minimum is impossible on a ring. -/
theorem cyc_has_min {ys : List K} {Y : ℤ → K} (hne : ys ≠ []) (hY : IsCyc ys Y) (h0 : DownInto Y 0) :
    ∃ i : Nat, i < ys.length ∧ LocalMin Y i := by
  by_contra hno
  push Not at hno
  have hpos : 0 < ys.length := List.length_pos_of_ne_nil hne
  have hper : ∀ k : Nat, LocalMin Y k → LocalMin Y ((k % ys.length : Nat) : ℤ) := by
    intro k hk
    have hm : ∀ m : Nat, ∀ z : ℤ, LocalMin Y (z + m * ys.length) → LocalMin Y z := by
      intro m
      induction m with
      | zero => intro z hz; simpa using hz
      | succ m ih =>
        intro z hz
        apply ih
        have e : z + ((m + 1 : Nat) : ℤ) * ys.length = (z + m * ys.length) + ys.length := by push_cast; ring
        rw [e] at hz
        refine ⟨(downInto_cyc hY _).mp hz.1, ?_⟩
        have h2 := hz.2
        rw [show z + m * ys.length + ys.length + 1 = (z + m * ys.length + 1) + ys.length by ring, hY.1, hY.1] at h2
        exact h2
    apply hm (k / ys.length)
    have h3 := Nat.div_add_mod k ys.length
    have : ((k % ys.length : Nat) : ℤ) + ((k / ys.length : Nat) : ℤ) * ys.length = k := by
      have h4 : (k : ℤ) = ys.length * ((k / ys.length : Nat) : ℤ) + ((k % ys.length : Nat) : ℤ) := by exact_mod_cast h3.symm
      linarith [mul_comm (ys.length : ℤ) ((k / ys.length : Nat) : ℤ)]
    rw [this]; exact hk
  have hno' : ∀ k : Nat, ¬ LocalMin Y k := fun k hk => hno _ (Nat.mod_lt _ hpos) (hper k hk)
  have hdown : ∀ k : Nat, DownInto Y k ∧ Y k ≤ Y 0 := by
    intro k
    induction k with
    | zero => exact ⟨by simpa using h0, by simp⟩
    | succ k ih =>
      have h1 : Y (k + 1) ≤ Y k := by
        by_contra hc
        exact hno' k ⟨ih.1, not_le.mp hc⟩
      push_cast
      refine ⟨(downInto_succ Y k).mpr ?_, h1.trans ih.2⟩
      rcases h1.lt_or_eq with h | h
      · exact Or.inl h
      · exact Or.inr ⟨h, ih.1⟩
  obtain ⟨k, hk, _⟩ := h0
  have := isCyc_mul hY (0 - ((k : ℤ) + 1)) (k + 1)
  rw [← this] at hk
  have hnn : 0 ≤ 0 - ((k : ℤ) + 1) + ((k + 1 : Nat) : ℤ) * ys.length := by
    have : (1 : ℤ) ≤ ys.length := by omega
    push_cast
    nlinarith
  obtain ⟨m, hm⟩ := Int.eq_ofNat_of_zero_le hnn
  rw [hm] at hk
  exact absurd (hdown m).2 (not_le.mpr hk)

end order

section flags
variable {K : Type} [FNum K] [LinearOrder K] [LawfulOrd K]

theorem walkBack_spec (Y : ℤ → K) (z : ℤ) (m : Nat) :
    match walkBack ((List.range (m + 1)).map (fun k : Nat => Y (z - k))) with
    | none => ∀ l : Nat, l ≤ m → Y (z - l) = Y z
    | some true => DownInto Y z
    | some false => UpInto Y z := by
  induction m generalizing z with
  | zero =>
    simp [walkBack]
  | succ m ih =>
    have e : (List.range (m + 1 + 1)).map (fun k : Nat => Y (z - k)) =
        Y z :: (List.range (m + 1)).map (fun k : Nat => Y (z - 1 - k)) := by
      rw [List.range_succ_eq_map, List.map_cons, List.map_map]
      simp only [Nat.cast_zero, sub_zero]
      congr 1
      apply List.map_congr_left
      intro k _
      simp only [Function.comp, Nat.succ_eq_add_one]
      congr 1; push_cast; ring
    have e' : (List.range (m + 1)).map (fun k : Nat => Y (z - 1 - k)) =
        Y (z - 1) :: ((List.range m).map (fun k : Nat => Y (z - 1 - (k + 1 : Nat)))) := by
      rw [List.range_succ_eq_map, List.map_cons, List.map_map]
      simp [Function.comp_def]
    have ih' := ih (z - 1)
    have hd := downInto_succ Y (z - 1)
    have hu := upInto_succ Y (z - 1)
    rw [sub_add_cancel] at hd hu
    by_cases h : Y z = Y (z - 1)
    · have ew : walkBack ((List.range (m + 1 + 1)).map (fun k : Nat => Y (z - k))) =
          walkBack ((List.range (m + 1)).map (fun k : Nat => Y (z - 1 - k))) := by
        rw [e, e', walkBack]; simp [h]
      rw [ew]
      cases hw : walkBack ((List.range (m + 1)).map (fun k : Nat => Y (z - 1 - k))) with
      | none =>
        rw [hw] at ih'
        intro l hl
        cases l with
        | zero => simp
        | succ l =>
          rw [h, ← ih' l (by omega)]; congr 1; push_cast; ring
      | some b =>
        rw [hw] at ih'
        cases b
        · exact hu.mpr (Or.inr ⟨h, ih'⟩)
        · exact hd.mpr (Or.inr ⟨h, ih'⟩)
    · have ew : walkBack ((List.range (m + 1 + 1)).map (fun k : Nat => Y (z - k))) = some (decide (Y z < Y (z - 1))) := by
        rw [e, e', walkBack]; simp [h, lt_eq_decide]
      rw [ew]
      rcases lt_or_gt_of_ne h with h' | h'
      · simp only [h', decide_true]; exact hd.mpr (Or.inl h')
      · simp only [not_lt_of_gt h', decide_false]; exact hu.mpr (Or.inl h')

theorem goingDown0_spec (nodes : List (Vtx K)) (hne : nodes ≠ []) (Y : ℤ → K) (hY : IsCyc (nodes.map Vtx.y) Y) :
    match goingDown0 nodes with
    | none => ∀ l : Nat, Y (0 - l) = Y 0
    | some true => DownInto Y 0
    | some false => UpInto Y 0 := by
  obtain ⟨v, vs, rfl⟩ := List.exists_cons_of_ne_nil hne
  have hlen : ((v :: vs).map Vtx.y).length = vs.length + 1 := by simp
  have e : v.y :: ((v :: vs).map Vtx.y).reverse =
      (List.range (vs.length + 1 + 1)).map (fun k : Nat => Y (0 - k)) := by
    apply List.ext_getElem
    · simp
    · intro i h1 h2
      rw [List.getElem_map, List.getElem_range]
      cases i with
      | zero =>
        simp only [List.getElem_cons_zero, Nat.cast_zero, sub_zero]
        exact (hY.2 0 v.y (by simp)).symm
      | succ i =>
        rw [List.getElem_cons_succ, List.getElem_reverse]
        simp only [List.length_cons, List.length_reverse, List.length_map] at h1
        have := hY.2 (((v :: vs).map Vtx.y).length - 1 - i) _ (List.getElem?_eq_getElem (by simp))
        rw [← this, ← hY.1 (0 - ((i + 1 : Nat) : ℤ)), hlen]
        congr 1; push_cast; omega
  have key := walkBack_spec Y 0 (vs.length + 1)
  have eg : goingDown0 (v :: vs) = walkBack ((List.range (vs.length + 1 + 1)).map (fun k : Nat => Y (0 - k))) := by
    rw [← e]; rfl
  rw [eg]
  split
  · rename_i hw
    rw [hw] at key
    intro l
    have hm : Y (0 - (l : ℤ)) = Y (0 - ((l % (vs.length + 1) : Nat) : ℤ)) := by
      have := isCyc_mul hY (0 - (l : ℤ)) (l / (vs.length + 1))
      rw [← this, hlen]
      congr 1
      have h3 := Nat.div_add_mod l (vs.length + 1)
      have h4 : (l : ℤ) = (vs.length + 1 : ℤ) * ((l / (vs.length + 1) : Nat) : ℤ) + ((l % (vs.length + 1) : Nat) : ℤ) := by
        exact_mod_cast h3.symm
      push_cast at h4 ⊢
      linarith
    rw [hm]
    exact key _ (by have := Nat.mod_lt l (show 0 < vs.length + 1 by omega); omega)
  · rename_i hw; rw [hw] at key; exact key
  · rename_i hw; rw [hw] at key; exact key

/-- Position-wise correctness of the flagging loop, started at position `i` with the right direction. -/
theorem flagLoop_spec (nodes : List (Vtx K)) (Y : ℤ → K) (hY : IsCyc (nodes.map Vtx.y) Y) (g0 : Bool)
    (hg0 : if g0 then DownInto Y 0 else UpInto Y 0) (i : Nat) (g : Bool) (hi : i < nodes.length)
    (hg : if g then DownInto Y i else UpInto Y i) (hfresh : ∀ v ∈ nodes, v.lmin = false ∧ v.lmax = false) :
    (flagLoop g0 g (nodes.drop i)).length = nodes.length - i ∧
    ∀ (j : Nat) (w : Vtx K), (flagLoop g0 g (nodes.drop i))[j]? = some w →
      (∃ v, nodes[i + j]? = some v ∧ w.pt = v.pt ∧ w.seg = v.seg) ∧
      (w.lmin = true ↔ LocalMin Y ((i + j : Nat) : ℤ)) ∧ (w.lmax = true ↔ LocalMax Y ((i + j : Nat) : ℤ)) := by
  have hy : ∀ (k : Nat) (hk : k < nodes.length), Y k = nodes[k].y := by
    intro k hk
    exact hY.2 k _ (by simp [hk])
  induction hn : nodes.length - i generalizing i g with
  | zero => omega
  | succ n ih =>
    have hexcl := not_down_up Y i
    have hd := downInto_succ Y i
    have hu := upInto_succ Y i
    have hf := hfresh nodes[i] (List.getElem_mem hi)
    rw [List.drop_eq_getElem_cons hi]
    by_cases hlast : i + 1 < nodes.length
    · have hyi := hy i hi
      have hyi1 := hy (i + 1) hlast
      push_cast at hyi1
      have hdrop := List.drop_eq_getElem_cons hlast
      have tail : ∀ g' : Bool, (if g' then DownInto Y ((i + 1 : Nat) : ℤ) else UpInto Y ((i + 1 : Nat) : ℤ)) →
          ∀ u : Vtx K, u.pt = nodes[i].pt → u.seg = nodes[i].seg → (u.lmin = true ↔ LocalMin Y i) →
          (u.lmax = true ↔ LocalMax Y i) →
          (u :: flagLoop g0 g' (nodes.drop (i + 1))).length = nodes.length - i ∧
          ∀ (j : Nat) (w : Vtx K), (u :: flagLoop g0 g' (nodes.drop (i + 1)))[j]? = some w →
            (∃ v, nodes[i + j]? = some v ∧ w.pt = v.pt ∧ w.seg = v.seg) ∧
            (w.lmin = true ↔ LocalMin Y ((i + j : Nat) : ℤ)) ∧ (w.lmax = true ↔ LocalMax Y ((i + j : Nat) : ℤ)) := by
        intro g' hg' u h1 h2 h3 h4
        obtain ⟨k1, k2⟩ := ih (i + 1) g' hlast hg' (by omega)
        refine ⟨by rw [List.length_cons, k1]; omega, ?_⟩
        intro j w hw
        cases j with
        | zero =>
          simp only [List.getElem?_cons_zero, Option.some.injEq] at hw
          subst hw
          exact ⟨⟨nodes[i], by simp [hi], h1, h2⟩, by simpa using h3, by simpa using h4⟩
        | succ j =>
          rw [List.getElem?_cons_succ] at hw
          have := k2 j w hw
          rwa [show i + 1 + j = i + (j + 1) by omega] at this
      rw [show n + 1 = nodes.length - i from hn.symm]
      rw [hdrop]
      unfold flagLoop
      rw [← hdrop]
      simp only [lt_eq_decide, Bool.and_eq_true, decide_eq_true_eq, Bool.not_eq_true', ← hyi, ← hyi1]
      unfold LocalMin LocalMax at *
      split
      · rename_i h
        rw [h.2] at hg; simp only [if_true] at hg
        apply tail false
        · simp only [Bool.false_eq_true, if_false]; push_cast; exact hu.mpr (Or.inl h.1)
        · rfl
        · rfl
        · simp [hg, h.1]
        · simp only [hf.2, Bool.false_eq_true, false_iff]; rintro ⟨a, b⟩; exact lt_asymm b h.1
      · rename_i h
        split
        · rename_i h'
          rw [h'.2] at hg; simp only [Bool.false_eq_true, if_false] at hg
          apply tail true
          · simp only [if_true]; push_cast; exact hd.mpr (Or.inl h'.1)
          · rfl
          · rfl
          · simp only [hf.1, Bool.false_eq_true, false_iff]; rintro ⟨a, b⟩; exact lt_asymm b h'.1
          · simp [hg, h'.1]
        · rename_i h'
          apply tail g
          · cases g
            · simp only [Bool.false_eq_true, if_false] at hg ⊢
              push_cast; rw [hu]
              rcases lt_trichotomy (Y i) (Y (i + 1)) with c | c | c
              · exact Or.inl c
              · exact Or.inr ⟨c.symm, hg⟩
              · exact absurd ⟨c, rfl⟩ h'
            · simp only [if_true] at hg ⊢
              push_cast; rw [hd]
              rcases lt_trichotomy (Y i) (Y (i + 1)) with c | c | c
              · exact absurd ⟨c, rfl⟩ h
              · exact Or.inr ⟨c.symm, hg⟩
              · exact Or.inl c
          · rfl
          · rfl
          · simp only [hf.1, Bool.false_eq_true, false_iff]
            rintro ⟨a, b⟩
            cases g
            · simp only [Bool.false_eq_true, if_false] at hg; exact hexcl ⟨a, hg⟩
            · exact h ⟨b, rfl⟩
          · simp only [hf.2, Bool.false_eq_true, false_iff]
            rintro ⟨a, b⟩
            cases g
            · exact h' ⟨b, rfl⟩
            · simp only [if_true] at hg; exact hexcl ⟨hg, a⟩
    · have hin : i + 1 = nodes.length := by omega
      have hdrop : nodes.drop (i + 1) = [] := by simp [hin]
      rw [hdrop]
      have hyl : (nodes.map Vtx.y).length = nodes.length := by simp
      have hdn : DownInto Y (i + 1) ↔ DownInto Y 0 := by
        have := downInto_cyc hY 0
        rw [hyl, ← hin] at this; simpa using this
      have hun : UpInto Y (i + 1) ↔ UpInto Y 0 := by
        have := upInto_cyc hY 0
        rw [hyl, ← hin] at this; simpa using this
      have hexcl0 := not_down_up Y 0
      unfold flagLoop
      unfold LocalMin LocalMax
      have fin : ∀ u : Vtx K, u.pt = nodes[i].pt → u.seg = nodes[i].seg →
          (u.lmin = true ↔ DownInto Y i ∧ Y i < Y (i + 1)) → (u.lmax = true ↔ UpInto Y i ∧ Y (i + 1) < Y i) →
          [u].length = n + 1 ∧
          ∀ (j : Nat) (w : Vtx K), [u][j]? = some w →
            (∃ v, nodes[i + j]? = some v ∧ w.pt = v.pt ∧ w.seg = v.seg) ∧
            (w.lmin = true ↔ DownInto Y ((i + j : Nat) : ℤ) ∧ Y ((i + j : Nat) : ℤ) < Y (((i + j : Nat) : ℤ) + 1)) ∧
            (w.lmax = true ↔ UpInto Y ((i + j : Nat) : ℤ) ∧ Y (((i + j : Nat) : ℤ) + 1) < Y ((i + j : Nat) : ℤ)) := by
        intro u h1 h2 h3 h4
        refine ⟨by simp; omega, ?_⟩
        intro j w hw
        cases j with
        | zero =>
          simp only [List.getElem?_cons_zero, Option.some.injEq] at hw
          subst hw
          exact ⟨⟨nodes[i], by simp [hi], h1, h2⟩, by simpa using h3, by simpa using h4⟩
        | succ j => simp at hw
      cases g <;> cases g0 <;> simp only [bne_self_eq_false, Bool.false_eq_true, if_false, if_true,
        Bool.false_bne, Bool.true_bne, Bool.not_false] at hg hg0 ⊢
      · -- up into, up into the first
        apply fin _ rfl rfl
        · simp only [hf.1, Bool.false_eq_true, false_iff]; rintro ⟨a, _⟩; exact hexcl ⟨a, hg⟩
        · simp only [hf.2, Bool.false_eq_true, false_iff]; rintro ⟨_, b⟩
          exact hexcl0 ⟨hdn.mp (hd.mpr (Or.inl b)), hg0⟩
      · -- up into the last, down into the first: maximum
        apply fin { nodes[i] with lmax := true } rfl rfl
        · simp only [hf.1, Bool.false_eq_true, false_iff]; rintro ⟨a, _⟩; exact hexcl ⟨a, hg⟩
        · simp only [true_iff]
          refine ⟨hg, ?_⟩
          rcases hd.mp (hdn.mpr hg0) with h | h
          · exact h
          · exact absurd ⟨h.2, hg⟩ hexcl
      · apply fin { nodes[i] with lmin := true } rfl rfl
        · simp only [true_iff]
          refine ⟨hg, ?_⟩
          rcases hu.mp (hun.mpr hg0) with h | h
          · exact h
          · exact absurd ⟨hg, h.2⟩ hexcl
        · simp only [hf.2, Bool.false_eq_true, false_iff]; rintro ⟨a, _⟩; exact hexcl ⟨hg, a⟩
      · apply fin _ rfl rfl
        · simp only [hf.1, Bool.false_eq_true, false_iff]; rintro ⟨_, b⟩
          exact hexcl0 ⟨hg0, hun.mp (hu.mpr (Or.inl b))⟩
        · simp only [hf.2, Bool.false_eq_true, false_iff]; rintro ⟨a, _⟩; exact hexcl ⟨hg, a⟩

/-- The flagged kinds alternate, start with the incoming direction and end with the opposite of the closing one; as many
minima as maxima up to the difference of the two directions. -/
theorem flagLoop_kinds (g0 : Bool) (l : List (Vtx K)) (hne : l ≠ []) (hfresh : ∀ v ∈ l, v.lmin = false ∧ v.lmax = false)
    (g : Bool) :
    (kinds (flagLoop g0 g l)).IsChain (· ≠ ·) ∧
    (∀ k ∈ (kinds (flagLoop g0 g l)).head?, k = g) ∧
    (∀ k ∈ (kinds (flagLoop g0 g l)).getLast?, k = !g0) ∧
    (kinds (flagLoop g0 g l) = [] → g = g0) ∧
    (kinds (flagLoop g0 g l)).count true + (if g0 then 1 else 0) =
      (kinds (flagLoop g0 g l)).count false + (if g then 1 else 0) := by
  induction l generalizing g with
  | nil => exact absurd rfl hne
  | cons v vs ih =>
    have hv := hfresh v (by simp)
    cases vs with
    | nil =>
      unfold flagLoop
      cases g <;> cases g0 <;> simp [kinds, hv]
    | cons w vs =>
      have ih' := fun g' => ih (by simp) (fun u hu => hfresh u (by simp [hu])) g'
      unfold flagLoop
      split
      · rename_i h
        have hg : g = true := (Bool.and_eq_true _ _ ▸ h).2
        subst hg
        obtain ⟨h1, h2, h3, h4, h5⟩ := ih' false
        have e : kinds ({ v with lmin := true } :: flagLoop g0 false (w :: vs)) = true :: kinds (flagLoop g0 false (w :: vs)) := by
          simp [kinds]
        rw [e]
        refine ⟨?_, by simp, ?_, by simp, ?_⟩
        · rw [List.isChain_cons]
          refine ⟨?_, h1⟩
          intro k hk
          rw [h2 k hk]; simp
        · intro k hk
          cases hkk : kinds (flagLoop g0 false (w :: vs)) with
          | nil => rw [hkk] at hk; simp at hk; rw [← h4 hkk]; simp [hk]
          | cons a t => rw [hkk, List.getLast?_cons_cons] at hk; exact h3 k (by rw [hkk]; exact hk)
        · simp only [List.count_cons, beq_iff_eq, if_true] at *
          cases g0 <;> simp at * <;> omega
      · split
        · rename_i h0 h
          have hg : g = false := by
            have := (Bool.and_eq_true _ _ ▸ h).2; simpa using this
          subst hg
          obtain ⟨h1, h2, h3, h4, h5⟩ := ih' true
          have e : kinds ({ v with lmax := true } :: flagLoop g0 true (w :: vs)) = false :: kinds (flagLoop g0 true (w :: vs)) := by
            simp [kinds, hv.1]
          rw [e]
          refine ⟨?_, by simp, ?_, by simp, ?_⟩
          · rw [List.isChain_cons]
            refine ⟨?_, h1⟩
            intro k hk
            rw [h2 k hk]; simp
          · intro k hk
            cases hkk : kinds (flagLoop g0 true (w :: vs)) with
            | nil => rw [hkk] at hk; simp at hk; rw [← h4 hkk]; simp [hk]
            | cons a t => rw [hkk, List.getLast?_cons_cons] at hk; exact h3 k (by rw [hkk]; exact hk)
          · simp only [List.count_cons, beq_iff_eq, if_true] at *
            cases g0 <;> simp at * <;> omega
        · have e : kinds (v :: flagLoop g0 g (w :: vs)) = kinds (flagLoop g0 g (w :: vs)) := by
            simp [kinds, hv]
          rw [e]; exact ih' g

omit [LinearOrder K] [LawfulOrd K] in
/-- The unflagged nodes `closeContour` makes. -/
theorem closeContour_fresh (c : Contour K) (nodes : List (Vtx K)) (h : closeContour c = some nodes) :
    2 ≤ nodes.length ∧ ∀ v ∈ nodes, v.lmin = false ∧ v.lmax = false := by
  unfold closeContour at h
  cases hl : c.segs.getLast? with
  | none => rw [hl] at h; simp at h
  | some last =>
    rw [hl] at h
    have hne : c.segs ≠ [] := by intro e; rw [e] at hl; simp at hl
    have hpos : 0 < c.segs.length := List.length_pos_of_ne_nil hne
    dsimp only at h
    split at h
    · simp only [Option.some.injEq] at h
      subst h
      refine ⟨by simp; omega, ?_⟩
      intro v hv
      obtain ⟨p, _, rfl⟩ := List.mem_map.mp hv
      exact ⟨rfl, rfl⟩
    · split at h
      · simp at h
      · rename_i h1
        simp only [Option.some.injEq] at h
        subst h
        refine ⟨by simp; omega, ?_⟩
        intro v hv
        obtain ⟨p, _, rfl⟩ := List.mem_map.mp hv
        exact ⟨rfl, rfl⟩

omit [LinearOrder K] [LawfulOrd K] in
theorem flagLoop_map_y (g g1 : Bool) (l : List (Vtx K)) : (flagLoop g g1 l).map Vtx.y = l.map Vtx.y := by
  induction l generalizing g1 with
  | nil => simp [flagLoop]
  | cons v vs ih =>
    cases vs with
    | nil => unfold flagLoop; split <;> (try split) <;> rfl
    | cons w vs =>
      unfold flagLoop
      split
      · rw [List.map_cons, ih]; rfl
      · split
        · rw [List.map_cons, ih]; rfl
        · rw [List.map_cons, ih]; rfl

/-- **C28**: the ring stored for a contour has the closed contour's vertices, flagged exactly as the specification
says. -/
theorem insertVertexList_flags (c : Contour K) (pt : PathType) (r : Ring K) (h : insertVertexList c pt = some r)
    (Y : ℤ → K) (hY : IsCyc (r.nodes.map Vtx.y) Y) :
    ∀ (i : Nat) (v : Vtx K), r.nodes[i]? = some v →
      (v.lmin = true ↔ LocalMin Y i) ∧ (v.lmax = true ↔ LocalMax Y i) := by
  unfold insertVertexList at h
  cases hc : closeContour c with
  | none => rw [hc] at h; simp at h
  | some nodes =>
    rw [hc] at h; dsimp only at h
    obtain ⟨hlen, hfresh⟩ := closeContour_fresh c nodes hc
    cases hg : goingDown0 nodes with
    | none => rw [hg] at h; simp at h
    | some g0 =>
      rw [hg] at h; simp only [Option.some.injEq] at h
      subst h
      dsimp only at hY ⊢
      have hne : nodes ≠ [] := by intro e; rw [e] at hlen; simp at hlen
      have hmap : (flagLoop g0 g0 nodes).map Vtx.y = nodes.map Vtx.y := by
        exact flagLoop_map_y g0 g0 nodes
      rw [hmap] at hY
      have h0 := goingDown0_spec nodes hne Y hY
      rw [hg] at h0
      have hg0 : if g0 then DownInto Y 0 else UpInto Y 0 := by cases g0 <;> simpa using h0
      obtain ⟨_, h2⟩ := flagLoop_spec nodes Y hY g0 hg0 0 g0 (by omega) (by simpa using hg0) hfresh
      intro i v hv
      have := h2 i v (by simpa using hv)
      simpa using this.2

/-- **C28**: minima and maxima alternate around the ring (also across the start vertex) and are equally many. -/
theorem insertVertexList_alternate (c : Contour K) (pt : PathType) (r : Ring K) (h : insertVertexList c pt = some r) :
    (kinds r.nodes).IsChain (· ≠ ·) ∧
    (∀ a ∈ (kinds r.nodes).head?, ∀ b ∈ (kinds r.nodes).getLast?, a ≠ b) ∧
    (kinds r.nodes).count true = (kinds r.nodes).count false := by
  unfold insertVertexList at h
  cases hc : closeContour c with
  | none => rw [hc] at h; simp at h
  | some nodes =>
    rw [hc] at h; dsimp only at h
    obtain ⟨hlen, hfresh⟩ := closeContour_fresh c nodes hc
    cases hg : goingDown0 nodes with
    | none => rw [hg] at h; simp at h
    | some g0 =>
      rw [hg] at h; simp only [Option.some.injEq] at h
      subst h
      have hne : nodes ≠ [] := by intro e; rw [e] at hlen; simp at hlen
      obtain ⟨h1, h2, h3, h4, h5⟩ := flagLoop_kinds g0 nodes hne hfresh g0
      refine ⟨h1, ?_, by dsimp only; omega⟩
      intro a ha b hb
      rw [h2 a ha, h3 b hb]; simp

theorem List.count_true_add_count_false' (l : List Bool) : l.count true + l.count false = l.length := by
  induction l with
  | nil => rfl
  | cons b l ih => cases b <;> simp <;> omega

/-- **C28**: a stored ring has at least one minimum and one maximum. -/
theorem insertVertexList_has_min (c : Contour K) (pt : PathType) (r : Ring K) (h : insertVertexList c pt = some r) :
    (∃ v ∈ r.nodes, v.lmin = true) ∧ ∃ v ∈ r.nodes, v.lmax = true := by
  have hflags := insertVertexList_flags c pt r h
  have halt := insertVertexList_alternate c pt r h
  have hne : r.nodes ≠ [] ∧ (∀ Y, IsCyc (r.nodes.map Vtx.y) Y → DownInto Y 0 ∨ UpInto Y 0) := by
    unfold insertVertexList at h
    cases hc : closeContour c with
    | none => rw [hc] at h; simp at h
    | some nodes =>
      rw [hc] at h; dsimp only at h
      obtain ⟨hlen, hfresh⟩ := closeContour_fresh c nodes hc
      cases hg : goingDown0 nodes with
      | none => rw [hg] at h; simp at h
      | some g0 =>
        rw [hg] at h; simp only [Option.some.injEq] at h
        subst h
        have hne : nodes ≠ [] := by intro e; rw [e] at hlen; simp at hlen
        dsimp only
        rw [flagLoop_map_y]
        refine ⟨fun e => hne ?_, ?_⟩
        · have := congrArg (List.map Vtx.y) e
          rw [flagLoop_map_y] at this
          simpa using this
        · intro Y hY
          have := goingDown0_spec nodes hne Y hY
          rw [hg] at this
          cases g0
          · exact Or.inr this
          · exact Or.inl this
  obtain ⟨hne, hdir⟩ := hne
  have hne' : r.nodes.map Vtx.y ≠ [] := by simpa using hne
  obtain ⟨Y, hY⟩ := exists_cyc _ hne'
  have hlen : (r.nodes.map Vtx.y).length = r.nodes.length := by simp
  have memk : ∀ b : Bool, 0 < (kinds r.nodes).count b → ∃ v ∈ r.nodes, (if b then v.lmin else v.lmax) = true := by
    intro b hb
    have := List.count_pos_iff.mp hb
    obtain ⟨v, hv, hk⟩ := List.mem_filterMap.mp this
    refine ⟨v, hv, ?_⟩
    cases h1 : v.lmin <;> cases h2 : v.lmax <;> cases b <;> simp [h1, h2] at hk ⊢
  have kmem : (∃ v ∈ r.nodes, v.lmin = true ∨ v.lmax = true) → 0 < (kinds r.nodes).length := by
    rintro ⟨v, hv, hm⟩
    apply List.length_pos_of_ne_nil
    intro e
    have : (if v.lmin then some true else if v.lmax then some false else none : Option Bool) = none := by
      by_contra hc
      obtain ⟨b, hb⟩ := Option.ne_none_iff_exists'.mp hc
      have : b ∈ kinds r.nodes := List.mem_filterMap.mpr ⟨v, hv, hb⟩
      rw [e] at this; simp at this
    rcases hm with hm | hm
    · simp [hm] at this
    · cases h1 : v.lmin <;> simp [h1, hm] at this
  have hflag : ∃ v ∈ r.nodes, v.lmin = true ∨ v.lmax = true := by
    rcases hdir Y hY with hd | hu
    · obtain ⟨i, hi, hm⟩ := cyc_has_min hne' hY hd
      rw [hlen] at hi
      exact ⟨r.nodes[i], List.getElem_mem hi, Or.inl ((hflags Y hY i _ (by simp [hi])).1.mpr hm)⟩
    · obtain ⟨i, hi, hm⟩ := cyc_has_min (K := Kᵒᵈ) hne' hY hu
      replace hi : i < r.nodes.length := hlen ▸ hi
      exact ⟨r.nodes[i], List.getElem_mem hi, Or.inr ((hflags Y hY i _ (by simp [hi])).2.mpr hm)⟩
  have hpos := kmem hflag
  have hsum : (kinds r.nodes).length = (kinds r.nodes).count true + (kinds r.nodes).count false := by
    exact (List.count_true_add_count_false' _).symm
  refine ⟨?_, ?_⟩
  · simpa using memk true (by omega)
  · simpa using memk false (by omega)

/-- **C28**: a contour is ignored exactly when it has no second vertex or all its vertices have the same height. -/
theorem insertVertexList_none_iff (c : Contour K) (pt : PathType) :
    insertVertexList c pt = none ↔ ∀ nodes, closeContour c = some nodes → ∀ v ∈ nodes, ∀ w ∈ nodes, v.y = w.y := by
  unfold insertVertexList
  cases hc : closeContour c with
  | none => simp
  | some nodes =>
    dsimp only
    obtain ⟨hlen, hfresh⟩ := closeContour_fresh c nodes hc
    have hne : nodes ≠ [] := by intro e; rw [e] at hlen; simp at hlen
    have hne' : nodes.map Vtx.y ≠ [] := by simpa using hne
    obtain ⟨Y, hY⟩ := exists_cyc _ hne'
    have h0 := goingDown0_spec nodes hne Y hY
    have hpos : (1 : ℤ) ≤ nodes.length := by omega
    have hyl : (nodes.map Vtx.y).length = nodes.length := by simp
    have hyi : ∀ v ∈ nodes, ∃ i : Nat, Y i = v.y := by
      intro v hv
      obtain ⟨i, hi, rfl⟩ := List.getElem_of_mem hv
      exact ⟨i, hY.2 i _ (by simp [hi])⟩
    constructor
    · intro hnone nodes' hn v hv w hw
      simp only [Option.some.injEq] at hn
      subst hn
      have hg : goingDown0 nodes = none := by
        cases hg : goingDown0 nodes with
        | none => rfl
        | some b => rw [hg] at hnone; simp at hnone
      rw [hg] at h0
      have hall : ∀ u ∈ nodes, u.y = Y 0 := by
        intro u hu
        obtain ⟨i, hi⟩ := hyi u hu
        rw [← hi]
        have h1 := isCyc_mul hY (0 - ((i : ℤ) * (nodes.length - 1))) i
        rw [hyl] at h1
        rw [show 0 - ((i : ℤ) * (nodes.length - 1)) + (i : ℤ) * nodes.length = i by ring] at h1
        rw [h1]
        have h2 := h0 (i * (nodes.length - 1))
        rw [← h2]; congr 1; push_cast [Nat.cast_sub (show 1 ≤ nodes.length by omega)]; ring
      rw [hall v hv, hall w hw]
    · intro hall
      have hall' := hall nodes rfl
      have hYc : ∀ z : ℤ, ∃ v ∈ nodes, Y z = v.y := by
        intro z
        have h1 := Int.emod_nonneg z (show (nodes.length : ℤ) ≠ 0 by omega)
        have h2 := Int.emod_lt_of_pos z (show (0 : ℤ) < nodes.length by omega)
        obtain ⟨m, hm⟩ := Int.eq_ofNat_of_zero_le h1
        have hml : m < nodes.length := by omega
        refine ⟨nodes[m], List.getElem_mem hml, ?_⟩
        rw [← hY.2 m nodes[m].y (by simp [hml])]
        have key : ∀ (q : Nat) (w : ℤ), Y (w - q * nodes.length) = Y w := by
          intro q w
          have := isCyc_mul hY (w - q * nodes.length) q
          rw [hyl, sub_add_cancel] at this
          exact this.symm
        have hz : z = m + nodes.length * (z / nodes.length) := by
          have := Int.emod_add_mul_ediv z nodes.length
          rw [hm] at this; exact this.symm
        rcases Int.le_total 0 (z / nodes.length) with hq | hq
        · obtain ⟨q, hq⟩ := Int.eq_ofNat_of_zero_le hq
          rw [hq] at hz
          have := isCyc_mul hY m q
          rw [hyl] at this
          rw [hz, ← this]; congr 1; ring_nf
        · obtain ⟨q, hq⟩ := Int.eq_ofNat_of_zero_le (show 0 ≤ -(z / nodes.length) by omega)
          have hq' : z / nodes.length = -(q : ℤ) := by omega
          rw [hq'] at hz
          rw [hz, ← key q m]; congr 1; ring
      have hconst : ∀ a b : ℤ, Y a = Y b := by
        intro a b
        obtain ⟨v, hv, h1⟩ := hYc a
        obtain ⟨w, hw, h2⟩ := hYc b
        rw [h1, h2]; exact hall' v hv w hw
      cases hg : goingDown0 nodes with
      | none => rfl
      | some b =>
        rw [hg] at h0
        cases b
        · obtain ⟨k, hk, _⟩ := h0
          rw [hconst (0 - ((k : ℤ) + 1)) 0] at hk; exact absurd hk (lt_irrefl _)
        · obtain ⟨k, hk, _⟩ := h0
          rw [hconst (0 - ((k : ℤ) + 1)) 0] at hk; exact absurd hk (lt_irrefl _)

theorem flagLoop_pt_seg (g g1 : Bool) (l : List (Vtx K)) :
    (flagLoop g g1 l).map (fun v => (v.pt, v.seg)) = l.map (fun v => (v.pt, v.seg)) := by
  induction l generalizing g1 with
  | nil => simp [flagLoop]
  | cons v vs ih =>
    cases vs with
    | nil => unfold flagLoop; split <;> (try split) <;> rfl
    | cons w vs =>
      unfold flagLoop
      split
      · rw [List.map_cons, ih]; rfl
      · split
        · rw [List.map_cons, ih]; rfl
        · rw [List.map_cons, ih]; rfl

/-- Vertices and segments of the closed contour: the start and the segment ends, closed by a straight line unless the
last segment already ends at the start. -/
theorem closeContour_spec (c : Contour K) (nodes : List (Vtx K)) (h : closeContour c = some nodes) :
    (nodes.map Vtx.seg = c.segs ∨ nodes.map Vtx.seg = c.segs ++ [Seg.line c.start]) ∧
    nodes.map Vtx.pt = (c.start :: c.segs.map Seg.target).take nodes.length ∧
    Linked nodes := by
  unfold closeContour at h
  cases hl : c.segs.getLast? with
  | none => rw [hl] at h; simp at h
  | some last =>
    rw [hl] at h
    obtain ⟨init, hinit⟩ := List.getLast?_eq_some_iff.mp hl
    dsimp only at h
    split at h
    · simp only [Option.some.injEq] at h
      subst h
      refine ⟨Or.inr ?_, ?_, ?_⟩
      · rw [List.map_map]
        rw [show (Vtx.seg ∘ fun p : Vec2 K × Seg K => (⟨p.1, p.2, false, false⟩ : Vtx K)) = Prod.snd from rfl]
        rw [List.map_snd_zip (by simp)]
      · rw [List.map_map]
        rw [show (Vtx.pt ∘ fun p : Vec2 K × Seg K => (⟨p.1, p.2, false, false⟩ : Vtx K)) = Prod.fst from rfl]
        rw [List.map_fst_zip (by simp)]
        rw [List.take_of_length_le (by simp)]
      · intro i v w hv hw
        simp only [List.length_map, List.length_zip, List.length_cons, List.length_append, List.length_nil,
          Nat.zero_add, Nat.min_self, List.getElem?_map, Option.map_eq_some_iff] at hv hw
        obtain ⟨⟨p, s⟩, hp, rfl⟩ := hv
        obtain ⟨⟨p', s'⟩, hp', rfl⟩ := hw
        rw [List.getElem?_zip_eq_some] at hp hp'
        dsimp only at hp hp' ⊢
        have hi : i < c.segs.length + 1 := by
          have := (List.getElem?_eq_some_iff.mp hp.1).1; simpa using this
        by_cases hi' : i = c.segs.length
        · subst hi'
          rw [Nat.mod_self] at hp'
          simp only [List.getElem?_cons_zero, Option.some.injEq] at hp'
          rw [List.getElem?_append_right (Nat.le_refl _)] at hp
          simp only [Nat.sub_self, List.getElem?_cons_zero, Option.some.injEq] at hp
          rw [← hp.2, ← hp'.1]; rfl
        · rw [Nat.mod_eq_of_lt (by omega)] at hp'
          rw [List.getElem?_cons_succ, List.getElem?_map] at hp'
          rw [List.getElem?_append_left (by omega)] at hp
          rw [hp.2] at hp'
          simpa using hp'.1
    · rename_i hb
      have heq : c.start = last.target := by
        have : (Vec2.beq c.start last.target) = true := by
          simpa [Vec2.bne] using hb
        exact (Vec2.beq_iff _ _).mp this
      split at h
      · simp at h
      · rename_i h1
        simp only [Option.some.injEq] at h
        subst h
        refine ⟨Or.inl ?_, ?_, ?_⟩
        · rw [List.map_map]
          rw [show (Vtx.seg ∘ fun p : Vec2 K × Seg K => (⟨p.1, p.2, false, false⟩ : Vtx K)) = Prod.snd from rfl]
          rw [List.map_snd_zip (by simp)]
        · rw [List.map_map]
          rw [show (Vtx.pt ∘ fun p : Vec2 K × Seg K => (⟨p.1, p.2, false, false⟩ : Vtx K)) = Prod.fst from rfl]
          rw [← heq]
          apply List.ext_getElem?
          intro i
          rw [List.getElem?_map, List.getElem?_take]
          simp only [List.length_map, List.length_zip, List.length_cons]
          by_cases hi : i < c.segs.length
          · rw [if_pos (by omega)]
            have hz : ((c.start :: c.segs.map Seg.target).zip c.segs)[i]? =
                some ((c.start :: c.segs.map Seg.target)[i]'(by simp; omega), c.segs[i]) :=
              List.getElem?_zip_eq_some.mpr ⟨List.getElem?_eq_getElem (by simp; omega), List.getElem?_eq_getElem hi⟩
            rw [hz, List.getElem?_eq_getElem (by simp; omega)]
            rfl
          · rw [if_neg (by omega), List.getElem?_eq_none (by simp; omega)]; rfl
        · intro i v w hv hw
          simp only [List.length_map, List.length_zip, List.length_cons, 
            List.getElem?_map, Option.map_eq_some_iff, Nat.min_eq_right (Nat.le_succ _)] at hv hw
          obtain ⟨⟨p, s⟩, hp, rfl⟩ := hv
          obtain ⟨⟨p', s'⟩, hp', rfl⟩ := hw
          rw [List.getElem?_zip_eq_some] at hp hp'
          dsimp only at hp hp' ⊢
          have hi : i < c.segs.length := (List.getElem?_eq_some_iff.mp hp.2).1
          by_cases hi' : i + 1 = c.segs.length
          · rw [hi', Nat.mod_self] at hp'
            simp only [List.getElem?_cons_zero, Option.some.injEq] at hp'
            have hil : i = init.length := by rw [hinit] at hi'; simpa using hi'
            have := hp.2
            rw [hinit, hil, List.getElem?_append_right (Nat.le_refl _)] at this
            simp only [Nat.sub_self, List.getElem?_cons_zero, Option.some.injEq] at this
            rw [← hp'.1, this]
          · rw [Nat.mod_eq_of_lt (by omega)] at hp'
            rw [List.getElem?_cons_succ, List.getElem?_map, hp.2] at hp'
            simpa using hp'.1

end flags
end River
