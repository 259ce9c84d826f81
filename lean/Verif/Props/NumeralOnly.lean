import Verif.Props.Numeral

/-! # C05: nothing else is read as a number -/

namespace River
namespace Numeral
open DecLex

theorem digit_of (c : Char) (h : c.isDigit = true) : ∃ d : Fin 10, c = Char.ofNat (48 + d.val) ∧ c.toNat - 48 = d.val := by
  unfold Char.isDigit at h
  simp only [Bool.and_eq_true, decide_eq_true_eq] at h
  have h1 : 48 ≤ c.toNat := h.1
  have h2 : c.toNat ≤ 57 := h.2
  refine ⟨⟨c.toNat - 48, by omega⟩, ?_, rfl⟩
  show c = Char.ofNat (48 + (c.toNat - 48))
  rw [show 48 + (c.toNat - 48) = c.toNat by omega, Char.ofNat_toNat]

theorem digits_only (s : List Char) (a k : ℕ) : ∃ ds : List (Fin 10), ∃ r, s = digitChars ds ++ r ∧ (∀ c ∈ r.head?, c.isDigit = false) ∧
    digits a k s = (ds.foldl (fun a d => a * 10 + d.val) a, k + ds.length, r) := by
  induction s generalizing a k with
  | nil => exact ⟨[], [], rfl, by simp, rfl⟩
  | cons c cs ih =>
    by_cases hc : c.isDigit = true
    · obtain ⟨d, e, ev⟩ := digit_of c hc
      obtain ⟨ds, r, e1, e2, e3⟩ := ih (a * 10 + d.val) (k + 1)
      refine ⟨d :: ds, r, ?_, e2, ?_⟩
      · rw [e1, e]; rfl
      · rw [digits, if_pos hc, ev, e3]
        simp [Nat.add_assoc, Nat.add_comm 1]
    · refine ⟨[], c :: cs, rfl, by simpa using hc, ?_⟩
      rw [digits, if_neg hc]; rfl

theorem sign_only (s : List Char) : ∃ sg : SignText, ∃ r, s = sg.text ++ r ∧ DecLex.sign s = (decide (sg = .minus), r) := by
  unfold DecLex.sign
  split
  · exact ⟨.minus, _, rfl, rfl⟩
  · exact ⟨.plus, _, rfl, rfl⟩
  · exact ⟨.none, _, rfl, rfl⟩

theorem expo_only (s : List Char) : ∃ ex : Option (Bool × SignText × List (Fin 10)), ∃ r, s = expText ex ++ r ∧ (∀ e ∈ ex, e.2.2 ≠ []) ∧
    expo s = (Numeral.exponent ⟨.none, [], none, ex⟩, r) := by
  unfold expo
  cases s with
  | nil => exact ⟨none, [], rfl, by simp, rfl⟩
  | cons c t =>
    dsimp only
    split_ifs with hc hz
    · exact ⟨none, c :: t, rfl, by simp, rfl⟩
    all_goals first
      | exact ⟨none, c :: t, rfl, by simp, rfl⟩
      | skip
    all_goals
      obtain ⟨sg, u, e1, e2⟩ := sign_only t
      obtain ⟨ds, r, f1, f2, f3⟩ := digits_only u 0 0
      rw [e2] at hz ⊢
      simp only [f3] at hz ⊢
      have hds : ds ≠ [] := by rintro rfl; simp at hz
      refine ⟨some (decide (c = 'E'), sg, ds), r, ?_, by rintro e he; simp at he; subst he; exact hds, ?_⟩
      · rw [e1, f1]
        rcases hc with rfl | rfl <;> simp [expText]
      · by_cases hm : sg = .minus <;> simp_all [nat, Numeral.exponent]

/-- **C05**: conversely, whatever is read as a number is one written as specified, and read as its value. -/
theorem lex_only {s r : List Char} {q : ℚ} (h : DecLex.lex s = some (q, r)) : ∃ n : Numeral, n.Valid ∧ s = n.text ++ r ∧ q = n.value := by
  obtain ⟨sg, u, e1, e2⟩ := sign_only s
  obtain ⟨wh, v, f1, -, f3⟩ := digits_only u 0 0
  have hf : ∃ fr : Option (List (Fin 10)), ∃ w, v = (match fr with | none => [] | some f => '.' :: digitChars f) ++ w ∧
      ∀ i, DecLex.frac i v = ((fr.getD []).foldl (fun a d => a * 10 + d.val) i, (fr.getD []).length, w) := by
    unfold DecLex.frac
    split
    · next t =>
      obtain ⟨f, w, g1, gd, -⟩ := digits_only t 0 0
      refine ⟨some f, w, by rw [g1]; rfl, fun i => ?_⟩
      rw [g1, digits_run f gd]
      simp
    · exact ⟨none, v, rfl, fun _ => rfl⟩
  obtain ⟨fr, w, g1, g2⟩ := hf
  obtain ⟨ex, r', k1, k2, k3⟩ := expo_only w
  unfold DecLex.lex at h
  rw [e2] at h
  simp only [f3, g2, k3] at h
  split_ifs at h with hz
  all_goals
    simp only [Option.some.injEq, Prod.mk.injEq] at h
    obtain ⟨hq, rfl⟩ := h
    refine ⟨⟨sg, wh, fr, ex⟩, ⟨?_, k2⟩, ?_, ?_⟩
    · intro hc
      dsimp only at hc
      rw [List.append_eq_nil_iff] at hc
      apply hz
      rw [hc.1, hc.2]; rfl
    · rw [e1, f1, g1, k1]
      cases fr <;> simp [Numeral.text]
    · rw [← hq]
      rename_i hm
      simp only [decide_eq_true_eq] at hm
      have hn : nat (wh ++ fr.getD []) = (fr.getD []).foldl (fun a d => a * 10 + d.val) (wh.foldl (fun a d => a * 10 + d.val) 0) := by
        simp only [nat, List.foldl_append]
      have he : Numeral.exponent ⟨sg, wh, fr, ex⟩ = Numeral.exponent ⟨.none, [], none, ex⟩ := rfl
      simp only [Numeral.value, hn, he, hm, if_true, if_false, one_mul, neg_mul]
      try rfl

end Numeral
end River
