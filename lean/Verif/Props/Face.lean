import Verif.Spec.Dcel
import Mathlib.Data.List.Perm.Basic

/-! # Splitting faces (C49, C54) -/

namespace River

namespace FaceGraph

theorem rewire_fin (g : FaceGraph) (a b c d : Nat) : (g.rewire a b c d).fin = g.fin := rfl

/-- Links of a chain that starts none of its links at `e1` or `e3` survive the rewiring. -/
theorem rewire_linked (g : FaceGraph) (e1 e2 e3 e4 : Nat) (h12 : g.prev e2 = some e1) (h34 : g.prev e4 = some e3)
    (l : List Nat) (h : g.Linked l) (hno : ∀ x ∈ l.dropLast, x ≠ e1 ∧ x ≠ e3) : (g.rewire e1 e2 e3 e4).Linked l := by
  induction l with
  | nil => exact List.IsChain.nil
  | cons a t ih =>
    cases t with
    | nil => exact List.isChain_singleton a
    | cons b t =>
      unfold Linked at *
      rw [List.isChain_cons_cons] at *
      have ha := hno a (by simp)
      refine ⟨?_, ih h.2 (fun x hx => hno x (by simp [List.dropLast_cons_of_ne_nil]; exact Or.inr (by simpa using hx)))⟩
      obtain ⟨hn, hp⟩ := h.1
      have hb4 : b ≠ e4 := by
        rintro rfl
        rw [hp] at h34
        exact ha.2 (Option.some.inj h34)
      have hb2 : b ≠ e2 := by
        rintro rfl
        rw [hp] at h12
        exact ha.1 (Option.some.inj h12)
      constructor
      · change Function.update (Function.update g.next e1 (some e4)) e3 (some e2) a = some b
        rw [Function.update_of_ne ha.2, Function.update_of_ne ha.1, hn]
      · change Function.update (Function.update g.prev e4 (some e1)) e2 (some e3) b = some a
        rw [Function.update_of_ne hb2, Function.update_of_ne hb4, hp]

theorem rewire_link1 (g : FaceGraph) (e1 e2 e3 e4 : Nat) (h13 : e1 ≠ e3) (h24 : e2 ≠ e4) :
    (g.rewire e1 e2 e3 e4).next e1 = some e4 ∧ (g.rewire e1 e2 e3 e4).prev e4 = some e1 := by
  constructor
  · change Function.update (Function.update g.next e1 (some e4)) e3 (some e2) e1 = some e4
    rw [Function.update_of_ne h13, Function.update_self]
  · change Function.update (Function.update g.prev e4 (some e1)) e2 (some e3) e4 = some e1
    rw [Function.update_of_ne (Ne.symm h24), Function.update_self]

theorem rewire_link2 (g : FaceGraph) (e1 e2 e3 e4 : Nat) :
    (g.rewire e1 e2 e3 e4).next e3 = some e2 ∧ (g.rewire e1 e2 e3 e4).prev e2 = some e3 := by
  constructor
  · change Function.update (Function.update g.next e1 (some e4)) e3 (some e2) e3 = some e2
    rw [Function.update_self]
  · change Function.update (Function.update g.prev e4 (some e1)) e2 (some e3) e2 = some e3
    rw [Function.update_self]

end FaceGraph

theorem linked_append {g : FaceGraph} {l₁ l₂ : List Nat} : g.Linked (l₁ ++ l₂) ↔
    g.Linked l₁ ∧ g.Linked l₂ ∧ ∀ x ∈ l₁.getLast?, ∀ y ∈ l₂.head?, g.next x = some y ∧ g.prev y = some x :=
  List.isChain_append

theorem linked_pair {g : FaceGraph} {X Y : List Nat} {x y : Nat} (h : g.Linked (X ++ x :: y :: Y)) :
    g.next x = some y ∧ g.prev y = some x := by
  have := (linked_append.1 h).2.1
  unfold FaceGraph.Linked at this
  rw [List.isChain_cons_cons] at this
  exact this.1

theorem lookup_none (g : FaceGraph) (l : List Nat) (v : Nat) :
    (l.map (fun e => (g.fin e, e))).lookup v = none ↔ v ∉ l.map g.fin := by
  induction l with
  | nil => simp
  | cons a t ih =>
    simp only [List.map_cons, List.lookup_cons, List.mem_cons, not_or]
    by_cases h : v = g.fin a
    · simp [h]
    · have : (v == g.fin a) = false := by simpa using h
      rw [this]
      simp only [ih]
      tauto

theorem lookup_some (g : FaceGraph) (l : List Nat) (v e : Nat)
    (h : (l.map (fun e => (g.fin e, e))).lookup v = some e) : e ∈ l ∧ g.fin e = v := by
  induction l with
  | nil => simp at h
  | cons a t ih =>
    simp only [List.map_cons, List.lookup_cons] at h
    by_cases hv : v = g.fin a
    · have : (v == g.fin a) = true := by simpa using hv
      rw [this] at h
      simp only [Option.some.injEq] at h
      subst h
      exact ⟨by simp, hv.symm⟩
    · have : (v == g.fin a) = false := by simpa using hv
      rw [this] at h
      obtain ⟨h1, h2⟩ := ih h
      exact ⟨List.mem_cons_of_mem _ h1, h2⟩

/-- The element after `x` in a cyclic list. -/
theorem exists_next (D : List Nat) (a : Nat) : ∃ e Y, D ++ [a] = e :: Y := by
  cases D with
  | nil => exact ⟨a, [], rfl⟩
  | cons d D => exact ⟨d, D ++ [a], rfl⟩

/-- What the loop of `split_face` computes on a cycle. -/
theorem splitLoop_spec (g : FaceGraph) (a : Nat) (t : List Nat) (hn : (a :: t).Nodup) (hl : g.Linked (a :: t ++ [a]))
    (rest : List Nat) : ∀ (fuel : Nat) (seen : List Nat) (cur : Nat), rest.length + 1 ≤ fuel → a :: t = seen ++ cur :: rest →
      (seen.map g.fin).Nodup →
      (g.Simple (a :: t) ∧ splitLoop g a fuel cur (seen.reverse.map (fun e => (g.fin e, e))) = some none) ∨
      (¬ g.Simple (a :: t) ∧ ∃ A e1 B e3 D e2 Y e4 Z, a :: t = A ++ e1 :: (B ++ e3 :: D) ∧ g.fin e1 = g.fin e3 ∧
        B ++ [e3] = e2 :: Y ∧ D ++ [a] = e4 :: Z ∧
        splitLoop g a fuel cur (seen.reverse.map (fun e => (g.fin e, e))) = some (some (g.rewire e1 e2 e3 e4, e2))) := by
  induction rest with
  | nil =>
    intro fuel seen cur hf hc hs
    obtain ⟨fuel, rfl⟩ : ∃ k, fuel = k + 1 := ⟨fuel - 1, by simp at hf; omega⟩
    have hnext : g.next cur = some a ∧ g.prev a = some cur := by
      apply linked_pair (X := seen) (Y := [])
      rw [hc] at hl
      simpa using hl
    rw [splitLoop]
    cases hk : (seen.reverse.map (fun e => (g.fin e, e))).lookup (g.fin cur) with
    | none =>
      left
      rw [lookup_none] at hk
      refine ⟨?_, ?_⟩
      · unfold FaceGraph.Simple
        rw [hc, List.map_append, List.nodup_append]
        refine ⟨hs, by simp, ?_⟩
        intro x hx y hy
        simp at hy
        rintro rfl
        apply hk
        rw [← hy]
        simpa using hx
      · simp [hnext.1]
    | some e1 =>
      right
      obtain ⟨hm, he⟩ := lookup_some g _ _ _ hk
      rw [List.mem_reverse] at hm
      obtain ⟨A, B, rfl⟩ := List.append_of_mem hm
      obtain ⟨e2, Y, h2⟩ := exists_next B cur
      have hnx1 : g.next e1 = some e2 := by
        have : g.Linked (A ++ e1 :: e2 :: (Y ++ [a])) := by
          have h3 : A ++ e1 :: e2 :: (Y ++ [a]) = a :: t ++ [a] := by
            rw [hc]
            have : e2 :: (Y ++ [a]) = (e2 :: Y) ++ [a] := rfl
            rw [this, ← h2]
            simp
          rw [h3]
          exact hl
        exact (linked_pair this).1
      refine ⟨?_, A, e1, B, cur, [], e2, Y, a, [], by rw [hc]; simp, he, h2, rfl, ?_⟩
      · unfold FaceGraph.Simple
        rw [hc, List.map_append, List.nodup_append]
        rintro ⟨-, -, h⟩
        exact h (g.fin e1) (by simp) (g.fin cur) (by simp) he
      · simp [hnx1, hnext.1]
  | cons n rest ih =>
    intro fuel seen cur hf hc hs
    obtain ⟨fuel, rfl⟩ : ∃ k, fuel = k + 1 := ⟨fuel - 1, by simp at hf; omega⟩
    have hnext : g.next cur = some n ∧ g.prev n = some cur := by
      apply linked_pair (X := seen) (Y := rest ++ [a])
      rw [hc] at hl
      simpa using hl
    have hna : n ≠ a := by
      rintro rfl
      cases seen with
      | nil =>
        simp only [List.nil_append, List.cons.injEq] at hc
        rw [hc.2] at hn
        simp at hn
      | cons s seen =>
        simp only [List.cons_append, List.cons.injEq] at hc
        rw [hc.2] at hn
        simp at hn
    rw [splitLoop]
    cases hk : (seen.reverse.map (fun e => (g.fin e, e))).lookup (g.fin cur) with
    | none =>
      rw [lookup_none] at hk
      have := ih fuel (seen ++ [cur]) n (by simp at hf; omega) (by rw [hc]; simp) (by
        rw [List.map_append, List.nodup_append]
        refine ⟨hs, by simp, ?_⟩
        intro x hx y hy
        simp at hy
        rintro rfl
        apply hk
        rw [← hy]
        simpa using hx)
      rw [List.reverse_append, List.reverse_singleton, List.singleton_append, List.map_cons] at this
      simp only [hnext.1, beq_iff_eq, if_neg hna]
      exact this
    | some e1 =>
      right
      obtain ⟨hm, he⟩ := lookup_some g _ _ _ hk
      rw [List.mem_reverse] at hm
      obtain ⟨A, B, rfl⟩ := List.append_of_mem hm
      obtain ⟨e2, Y, h2⟩ := exists_next B cur
      have hnx1 : g.next e1 = some e2 := by
        have : g.Linked (A ++ e1 :: e2 :: (Y ++ (n :: rest) ++ [a])) := by
          have h3 : A ++ e1 :: e2 :: (Y ++ (n :: rest) ++ [a]) = a :: t ++ [a] := by
            rw [hc]
            have : e2 :: (Y ++ (n :: rest) ++ [a]) = (e2 :: Y) ++ (n :: rest) ++ [a] := rfl
            rw [this, ← h2]
            simp
          rw [h3]
          exact hl
        exact (linked_pair this).1
      refine ⟨?_, A, e1, B, cur, n :: rest, e2, Y, n, rest ++ [a], by rw [hc]; simp, he, h2, rfl, ?_⟩
      · unfold FaceGraph.Simple
        rw [hc, List.map_append, List.nodup_append]
        rintro ⟨-, -, h⟩
        exact h (g.fin e1) (by simp) (g.fin cur) (by simp) he
      · simp [hnx1, hnext.1]

/-- A cycle of links, some of whose edges leave it, is kept when the rewired edges are not on it. -/
theorem cycle_keep (g : FaceGraph) (e1 e2 e3 e4 : Nat) (h12 : g.prev e2 = some e1) (h34 : g.prev e4 = some e3) (c : List Nat)
    (h : g.Cycle c) (h1 : e1 ∉ c) (h3 : e3 ∉ c) : (g.rewire e1 e2 e3 e4).Cycle c := by
  obtain ⟨hn, a, t, rfl, hl⟩ := h
  refine ⟨hn, a, t, rfl, g.rewire_linked e1 e2 e3 e4 h12 h34 _ hl ?_⟩
  intro x hx
  have hx' : x ∈ a :: t := by
    have : (a :: t ++ [a]).dropLast = a :: t := List.dropLast_concat ..
    rwa [this] at hx
  exact ⟨fun hh => h1 (hh ▸ hx'), fun hh => h3 (hh ▸ hx')⟩

/-- **C49**: `split_face` on a cycle of half edges reports nothing exactly when no vertex repeats; otherwise it leaves two
cycles that together have exactly the half edges of the old one, the first one still containing the start of the old face, and
every other cycle is left alone. -/
theorem splitFace_spec (g : FaceGraph) (c : List Nat) (a : Nat) (fuel : Nat) (hc : g.Cycle c) (ha : c.head? = some a)
    (hf : c.length ≤ fuel) :
    (g.Simple c ∧ splitFace g fuel a = some none) ∨
    (¬ g.Simple c ∧ ∃ g' f c1 c2, splitFace g fuel a = some (some (g', f)) ∧ g'.fin = g.fin ∧ g'.Cycle c1 ∧ g'.Cycle c2 ∧
      c1.head? = some a ∧ c2.head? = some f ∧ (c1 ++ c2).Perm c ∧
      ∀ o, g.Cycle o → (∀ x ∈ o, x ∉ c) → g'.Cycle o) := by
  obtain ⟨hn, b, t, rfl, hl⟩ := hc
  simp only [List.head?_cons, Option.some.injEq] at ha
  subst ha
  rcases splitLoop_spec g b t hn hl t fuel [] b (by simpa using hf) rfl (by simp) with h | ⟨hs, A, e1, B, e3, D, e2, Y, e4, Z, hc, he, h2, h4, hr⟩
  · exact Or.inl h
  · right
    refine ⟨hs, g.rewire e1 e2 e3 e4, e2, A ++ e1 :: D, B ++ [e3], hr, rfl, ?_⟩
    have hlong : g.Linked (A ++ e1 :: (B ++ e3 :: (D ++ [b]))) := by
      have : A ++ e1 :: (B ++ e3 :: (D ++ [b])) = b :: t ++ [b] := by rw [hc]; simp
      rw [this]
      exact hl
    have hlong1 : g.Linked (A ++ e1 :: e2 :: (Y ++ D ++ [b])) := by
      have : e2 :: (Y ++ D ++ [b]) = B ++ e3 :: (D ++ [b]) := by
        rw [show e2 :: (Y ++ D ++ [b]) = (e2 :: Y) ++ (D ++ [b]) by simp, ← h2]
        simp
      rw [this]
      exact hlong
    have hlong2 : g.Linked ((A ++ e1 :: B) ++ e3 :: e4 :: Z) := by
      rw [← h4]
      simpa using hlong
    obtain ⟨hn1, hp1⟩ := linked_pair hlong1
    obtain ⟨hn3, hp3⟩ := linked_pair hlong2
    rw [hc] at hn
    have hperm : ((A ++ e1 :: D) ++ (B ++ [e3])).Perm (b :: t) := by
      rw [hc]
      have h1 : ((A ++ e1 :: D) ++ (B ++ [e3])).Perm (A ++ (e1 :: ((B ++ [e3]) ++ D))) := by
        rw [List.append_assoc, List.cons_append]
        exact List.Perm.append_left _ (List.Perm.cons _ List.perm_append_comm)
      simpa using h1
    have hnd : ((A ++ e1 :: D) ++ (B ++ [e3])).Nodup := by
      rw [hperm.nodup_iff, hc]
      exact hn
    have h13 : e1 ≠ e3 := by
      rintro rfl
      rw [List.nodup_append] at hnd
      exact hnd.2.2 e1 (by simp) e1 (by simp) rfl
    have h24 : e2 ≠ e4 := by
      rintro rfl
      rw [hp1] at hp3
      exact h13 (Option.some.inj hp3)
    rw [List.nodup_append] at hnd
    have hhead : (A ++ e1 :: D).head? = some b := by
      cases A with
      | nil => simp only [List.nil_append, List.cons.injEq] at hc ⊢; simp [hc.1]
      | cons x A => simp only [List.cons_append, List.cons.injEq] at hc ⊢; simp [hc.1]
    refine ⟨⟨hnd.1, ?_⟩, ⟨hnd.2.1, ?_⟩, hhead, by rw [h2]; rfl, hperm, ?_⟩
    · obtain ⟨a', t', hat⟩ : ∃ a' t', A ++ e1 :: D = a' :: t' := by
        cases A with
        | nil => exact ⟨_, _, rfl⟩
        | cons x A => exact ⟨_, _, rfl⟩
      have hab : a' = b := by rw [hat] at hhead; simpa using hhead
      subst hab
      refine ⟨a', t', hat, ?_⟩
      rw [← hat]
      have hsplit : A ++ e1 :: D ++ [a'] = (A ++ [e1]) ++ (e4 :: Z) := by rw [← h4]; simp
      rw [hsplit, linked_append]
      have hA : g.Linked (A ++ [e1]) := by
        have : A ++ e1 :: (B ++ e3 :: (D ++ [a'])) = (A ++ [e1]) ++ (B ++ e3 :: (D ++ [a'])) := by simp
        rw [this] at hlong
        exact (linked_append.1 hlong).1
      have hZ : g.Linked (e4 :: Z) := by
        have : (A ++ e1 :: B) ++ e3 :: e4 :: Z = (A ++ e1 :: B ++ [e3]) ++ (e4 :: Z) := by simp
        rw [this] at hlong2
        exact (linked_append.1 hlong2).2.1
      refine ⟨g.rewire_linked e1 e2 e3 e4 hp1 hp3 _ hA ?_, g.rewire_linked e1 e2 e3 e4 hp1 hp3 _ hZ ?_, ?_⟩
      · intro x hx
        rw [List.dropLast_concat] at hx
        have h' := List.nodup_append.1 hnd.1
        refine ⟨fun hh => h'.2.2 x hx x (by simp [hh]) rfl, fun hh => hnd.2.2 x (by simp [hx]) x (by simp [hh]) rfl⟩
      · intro x hx
        rw [← h4, List.dropLast_concat] at hx
        have h' := List.nodup_append.1 hnd.1
        refine ⟨fun hh => (List.nodup_cons.1 h'.2.1).1 (hh ▸ hx), fun hh => hnd.2.2 x (by simp [hx]) x (by simp [hh]) rfl⟩
      · intro x hx y hy
        simp only [List.getLast?_append, List.getLast?_singleton, Option.some_or, Option.mem_some_iff] at hx
        simp only [List.head?_cons, Option.mem_some_iff] at hy
        subst hx hy
        exact g.rewire_link1 _ _ _ _ h13 h24
    · refine ⟨e2, Y, h2, ?_⟩
      rw [← h2, linked_append]
      have hB : g.Linked (B ++ [e3]) := by
        have : A ++ e1 :: (B ++ e3 :: (D ++ [b])) = (A ++ [e1]) ++ ((B ++ [e3]) ++ (D ++ [b])) := by simp
        rw [this] at hlong
        exact (linked_append.1 (linked_append.1 hlong).2.1).1
      refine ⟨g.rewire_linked e1 e2 e3 e4 hp1 hp3 _ hB ?_, List.isChain_singleton _, ?_⟩
      · intro x hx
        rw [List.dropLast_concat] at hx
        have h' := List.nodup_append.1 hnd.2.1
        exact ⟨fun hh => hnd.2.2 x (by simp [hh]) x (by simp [hx]) rfl, fun hh => h'.2.2 x hx x (by simp [hh]) rfl⟩
      · intro x hx y hy
        simp only [List.getLast?_append, List.getLast?_singleton, Option.some_or, Option.mem_some_iff] at hx
        simp only [List.head?_cons, Option.mem_some_iff] at hy
        subst hx hy
        exact g.rewire_link2 _ _ _ _
    · intro o ho hdis
      refine cycle_keep g e1 e2 e3 e4 hp1 hp3 o ho ?_ ?_
      · intro hx
        exact hdis e1 hx (by rw [hc]; simp)
      · intro hx
        exact hdis e3 hx (by rw [hc]; simp)

/-- The faces with the given starts are cycles without common half edges. -/
def Faces (g : FaceGraph) (starts : List Nat) (cs : List (List Nat)) : Prop :=
  List.Forall₂ (fun a c => g.Cycle c ∧ c.head? = some a) starts cs ∧ cs.flatten.Nodup

theorem Cycle.ne_nil {g : FaceGraph} {c : List Nat} (h : g.Cycle c) : c ≠ [] := by
  obtain ⟨_, a, t, rfl, _⟩ := h
  simp

/-- **C54**: splitting all faces ends, keeps every half edge in exactly one face, and no vertex repeats in any face at the end. The
number of turns needed is at most twice the number of half edges. -/
theorem splitAll_spec (fuel : Nat) : ∀ (n : Nat) (g : FaceGraph) (todo done : List Nat) (ct cd : List (List Nat)),
    Faces g (todo ++ done) (ct ++ cd) → todo.length = ct.length → (∀ c ∈ cd, g.Simple c) →
    (ct ++ cd).flatten.length ≤ fuel → 2 * ct.flatten.length ≤ n + ct.length →
    ∃ g' starts cs, splitAll g fuel n todo done = some (g', starts) ∧ g'.fin = g.fin ∧ Faces g' starts cs ∧
      cs.flatten.Perm (ct ++ cd).flatten ∧ ∀ c ∈ cs, g'.Simple c := by
  intro n
  induction n with
  | zero =>
    intro g todo done ct cd hF hlen hs hf hn
    cases todo with
    | nil =>
      have : ct = [] := List.length_eq_zero_iff.1 (by simpa using hlen.symm)
      subst this
      exact ⟨g, done, cd, rfl, rfl, by simpa using hF, by simp, hs⟩
    | cons f fs =>
      exfalso
      cases ct with
      | nil => simp at hlen
      | cons c cs =>
        have h1 : ∀ l : List (List Nat), (∀ x ∈ l, x ≠ []) → l.length ≤ l.flatten.length := by
          intro l
          induction l with
          | nil => simp
          | cons x l ih =>
            intro h
            have := ih (fun y hy => h y (by simp [hy]))
            have hx := List.length_pos_iff.2 (h x (by simp))
            simp only [List.length_cons, List.flatten_cons, List.length_append]
            omega
        have h2 := h1 (c :: cs) (by
          intro x hx
          obtain ⟨i, hi, rfl⟩ := List.mem_iff_getElem.1 hx
          have h3 := (List.forall₂_iff_get.1 hF.1).2 i (by rw [(List.forall₂_iff_get.1 hF.1).1, List.length_append]; omega) (by rw [List.length_append]; omega)
          have h4 : ((c :: cs) ++ cd).get ⟨i, by rw [List.length_append]; omega⟩ = (c :: cs)[i] := by
            simp only [List.get_eq_getElem]
            exact List.getElem_append_left hi
          rw [h4] at h3
          exact Cycle.ne_nil h3.1)
        simp only [List.length_cons] at h2 hn
        omega
  | succ n ih =>
    intro g todo done ct cd hF hlen hs hf hn
    cases todo with
    | nil =>
      have : ct = [] := List.length_eq_zero_iff.1 (by simpa using hlen.symm)
      subst this
      exact ⟨g, done, cd, by simp [splitAll], rfl, by simpa using hF, by simp, hs⟩
    | cons f fs =>
      cases ct with
      | nil => simp at hlen
      | cons c cs =>
        obtain ⟨hF1, hF2⟩ := hF
        simp only [List.cons_append, List.forall₂_cons] at hF1
        obtain ⟨⟨hcyc, hhd⟩, hrest⟩ := hF1
        have hclen := List.length_pos_iff.2 (Cycle.ne_nil hcyc)
        rw [splitAll]
        simp only [List.cons_append, List.flatten_cons, List.length_append] at hf hF2
        simp only [List.flatten_cons, List.length_append, List.length_cons] at hn
        have hdisj := List.nodup_append.1 hF2
        rcases splitFace_spec g c f fuel hcyc hhd (by omega) with ⟨hsim, hsp⟩ | ⟨hsim, g', f', c1, c2, hsp, hfin, hc1, hc2, hh1, hh2, hperm, hother⟩
        · rw [hsp]
          dsimp only
          have hFo : Faces g (fs ++ (done ++ [f])) (cs ++ (cd ++ [c])) := by
            refine ⟨?_, ?_⟩
            · rw [← List.append_assoc, ← List.append_assoc]
              exact List.rel_append hrest (List.Forall₂.cons ⟨hcyc, hhd⟩ List.Forall₂.nil)
            · have hp : (cs ++ (cd ++ [c])).flatten.Perm (c ++ (cs ++ cd).flatten) := by
                rw [← List.append_assoc, List.flatten_append, show [c].flatten = c by simp]
                exact List.perm_append_comm
              exact hp.nodup_iff.2 hF2
          obtain ⟨g'', starts, csf, e1, e2, e3, e4, e5⟩ := ih g fs (done ++ [f]) cs (cd ++ [c]) hFo (by simpa using hlen)
            (by
              intro x hx
              rcases List.mem_append.1 hx with hx | hx
              · exact hs x hx
              · rw [List.mem_singleton] at hx
                rw [hx]
                exact hsim)
            (by simp only [List.flatten_append, List.length_append, List.flatten_cons, List.flatten_nil, List.append_nil] at hf ⊢; omega)
            (by omega)
          refine ⟨g'', starts, csf, e1, e2, e3, e4.trans ?_, e5⟩
          rw [← List.append_assoc, List.flatten_append, show [c].flatten = c by simp, List.cons_append, List.flatten_cons]
          exact List.perm_append_comm
        · rw [hsp]
          dsimp only
          have hkeep : ∀ o ∈ cs ++ cd, g.Cycle o → g'.Cycle o := by
            intro o ho hco
            apply hother o hco
            intro x hx hxc
            exact hdisj.2.2 x hxc x (List.mem_flatten.2 ⟨o, ho, hx⟩) rfl
          have hl := hperm.length_eq
          rw [List.length_append] at hl
          have hl1 := List.length_pos_iff.2 (Cycle.ne_nil hc1)
          have hl2 := List.length_pos_iff.2 (Cycle.ne_nil hc2)
          have hpm : ((c2 :: c1 :: cs) ++ cd).flatten.Perm (c ++ (cs ++ cd).flatten) := by
            simp only [List.cons_append, List.flatten_cons]
            rw [← List.append_assoc]
            exact (List.perm_append_comm.trans hperm).append_right _
          have hFo : Faces g' ((f' :: f :: fs) ++ done) ((c2 :: c1 :: cs) ++ cd) := by
            refine ⟨List.Forall₂.cons ⟨hc2, hh2⟩ (List.Forall₂.cons ⟨hc1, hh1⟩ ?_), hpm.nodup_iff.2 hF2⟩
            change List.Forall₂ _ (fs ++ done) (cs ++ cd)
            rw [List.forall₂_iff_get] at hrest ⊢
            refine ⟨hrest.1, fun i h1 h2 => ⟨hkeep _ (List.get_mem _ _) (hrest.2 i h1 h2).1, (hrest.2 i h1 h2).2⟩⟩
          have hpl := hpm.length_eq
          simp only [List.length_append] at hpl
          obtain ⟨g'', starts, csf, e1, e2, e3, e4, e5⟩ := ih g' (f' :: f :: fs) done (c2 :: c1 :: cs) cd hFo (by simpa using hlen)
            (by
              intro x hx
              unfold FaceGraph.Simple
              rw [hfin]
              exact hs x hx)
            (by rw [hpl]; simp only [List.flatten_append, List.length_append] at hf ⊢; omega)
            (by simp only [List.flatten_cons, List.length_append, List.length_cons]; omega)
          exact ⟨g'', starts, csf, e1, e2.trans hfin, e3, e4.trans hpm, e5⟩

/-- A figure of eight: six half edges around two triangles that share vertex 0. -/
def eight : FaceGraph where
  next e := if e < 6 then some ((e + 1) % 6) else none
  prev e := if e < 6 then some ((e + 5) % 6) else none
  fin e := [1, 2, 0, 3, 4, 0].getD e 0

/-- C49, a case: the figure of eight is one cycle with a repeated vertex; it is split into its two triangles. -/
theorem eight_split : eight.Cycle [0, 1, 2, 3, 4, 5] ∧ ¬ eight.Simple [0, 1, 2, 3, 4, 5] ∧
    ∃ g, splitAll eight 6 12 [0] [] = some (g, [3, 0]) ∧ g.Cycle [0, 1, 2] ∧ g.Cycle [3, 4, 5] := by
  refine ⟨⟨by decide, 0, [1, 2, 3, 4, 5], rfl, by unfold FaceGraph.Linked; decide⟩, by unfold FaceGraph.Simple; decide,
    eight.rewire 2 3 5 0, ?_, ⟨by decide, 0, [1, 2], rfl, by unfold FaceGraph.Linked; decide⟩, ⟨by decide, 3, [4, 5], rfl, by unfold FaceGraph.Linked; decide⟩⟩
  rfl

end River
