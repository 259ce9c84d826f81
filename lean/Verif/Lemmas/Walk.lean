import Verif.Model.Walk
import Verif.Spec.Dcel
import Mathlib.Data.Finset.Card
import Mathlib.Data.List.Flatten
import Mathlib.Tactic.Linarith

/-! # The walking loop of `build_face` -/

namespace River

/-- The lists of the points hold exactly the half edges `es`, each at its start and at its end, and at every point as many half edges
begin as end. -/
structure Star (pts : Nat → List PEdge) (start fin : Nat → Nat) (es : List Nat) : Prop where
  nodup : es.Nodup
  emit : ∀ p x, (⟨x, true⟩ : PEdge) ∈ pts p ↔ x ∈ es ∧ start x = p
  arrive : ∀ p x, (⟨x, false⟩ : PEdge) ∈ pts p ↔ x ∈ es ∧ fin x = p
  balance : ∀ p, (es.filter (fun x => start x == p)).length = (es.filter (fun x => fin x == p)).length

/-- The state in the middle of a walk: closed faces `cs`, the path walked so far. -/
structure Walking (start : Nat → Nat) (es : List Nat) (g : FaceGraph) (cs : List (List Nat)) (path : List Nat) : Prop where
  sub : ∀ x ∈ cs.flatten ++ path, x ∈ es
  nodup : (cs.flatten ++ path).Nodup
  cyc : ∀ c ∈ cs, g.Cycle c
  lnk : g.Linked path
  next : ∀ x, (g.next x).isSome ↔ x ∈ cs.flatten ∨ x ∈ path.dropLast
  prev : ∀ x, (g.prev x).isSome ↔ x ∈ cs.flatten ∨ x ∈ path.tail
  inv : ∀ x y, g.next x = some y ↔ g.prev y = some x
  geo : ∀ x y, g.next x = some y → start y = g.fin x

theorem link_next (g : FaceGraph) (cur n x : Nat) : (g.link cur n).next x = if x = cur then some n else g.next x := by
  unfold FaceGraph.link
  simp only [Function.update_apply]

theorem link_prev (g : FaceGraph) (cur n x : Nat) : (g.link cur n).prev x = if x = n then some cur else g.prev x := by
  unfold FaceGraph.link
  simp only [Function.update_apply]

theorem link_fin (g : FaceGraph) (cur n : Nat) : (g.link cur n).fin = g.fin := rfl

theorem link_linked {g : FaceGraph} {cur n : Nat} (h1 : g.next cur = none) (h2 : g.prev n = none) {l : List Nat} (h : g.Linked l) :
    (g.link cur n).Linked l := by
  refine List.IsChain.imp ?_ h
  rintro x y ⟨hx, hy⟩
  rw [link_next, link_prev, if_neg, if_neg]
  · exact ⟨hx, hy⟩
  · rintro rfl; rw [h2] at hy; simp at hy
  · rintro rfl; rw [h1] at hx; simp at hx

theorem link_cycle {g : FaceGraph} {cur n : Nat} (h1 : g.next cur = none) (h2 : g.prev n = none) {c : List Nat} (h : g.Cycle c) :
    (g.link cur n).Cycle c := by
  obtain ⟨hn, a, t, rfl, hl⟩ := h
  exact ⟨hn, a, t, rfl, link_linked h1 h2 hl⟩

theorem link_inv {g : FaceGraph} {cur n : Nat} (h1 : g.next cur = none) (h2 : g.prev n = none)
    (h : ∀ x y, g.next x = some y ↔ g.prev y = some x) (x y : Nat) :
    (g.link cur n).next x = some y ↔ (g.link cur n).prev y = some x := by
  rw [link_next, link_prev]
  split <;> split
  · subst_vars; simp
  · rename_i hx hy
    subst hx
    constructor
    · intro e; simp at e; exact absurd e.symm hy
    · intro e
      have := (h x y).2 e
      rw [h1] at this; simp at this
  · rename_i hx hy
    subst hy
    constructor
    · intro e
      have := (h x y).1 e
      rw [h2] at this; simp at this
    · intro e; simp at e; exact absurd e.symm hx
  · exact h x y

/-- An arriving half edge without successor leaves a half edge without predecessor to go on with. -/
theorem exists_free {pts : Nat → List PEdge} {start : Nat → Nat} {g : FaceGraph} {es : List Nat} {cs : List (List Nat)} {path : List Nat}
    (S : Star pts start g.fin es) (W : Walking start es g cs path) (cur : Nat) (hc : cur ∈ es) (hn : g.next cur = none) :
    ∃ n ∈ es, start n = g.fin cur ∧ g.prev n = none := by
  by_contra hno
  push Not at hno
  have hall : ∀ x ∈ es, start x = g.fin cur → ∃ y, g.prev x = some y := by
    intro x hx hs
    exact Option.ne_none_iff_exists'.1 (hno x hx hs)
  have hcard : ((es.filter (fun x => start x == g.fin cur)).toFinset).card ≤
      (((es.filter (fun x => g.fin x == g.fin cur)).toFinset).erase cur).card := by
    apply Finset.card_le_card_of_injOn (fun x => (g.prev x).getD 0)
    · intro x hx
      simp only [Finset.mem_coe, List.mem_toFinset, List.mem_filter, beq_iff_eq] at hx
      obtain ⟨y, hy⟩ := hall x hx.1 hx.2
      have hny := (W.inv y x).2 hy
      have hyes : y ∈ es := by
        have := (W.next y).1 (by rw [hny]; rfl)
        apply W.sub
        rw [List.mem_append]
        rcases this with h | h
        · exact Or.inl h
        · exact Or.inr (List.dropLast_subset _ h)
      have hyp := W.geo y x hny
      simp only [Finset.mem_coe, Finset.mem_erase, List.mem_toFinset, List.mem_filter, beq_iff_eq]
      rw [hy]
      refine ⟨?_, hyes, ?_⟩
      · intro h
        rw [Option.getD_some] at h
        rw [h, hn] at hny; simp at hny
      · simp only [Option.getD_some]; rw [← hyp, hx.2]
    · intro x hx x' hx' he
      simp only [Finset.mem_coe, List.mem_toFinset, List.mem_filter, beq_iff_eq] at hx hx'
      obtain ⟨y, hy⟩ := hall x hx.1 hx.2
      obtain ⟨y', hy'⟩ := hall x' hx'.1 hx'.2
      have : y = y' := by
        have he' : (g.prev x).getD 0 = (g.prev x').getD 0 := he
        rw [hy, hy'] at he'; simpa using he'
      subst this
      have h1 := (W.inv y x).2 hy
      have h2 := (W.inv y x').2 hy'
      rw [h1] at h2
      simpa using h2
  have hmem : cur ∈ (es.filter (fun x => g.fin x == g.fin cur)).toFinset := by simp [hc]
  rw [Finset.card_erase_of_mem hmem, List.toFinset_card_of_nodup (S.nodup.filter _), List.toFinset_card_of_nodup (S.nodup.filter _),
    S.balance] at hcard
  have hpos : 0 < (es.filter (fun x => g.fin x == g.fin cur)).length := List.length_pos_of_mem (List.mem_toFinset.1 hmem)
  omega

/-- What `get_next` returns. -/
theorem getNext_some {g : FaceGraph} {L : List PEdge} {e n : Nat} (h : getNext g L e = some n) :
    (⟨n, true⟩ : PEdge) ∈ L ∧ g.prev n = none := by
  unfold getNext at h
  obtain ⟨i, _, h⟩ := Option.bind_eq_some_iff.1 h
  obtain ⟨pe, hpe, rfl⟩ := Option.map_eq_some_iff.1 h
  have hm := List.mem_of_find?_eq_some hpe
  have hp := List.find?_some hpe
  rw [Bool.and_eq_true, Option.isNone_iff_eq_none] at hp
  refine ⟨?_, hp.2⟩
  have hpe' : (⟨pe.edge, true⟩ : PEdge) = pe := by cases pe; simp_all
  rw [hpe']
  rcases List.mem_append.1 hm with h | h
  · exact List.mem_of_mem_drop h
  · exact List.mem_of_mem_take h

/-- `get_next` ends if the edge is in the list and some entry is free. -/
theorem getNext_defined {g : FaceGraph} {L : List PEdge} {e n : Nat} {b : Bool} (he : (⟨e, b⟩ : PEdge) ∈ L) (hn : (⟨n, true⟩ : PEdge) ∈ L)
    (hp : g.prev n = none) : ∃ m, getNext g L e = some m := by
  unfold getNext
  have h1 : ∃ i, L.findIdx? (fun pe => pe.edge == e) = some i := by
    rw [← Option.isSome_iff_exists, List.findIdx?_isSome, List.any_eq_true]
    exact ⟨_, he, by simp⟩
  obtain ⟨i, hi⟩ := h1
  rw [hi, Option.bind_some]
  have h2 : ∃ pe, (L.drop (i + 1) ++ L.take (i + 1)).find? (fun pe => pe.emit && (g.prev pe.edge).isNone) = some pe := by
    rw [← Option.isSome_iff_exists, List.find?_isSome]
    refine ⟨⟨n, true⟩, ?_, by simp [hp]⟩
    rw [List.mem_append]
    have : (⟨n, true⟩ : PEdge) ∈ L.take (i + 1) ++ L.drop (i + 1) := by rw [List.take_append_drop]; exact hn
    exact (List.mem_append.1 this).symm
  obtain ⟨pe, h2⟩ := h2
  rw [h2]
  exact ⟨_, rfl⟩

/-- A walk that starts in a free half edge ends and adds one closed face. The `face` field is set for all its half edges but the
last one. -/
theorem walk_spec {pts : Nat → List PEdge} {start : Nat → Nat} {es : List Nat} {cs : List (List Nat)} (f e : Nat) (face0 : Nat → Option Nat) :
    ∀ (fuel : Nat) (s : WalkSt) (path : List Nat) (cur : Nat), Star pts start s.g.fin es → Walking start es s.g cs (path ++ [cur]) →
    (path ++ [cur]).head? = some e → (∀ x ∈ (path ++ [cur]).tail, s.g.fin x ≠ start e) →
    (∀ x, s.face x = if x ∈ path then some f else face0 x) →
    es.length + 1 ≤ fuel + (cs.flatten ++ (path ++ [cur])).length →
    ∃ s' c, walk pts f e (start e) fuel s cur = some s' ∧ Walking start es s'.g (cs ++ [c]) [] ∧ c.head? = some e ∧
      s'.faces = s.faces ∧ s'.g.fin = s.g.fin ∧
      ∀ x, s'.face x = if x ∈ c.dropLast ∨ c = [x] then some f else face0 x := by
  intro fuel
  induction fuel with
  | zero =>
    intro s path cur S W _ _ _ hf
    exfalso
    have : (cs.flatten ++ (path ++ [cur])).length ≤ es.length :=
      (List.subperm_of_subset W.nodup W.sub).length_le
    omega
  | succ fuel ih =>
    intro s path cur S W hhead hfin hface hf
    have hcur : cur ∈ es := W.sub cur (by simp)
    have hnd := W.nodup
    have hnc : s.g.next cur = none := by
      rw [← Option.not_isSome_iff_eq_none, W.next]
      rintro (h | h)
      · exact (List.nodup_append.1 hnd).2.2 cur h cur (by simp) rfl
      · rw [List.dropLast_concat] at h
        have := (List.nodup_append.1 (List.nodup_append.1 hnd).2.1).2.2 cur h cur (by simp)
        exact this rfl
    obtain ⟨m, hm, hms, hmp⟩ := exists_free S W cur hcur hnc
    obtain ⟨n, hgn⟩ := getNext_defined ((S.arrive _ cur).2 ⟨hcur, rfl⟩) ((S.emit _ m).2 ⟨hm, hms⟩) hmp
    obtain ⟨hnm, hnp⟩ := getNext_some hgn
    obtain ⟨hne, hns⟩ := (S.emit _ n).1 hnm
    have hn1 : n ∉ cs.flatten := by
      intro h
      have := (W.prev n).2 (Or.inl h)
      rw [hnp] at this; simp at this
    have hn2 : n ∉ (path ++ [cur]).tail := by
      intro h
      have := (W.prev n).2 (Or.inr h)
      rw [hnp] at this; simp at this
    have hface' : ∀ x, Function.update s.face cur (some f) x = if x ∈ path ++ [cur] then some f else face0 x := by
      intro x
      rw [Function.update_apply, hface x]
      by_cases hx : x = cur
      · simp [hx]
      · simp [hx]
    rw [walk, if_neg (by rw [hnc]; simp), hgn, Option.bind_some]
    dsimp only
    have hlf : (s.g.link cur n).fin = s.g.fin := rfl
    have hl1 : s.g.Linked (path ++ [cur]) := W.lnk
    have hcyc1 : ∀ c ∈ cs, (s.g.link cur n).Cycle c := fun c hc => link_cycle hnc hnp (W.cyc c hc)
    have hinv1 := link_inv hnc hnp W.inv
    have hgeo1 : ∀ x y, (s.g.link cur n).next x = some y → start y = s.g.fin x := by
      intro x y h
      rw [link_next] at h
      split at h
      · rename_i hx; subst hx; simp at h; rw [← h]; exact hns
      · exact W.geo x y h
    by_cases hen : n = e
    · -- the walk returns to its first half edge at once: a half edge of length zero
      have hpath : path = [] := by
        cases path with
        | nil => rfl
        | cons a t =>
          exfalso
          apply hfin cur (by simp)
          rw [← hns, hen]
      subst hpath
      simp only [List.nil_append, List.head?_cons, Option.some.injEq] at hhead
      subst hhead
      subst hen
      rw [hlf, if_pos (by rw [← hns]; simp)]
      refine ⟨_, [n], rfl, ?_, rfl, rfl, rfl, ?_⟩
      · have hg : ((s.g.link n n).link n n) = s.g.link n n := by
          unfold FaceGraph.link
          simp
        dsimp only
        rw [hg]
        refine ⟨?_, ?_, ?_, ?_, ?_, ?_, hinv1, hgeo1⟩
        · intro x hx; simp only [List.flatten_append, List.flatten_cons, List.flatten_nil, List.append_nil] at hx
          exact W.sub x hx
        · simpa using hnd
        · intro c hc
          rcases List.mem_append.1 hc with hc | hc
          · exact hcyc1 c hc
          · rw [List.mem_singleton] at hc
            subst hc
            refine ⟨by simp, n, [], rfl, ?_⟩
            unfold FaceGraph.Linked
            simp [link_next, link_prev]
        · exact List.IsChain.nil
        · intro x
          rw [link_next]
          by_cases hx : x = n
          · simp [hx]
          · rw [if_neg hx, W.next]; simp [hx]
        · intro x
          rw [link_prev]
          by_cases hx : x = n
          · simp [hx]
          · rw [if_neg hx, W.prev]; simp [hx]
      · intro x
        dsimp only
        rw [hface' x]
        simp [eq_comm]
    · have hnpath : n ∉ path ++ [cur] := by
        intro h
        cases hp : path ++ [cur] with
        | nil => simp at hp
        | cons a t =>
          rw [hp] at h hn2 hhead
          simp only [List.head?_cons, Option.some.injEq] at hhead
          rcases List.mem_cons.1 h with h | h
          · exact hen (h.trans hhead)
          · exact hn2 h
      have hncur : n ≠ cur := by rintro rfl; exact hnpath (by simp)
      have hnd2 : (cs.flatten ++ (path ++ [cur] ++ [n])).Nodup := by
        rw [← List.append_assoc, List.nodup_append]
        refine ⟨hnd, by simp, ?_⟩
        intro a ha b hb
        rw [List.mem_singleton] at hb
        subst hb
        rintro rfl
        rcases List.mem_append.1 ha with ha | ha
        · exact hn1 ha
        · exact hnpath ha
      have htail : (path ++ [cur] ++ [n]).tail = (path ++ [cur]).tail ++ [n] := by
        rw [List.tail_append_of_ne_nil (by simp)]
      have hW1 : Walking start es (s.g.link cur n) cs (path ++ [cur] ++ [n]) := by
        refine ⟨?_, hnd2, hcyc1, ?_, ?_, ?_, hinv1, hgeo1⟩
        · intro x hx
          rw [← List.append_assoc] at hx
          rcases List.mem_append.1 hx with hx | hx
          · exact W.sub x hx
          · rw [List.mem_singleton] at hx; rw [hx]; exact hne
        · unfold FaceGraph.Linked
          rw [List.isChain_append]
          refine ⟨link_linked hnc hnp hl1, List.isChain_singleton _, ?_⟩
          intro x hx y hy
          simp only [List.getLast?_append, List.getLast?_singleton, Option.some_or, Option.mem_def, Option.some.injEq] at hx
          simp only [List.head?_cons, Option.mem_def, Option.some.injEq] at hy
          subst hx; subst hy
          simp [link_next, link_prev]
        · intro x
          rw [link_next, List.dropLast_concat]
          by_cases hx : x = cur
          · simp [hx]
          · rw [if_neg hx, W.next, List.dropLast_concat]; simp [hx]
        · intro x
          rw [link_prev, htail]
          by_cases hx : x = n
          · simp [hx]
          · rw [if_neg hx, W.prev]; simp [hx]
      split
      · rename_i hclose
        rw [hlf, beq_iff_eq] at hclose
        have hnn : (s.g.link cur n).next n = none := by
          rw [← Option.not_isSome_iff_eq_none, hW1.next]
          rintro (h | h)
          · exact hn1 h
          · rw [List.dropLast_concat] at h; exact hnpath h
        have hep : (s.g.link cur n).prev e = none := by
          rw [← Option.not_isSome_iff_eq_none, hW1.prev]
          have hee : e ∈ path ++ [cur] := List.mem_of_mem_head? (by rw [hhead]; rfl)
          rintro (h | h)
          · exact (List.nodup_append.1 hnd).2.2 e h e hee rfl
          · rw [htail, List.mem_append, List.mem_singleton] at h
            rcases h with h | h
            · cases hp : path ++ [cur] with
              | nil => simp at hp
              | cons a t =>
                rw [hp] at h hhead hnd
                simp only [List.head?_cons, Option.some.injEq] at hhead
                subst hhead
                exact (List.nodup_cons.1 (List.nodup_append.1 hnd).2.1).1 h
            · exact hen h.symm
        refine ⟨_, path ++ [cur] ++ [n], rfl, ?_, by rw [List.head?_append, hhead]; rfl, rfl, rfl, ?_⟩
        · dsimp only
          refine ⟨?_, by simpa using hnd2, ?_, List.IsChain.nil, ?_, ?_, link_inv hnn hep hinv1, ?_⟩
          · intro x hx
            apply hW1.sub x
            simpa using hx
          · intro c hc
            rcases List.mem_append.1 hc with hc | hc
            · exact link_cycle hnn hep (hcyc1 c hc)
            · rw [List.mem_singleton] at hc
              subst hc
              refine ⟨(List.nodup_append.1 hnd2).2.1, ?_⟩
              cases hp : path ++ [cur] with
              | nil => simp at hp
              | cons a t =>
                rw [hp] at hhead
                simp only [List.head?_cons, Option.some.injEq] at hhead
                subst hhead
                refine ⟨a, t ++ [n], rfl, ?_⟩
                unfold FaceGraph.Linked
                rw [List.isChain_append]
                refine ⟨?_, List.isChain_singleton _, ?_⟩
                · have := link_linked hnn hep hW1.lnk
                  rw [hp] at this
                  exact this
                · intro x hx y hy
                  rw [← List.cons_append, List.getLast?_append] at hx
                  simp only [List.getLast?_singleton, Option.some_or, Option.mem_def, Option.some.injEq] at hx
                  simp only [List.head?_cons, Option.mem_def, Option.some.injEq] at hy
                  subst hx; subst hy
                  simp [link_next, link_prev]
          · intro x
            rw [link_next]
            by_cases hx : x = n
            · simp [hx]
            · rw [if_neg hx, hW1.next, List.dropLast_concat]; simp [hx]
          · intro x
            rw [link_prev]
            by_cases hx : x = e
            · have : e ∈ path ++ [cur] := List.mem_of_mem_head? (by rw [hhead]; rfl)
              rw [if_pos hx, hx]
              simp only [List.flatten_append, List.flatten_cons, List.flatten_nil, List.append_nil, List.mem_append, Option.isSome_some, true_iff]
              exact Or.inl (Or.inr (Or.inl (List.mem_append.1 this)))
            · rw [if_neg hx, hW1.prev, htail]
              have : x ∈ (path ++ [cur]).tail ↔ x ∈ path ++ [cur] := by
                cases hp : path ++ [cur] with
                | nil => simp at hp
                | cons a t =>
                  rw [hp] at hhead
                  simp only [List.head?_cons, Option.some.injEq] at hhead
                  subst hhead
                  simp [hx]
              rw [List.mem_append, this]
              simp [or_assoc]
          · intro x y h
            rw [link_next] at h
            split at h
            · rename_i hx
              simp at h
              rw [← h, hx]
              exact hclose.symm
            · exact hgeo1 x y h
        · intro x
          dsimp only
          rw [hface' x, List.dropLast_concat]
          have : path ++ [cur] ++ [n] ≠ [x] := by
            intro h
            have := congrArg List.length h
            simp at this
          simp only [this, or_false]
      · rename_i hclose
        rw [hlf, beq_iff_eq] at hclose
        obtain ⟨s', c, h1, h2, h3, h4, h5, h6⟩ := ih { s with g := s.g.link cur n, face := Function.update s.face cur (some f) } (path ++ [cur]) n S hW1
          (by rw [List.head?_append, hhead]; rfl)
          (by
            intro x hx
            rw [htail] at hx
            rcases List.mem_append.1 hx with hx | hx
            · exact hfin x hx
            · rw [List.mem_singleton] at hx; rw [hx]; exact hclose)
          hface'
          (by
            simp only [List.length_append, List.length_singleton] at hf ⊢
            omega)
        exact ⟨s', c, h1, h2, h3, h4, h5, h6⟩

/-- The loop over all half edges. -/
theorem walkAll_spec {pts : Nat → List PEdge} {start : Nat → Nat} {es : List Nat} (fuel : Nat) (hf : es.length + 1 ≤ fuel) :
    ∀ (todo : List Nat) (s : WalkSt) (cs : List (List Nat)), Star pts start s.g.fin es → Walking start es s.g cs [] →
    (∀ x ∈ todo, x ∈ es) → List.Forall₂ (fun a c => c.head? = some a) s.faces cs →
    (∀ x, s.face x = ((cs.findIdx? (fun c => decide (x ∈ c.dropLast ∨ c = [x]))))) →
    ∃ s' cs', walkAll pts start fuel todo s = some s' ∧ Walking start es s'.g (cs ++ cs') [] ∧
      List.Forall₂ (fun a c => c.head? = some a) s'.faces (cs ++ cs') ∧ s'.g.fin = s.g.fin ∧ (∀ x ∈ todo, x ∈ (cs ++ cs').flatten) ∧
      ∀ x, s'.face x = ((cs ++ cs').findIdx? (fun c => decide (x ∈ c.dropLast ∨ c = [x]))) := by
  intro todo
  induction todo with
  | nil =>
    intro s cs S W _ hF hface
    exact ⟨s, [], rfl, by simpa using W, by simpa using hF, rfl, by simp, by simpa using hface⟩
  | cons e todo ih =>
    intro s cs S W hsub hF hface
    rw [walkAll]
    split
    · rename_i hn
      obtain ⟨s', cs', h1, h2, h3, h4, h5, h6⟩ := ih s cs S W (fun x hx => hsub x (List.mem_cons_of_mem _ hx)) hF hface
      refine ⟨s', cs', h1, h2, h3, h4, ?_, h6⟩
      intro x hx
      rcases List.mem_cons.1 hx with rfl | hx
      · have := (W.next x).1 hn
        simp only [List.dropLast_nil, List.not_mem_nil, or_false] at this
        rw [List.flatten_append]
        exact List.mem_append_left _ this
      · exact h5 x hx
    · rename_i hn
      have hecs : e ∉ cs.flatten := by
        intro h
        exact hn ((W.next e).2 (Or.inl h))
      have hW0 : Walking start es s.g cs ([] ++ [e]) := by
        refine ⟨?_, ?_, W.cyc, List.isChain_singleton _, ?_, ?_, W.inv, W.geo⟩
        · intro x hx
          rcases List.mem_append.1 hx with hx | hx
          · exact W.sub x (List.mem_append_left _ hx)
          · simp at hx; rw [hx]; exact hsub e List.mem_cons_self
        · rw [List.nodup_append]
          refine ⟨by simpa using W.nodup, by simp, ?_⟩
          intro a ha b hb
          simp at hb
          subst hb
          rintro rfl
          exact hecs ha
        · intro x; rw [W.next]; simp
        · intro x; rw [W.prev]; simp
      have hlen : s.faces.length = cs.length := hF.length_eq
      obtain ⟨s1, c, h1, h2, h3, h4, h5, h6⟩ := walk_spec (pts := pts) s.faces.length e s.face fuel { s with faces := s.faces ++ [e] } [] e S hW0 rfl (by simp) (by simp) (by omega)
      rw [h1, Option.bind_some]
      have hface1 : ∀ x, s1.face x = ((cs ++ [c]).findIdx? (fun c => decide (x ∈ c.dropLast ∨ c = [x]))) := by
        intro x
        rw [h6 x, hface x, List.findIdx?_append]
        by_cases hx : x ∈ c.dropLast ∨ c = [x]
        · rw [if_pos hx]
          have hxc : x ∈ c := by
            rcases hx with hx | hx
            · exact List.dropLast_subset _ hx
            · rw [hx]; simp
          have hxcs : x ∉ cs.flatten := by
            intro h
            have hn := h2.nodup
            simp only [List.flatten_append, List.flatten_cons, List.flatten_nil, List.append_nil] at hn
            exact (List.nodup_append.1 hn).2.2 x h x hxc rfl
          have hnone : cs.findIdx? (fun c => decide (x ∈ c.dropLast ∨ c = [x])) = none := by
            rw [List.findIdx?_eq_none_iff]
            intro d hd
            rw [decide_eq_false_iff_not]
            intro h
            apply hxcs
            rw [List.mem_flatten]
            refine ⟨d, hd, ?_⟩
            rcases h with h | h
            · exact List.dropLast_subset _ h
            · rw [h]; simp
          rw [hnone]
          simp [hx, hlen]
        · rw [if_neg hx]
          simp [hx]
      have hF1 : List.Forall₂ (fun a c => c.head? = some a) s1.faces (cs ++ [c]) := by
        rw [h4]
        exact List.rel_append hF (List.Forall₂.cons h3 List.Forall₂.nil)
      obtain ⟨s', cs', k1, k2, k3, k4, k5, k6⟩ := ih s1 (cs ++ [c]) (by rw [h5]; exact S) h2 (fun x hx => hsub x (List.mem_cons_of_mem _ hx)) hF1 hface1
      rw [List.append_assoc] at k2 k3 k5 k6
      refine ⟨s', [c] ++ cs', k1, k2, k3, k4.trans h5, ?_, k6⟩
      intro x hx
      rcases List.mem_cons.1 hx with rfl | hx
      · have : x ∈ c := List.mem_of_mem_head? (by rw [h3]; rfl)
        rw [List.mem_flatten]
        exact ⟨c, by simp, this⟩
      · exact k5 x hx

end River
