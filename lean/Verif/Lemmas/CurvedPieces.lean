import Verif.Lemmas.CurvedCollect
import Verif.Lemmas.CurvedArrange

/-! # Contours that cross: the pieces of their sides -/

namespace River
variable {K : Type}

attribute [local instance 10000] FTrans.toFNum

/-! ## one side -/

/-- The chain of pieces of `A`, with the positions where it is cut: strictly ascending from 0 to 1. -/
structure CurvePieces [Field K] [LinearOrder K] (A : Vtx K) (ts : List K) (c : List (Vtx K)) : Prop where
  sorted : (0 :: (ts ++ [1])).Pairwise (· < ·)
  len : c.length = ts.length + 1
  piece : ∀ (k : Nat) (w : Vtx K), c[k]? = some w → ∃ a b, (0 :: (ts ++ [1]))[k]? = some a ∧ (0 :: (ts ++ [1]))[k + 1]? = some b ∧
    IsPart (A.pt, A.seg) (w.pt, w.seg) a b
  flags : ∀ (k : Nat) (w : Vtx K), c[k]? = some w → (w.lmin, w.lmax) = if k = 0 then (A.lmin, A.lmax) else (false, false)

section
variable [FTrans K] [LinearOrder K] [LawfulOrd K]

/-- What the vertex `v` with number `n` is replaced by. -/
def chunkOf (env : Env K) (brks : List (Brk K)) (n : Nat) (v : Vtx K) : List (Vtx K) :=
  if breaksAt env brks n = [] then [v] else breakNode env.tsort v v.seg.target (breaksAt env brks n)

/-- The positions where it is cut. -/
def cutParams (env : Env K) (brks : List (Brk K)) (n : Nat) (v : Vtx K) : List K :=
  (if v.seg.isCubic then env.tsort (breaksAt env brks n) else breaksAt env brks n).map Brk.t

theorem breakRing_flat (env : Env K) (hok : env.Ok) (brks : List (Brk K)) (off : Nat) (r : Ring K) (hlink : Linked r.nodes) :
    (breakRing env.tsort (breakGroups env brks) off r).nodes = ((r.nodes.zipIdx off).map (fun vi => chunkOf env brks vi.2 vi.1)).flatten := by
  unfold breakRing
  rw [List.flatMap_def]
  dsimp only
  congr 1
  apply List.ext_getElem?
  intro i
  rw [List.getElem?_map, List.getElem?_map, List.getElem?_zipIdx, List.getElem?_zipIdx]
  cases hv : r.nodes[i]? with
  | none => rfl
  | some v =>
    have hi : i < r.nodes.length := (List.getElem?_eq_some_iff.mp hv).1
    have hnx : (i + 1) % r.nodes.length < r.nodes.length := Nat.mod_lt _ (by omega)
    have hw := List.getElem?_eq_getElem hnx
    simp only [Option.map_some, Nat.zero_add, Option.some.injEq]
    rw [hw, breakGroups_lookup env hok]
    have hl := hlink i v _ hv hw
    unfold chunkOf
    by_cases he : breaksAt env brks (off + i) = []
    · simp only [if_pos he]
    · simp only [if_neg he, hl]

theorem breakRings_flat (env : Env K) (hok : env.Ok) (brks : List (Brk K)) (rings : List (Ring K)) (hlink : ∀ r ∈ rings, Linked r.nodes) (off : Nat) :
    allNodes (breakRings env.tsort (breakGroups env brks) off rings) = (((allNodes rings).zipIdx off).map (fun vi => chunkOf env brks vi.2 vi.1)).flatten := by
  induction rings generalizing off with
  | nil => rfl
  | cons r rs ih =>
    rw [breakRings]
    rw [show ∀ (a : Ring K) b, allNodes (a :: b) = a.nodes ++ allNodes b from fun a b => List.flatMap_cons]
    rw [show allNodes (r :: rs) = r.nodes ++ allNodes rs from List.flatMap_cons]
    rw [ih (fun x hx => hlink x (by simp [hx])), breakRing_flat env hok brks off r (hlink r (by simp)), List.zipIdx_append, List.map_append, List.flatten_append]

theorem breakRings_each (env : Env K) (hok : env.Ok) (brks : List (Brk K)) (rings : List (Ring K)) (hlink : ∀ r ∈ rings, Linked r.nodes)
    (pre : List (Ring K)) :
    List.Forall₂ (fun r r' => r'.ptype = r.ptype ∧ ∃ chunks : List (List (Vtx K)), r'.nodes = chunks.flatten ∧ chunks.length = r.nodes.length ∧
      ∀ (i : Nat) (v : Vtx K) (c : List (Vtx K)), r.nodes[i]? = some v → chunks[i]? = some c →
        ∃ n, (allNodes (pre ++ rings))[n]? = some v ∧ c = chunkOf env brks n v) rings
      (breakRings env.tsort (breakGroups env brks) (allNodes pre).length rings) := by
  induction rings generalizing pre with
  | nil => exact List.Forall₂.nil
  | cons r rs ih =>
    rw [breakRings]
    refine List.Forall₂.cons ⟨rfl, ?_⟩ ?_
    · refine ⟨_, breakRing_flat env hok brks _ r (hlink r List.mem_cons_self), by simp, fun i v c hv hc => ?_⟩
      rw [List.getElem?_map, List.getElem?_zipIdx, hv] at hc
      simp only [Option.map_some, Option.some.injEq] at hc
      refine ⟨_, ?_, hc.symm⟩
      have hi := (List.getElem?_eq_some_iff.1 hv).1
      unfold allNodes
      rw [List.flatMap_append, List.getElem?_append_right (Nat.le_add_right _ _), Nat.add_sub_cancel_left, List.flatMap_cons,
        List.getElem?_append_left hi]
      exact hv
    · have := ih (fun r hr => hlink r (List.mem_cons_of_mem _ hr)) (pre ++ [r])
      rw [List.append_assoc, List.singleton_append] at this
      rw [show (allNodes (pre ++ [r])).length = (allNodes pre).length + r.nodes.length by simp [allNodes]] at this
      exact this

end

theorem trace_sidePoint (p : Vec2 ℝ) (g : Seg ℝ) (r : ℝ) : g.trace p r = sidePoint (p, g) r := by cases g <;> rfl

/-- The pieces of a side. -/
theorem chunk_pieces {N : List (Vtx ℝ)} {brks : List (Brk ℝ)} (hT : TrueBreaks N brks) (env : Env ℝ) (hok : env.Ok) {n : Nat} {v : Vtx ℝ}
    (hv : N[n]? = some v) : CurvePieces v (cutParams env brks n v) (chunkOf env brks n v) ∧
      ∀ t, t ∈ cutParams env brks n v ↔ inUnit t = true ∧
        ∃ (j : Nat) (w : Vtx ℝ), j ≠ n ∧ N[j]? = some w ∧ ∃ r, Meet2 (v.pt, v.seg) (w.pt, w.seg) t r := by
  have hF : Functional brks := by
    intro a ha b hb e1 e2
    obtain ⟨_, v1, h1, p1, _⟩ := (hT a).1 ha
    obtain ⟨_, v2, h2, p2, _⟩ := (hT b).1 hb
    rw [e1, h2] at h1
    cases h1
    obtain ⟨n1, q1, t1⟩ := a
    obtain ⟨n2, q2, t2⟩ := b
    simp only at e1 e2 p1 p2
    subst e1 e2
    rw [p1, p2]
  obtain ⟨hc1, hc2, hc3⟩ := isCuts_of_perm env hok brks n v.seg.isCubic
  replace hc3 := hc3 hF
  obtain ⟨L, hL⟩ : ∃ L, L = (if v.seg.isCubic then env.tsort (breaksAt env brks n) else breaksAt env brks n) := ⟨_, rfl⟩
  have hcp : cutParams env brks n v = L.map Brk.t := by rw [hL]; rfl
  rw [← hL] at hc1 hc2 hc3
  have hLm : ∀ b, b ∈ L ↔ b ∈ breaksAt env brks n := by
    intro b
    rw [hL]
    split
    · exact (hok.tsort _).1.mem_iff
    · rfl
  have hLb : ∀ b, b ∈ L ↔ b ∈ brks ∧ b.vert = n := fun b => (hLm b).trans ((breaksAt_spec env hok brks n).2 b)
  have hmem : ∀ t, t ∈ L.map Brk.t ↔ inUnit t = true ∧
        ∃ (j : Nat) (w : Vtx ℝ), j ≠ n ∧ N[j]? = some w ∧ ∃ r, Meet2 (v.pt, v.seg) (w.pt, w.seg) t r := by
    intro t
    rw [List.mem_map]
    constructor
    · rintro ⟨b, hb, rfl⟩
      obtain ⟨hb1, hb2⟩ := (hLb b).1 hb
      obtain ⟨hu, v', h1, _, j, w, h3, h4, h5⟩ := (hT b).1 hb1
      rw [hb2, hv] at h1
      cases h1
      exact ⟨hu, j, w, hb2 ▸ h3, h4, h5⟩
    · rintro ⟨hu, j, w, h3, h4, h5⟩
      exact ⟨⟨n, _, t⟩, (hLb _).2 ⟨(hT ⟨n, sidePoint (v.pt, v.seg) t, t⟩).2 ⟨hu, v, hv, rfl, j, w, h3, h4, h5⟩, rfl⟩, rfl⟩
  have hunit : ∀ t ∈ L.map Brk.t, 0 < t ∧ t < 1 := by
    intro t ht
    have := (inUnit_iff t).1 ((hmem t).1 ht).1
    constructor <;> linarith [this.1, this.2]
  rw [hcp]
  refine ⟨?_, hmem⟩
  have hsort : (0 :: (L.map Brk.t ++ [1]) : List ℝ).Pairwise (· < ·) := by
    rw [List.pairwise_cons, List.pairwise_append]
    refine ⟨?_, ?_, by simp, ?_⟩
    · intro x hx
      rcases List.mem_append.1 hx with hx | hx
      · exact (hunit x hx).1
      · rw [List.mem_singleton.1 hx]; exact zero_lt_one
    · rw [List.pairwise_map] at hc3 ⊢
      exact hc3
    · intro x hx y hy
      rw [List.mem_singleton.1 hy]; exact (hunit x hx).2
  unfold chunkOf
  by_cases he : breaksAt env brks n = []
  · have hL0 : L = [] := List.eq_nil_iff_forall_not_mem.2 (fun b hb => by have := (hLm b).1 hb; rw [he] at this; cases this)
    rw [if_pos he]
    rw [hL0] at hsort ⊢
    refine ⟨hsort, rfl, ?_, ?_⟩
    · intro k w hw
      cases k with
      | zero =>
        cases Option.some.inj hw
        exact ⟨0, 1, rfl, rfl, le_rfl, zero_lt_one, le_rfl, rfl, fun r => by rw [zero_add, sub_zero, mul_one]⟩
      | succ k => simp at hw
    · intro k w hw
      cases k with
      | zero => cases Option.some.inj hw; rfl
      | succ k => simp at hw
  · rw [if_neg he]
    have hon : ∀ b ∈ breaksAt env brks n, b.pt = v.seg.trace v.pt b.t := by
      intro b hb
      obtain ⟨hb1, hb2⟩ := (hLb b).1 ((hLm b).2 hb)
      obtain ⟨_, v', h1, h2, _⟩ := (hT b).1 hb1
      rw [hb2, hv] at h1
      cases h1
      rw [trace_sidePoint]; exact h2
    obtain ⟨ts, hts, htr⟩ := breakNode_trace env.tsort (fun l => (hok.tsort l).1) v (breaksAt env brks n) he hon
      (fun b hb => (hunit b.t (List.mem_map.2 ⟨b, (hLm b).2 hb, rfl⟩)).2.ne)
    rw [← hL] at hts
    subst hts
    have hch := breakNode_chain env.tsort (fun l => (hok.tsort l).1) v (breaksAt env brks n) he
    rw [← hL] at hch
    have hlen := hch.links.2.2.2
    rw [List.length_map] at hlen
    refine ⟨hsort, by simpa using hlen, ?_, ?_⟩
    · intro k w hw
      have hk : k < L.length + 1 := by rw [← hlen]; exact (List.getElem?_eq_some_iff.1 hw).1
      obtain ⟨u, u', h1, h2, h3⟩ := htr k w hw
      have ha' : (0 :: (L.map Brk.t ++ [1]) : List ℝ)[k]? = some u := by
        rw [← List.cons_append, List.getElem?_append_left (by simpa using hk)]; exact h1
      have hb' : (0 :: (L.map Brk.t ++ [1]) : List ℝ)[k + 1]? = some u' := by rw [List.getElem?_cons_succ]; exact h2
      refine ⟨u, u', ha', hb', ?_, ?_, ?_, hch.kind w (List.mem_of_getElem? hw), fun r => by rw [← trace_sidePoint, ← trace_sidePoint]; exact h3 r⟩
      · rcases List.mem_cons.1 (List.mem_of_getElem? ha') with h | h
        · exact h.ge
        · exact ((List.pairwise_cons.1 hsort).1 u h).le
      · obtain ⟨i1, e1⟩ := List.getElem?_eq_some_iff.1 ha'
        obtain ⟨i2, e2⟩ := List.getElem?_eq_some_iff.1 hb'
        rw [← e1, ← e2]
        exact List.pairwise_iff_getElem.1 hsort k (k + 1) i1 i2 (by omega)
      · rcases List.mem_append.1 (List.mem_of_getElem? h2) with h | h
        · exact (hunit _ h).2.le
        · rw [List.mem_singleton.1 h]
    · intro k w hw
      have h1 := congrArg (fun l => l[k]?) hch.flags
      simp only [List.getElem?_map, hw, Option.map_some] at h1
      cases k with
      | zero => simpa using h1
      | succ k =>
        rw [List.getElem?_cons_succ, List.getElem?_map] at h1
        obtain ⟨x, _, e⟩ := Option.map_eq_some_iff.1 h1.symm
        rw [← e]; rfl

section
variable [Field K] [LinearOrder K] [IsStrictOrderedRing K]

theorem CurvePieces.outside {A : Vtx K} {ts : List K} {c : List (Vtx K)} (h : CurvePieces A ts c) {k : Nat} {a b t : K} (ha : (0 :: (ts ++ [1]))[k]? = some a)
    (hb : (0 :: (ts ++ [1]))[k + 1]? = some b) (ht : t ∈ 0 :: (ts ++ [1])) (h1 : a ≤ t) (h2 : t ≤ b) : t = a ∨ t = b := by
  obtain ⟨m, hm, rfl⟩ := List.getElem_of_mem ht
  obtain ⟨i1, rfl⟩ := List.getElem?_eq_some_iff.1 ha
  obtain ⟨i2, rfl⟩ := List.getElem?_eq_some_iff.1 hb
  have hp := List.pairwise_iff_getElem.1 h.sorted
  rcases lt_trichotomy m k with hlt | rfl | hgt
  · exact absurd (hp m k hm i1 hlt) (not_lt.2 h1)
  · exact Or.inl rfl
  · rcases Nat.lt_or_ge (k + 1) m with h3 | h3
    · exact absurd (hp (k + 1) m i2 hm h3) (not_lt.2 h2)
    · have : m = k + 1 := by omega
      subst this; exact Or.inr rfl

/-! ## parts of sides -/

variable {s w : Vec2 K × Seg K} {a b : K}

theorem IsPart.ends (h : IsPart s w a b) : w.1 = sidePoint s a ∧ w.2.target = sidePoint s b := by
  have h0 := h.trace 0
  have h1 := h.trace 1
  rw [(sidePoint_ends w).1, zero_mul, add_zero] at h0
  rw [(sidePoint_ends w).2, one_mul, add_sub_cancel] at h1
  exact ⟨h0, h1⟩

theorem IsPart.heights (h : IsPart s w a b) (hs : Even s) : w.1.y = s.1.y + a * (s.2.target.y - s.1.y) ∧ w.2.target.y = s.1.y + b * (s.2.target.y - s.1.y) := by
  rw [h.ends.1, h.ends.2, sidePoint_y hs, sidePoint_y hs]
  exact ⟨rfl, rfl⟩

theorem IsPart.height (h : IsPart s w a b) (hs : Even s) : w.2.target.y - w.1.y = (b - a) * (s.2.target.y - s.1.y) := by
  rw [(h.heights hs).1, (h.heights hs).2]; ring

theorem IsPart.even (h : IsPart s w a b) (hs : Even s) : Even w := by
  have hy : ∀ r, (sidePoint w r).y = s.1.y + (a + r * (b - a)) * (s.2.target.y - s.1.y) := fun r => by rw [h.trace, sidePoint_y hs]
  obtain ⟨p, g⟩ := w
  cases g with
  | line q => trivial
  | cubic c1 c2 q =>
    have h0 := hy 0
    have h1 := hy 1
    have h2 := hy (1 / 3)
    have h3 := hy (2 / 3)
    simp only [sidePoint, Cubic.eval, bern] at h0 h1 h2 h3
    have e0 : p.y = s.1.y + a * (s.2.target.y - s.1.y) := by linear_combination h0
    have e1 : q.y = s.1.y + b * (s.2.target.y - s.1.y) := by linear_combination h1
    have e2 : 8 * p.y + 12 * c1.y + 6 * c2.y + q.y = 27 * (s.1.y + (a + 1 / 3 * (b - a)) * (s.2.target.y - s.1.y)) := by
      linear_combination 27 * h2
    have e3 : p.y + 6 * c1.y + 12 * c2.y + 8 * q.y = 27 * (s.1.y + (a + 2 / 3 * (b - a)) * (s.2.target.y - s.1.y)) := by
      linear_combination 27 * h3
    constructor
    · simp only
      linear_combination (1 / 9) * e2 - (1 / 18) * e3 - (3 / 2) * e0
    · simp only
      linear_combination (1 / 9) * e3 - (1 / 18) * e2 - (3 / 2) * e1

end

end River
