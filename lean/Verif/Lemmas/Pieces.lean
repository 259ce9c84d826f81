import Verif.Lemmas.Collect

/-! # The pieces of straight contours broken at their intersections -/

namespace River
variable {K : Type}

attribute [local instance 10000] FTrans.toFNum

/-! ## cyclic lists -/

/-- Every element is related to the next one, the last to the first. -/
def Cyc {α : Type} (R : α → α → Prop) (l : List α) : Prop :=
  ∀ (i : Nat) (u v : α), l[i]? = some u → l[(i + 1) % l.length]? = some v → R u v

theorem cyc_iff {α : Type} (R : α → α → Prop) (l : List α) :
    Cyc R l ↔ l.IsChain R ∧ ∀ a ∈ l.head?, ∀ z ∈ l.getLast?, R z a := by
  constructor
  · intro h
    constructor
    · rw [List.isChain_iff_getElem]
      intro i hi
      exact h i _ _ (List.getElem?_eq_getElem (by omega)) (by rw [Nat.mod_eq_of_lt hi]; exact List.getElem?_eq_getElem hi)
    · intro a ha z hz
      have hne : l ≠ [] := by intro e; rw [e] at ha; simp at ha
      have hpos := List.length_pos_of_ne_nil hne
      rw [List.getLast?_eq_getElem?] at hz
      rw [List.head?_eq_getElem?] at ha
      refine h (l.length - 1) z a hz ?_
      rw [show l.length - 1 + 1 = l.length by omega, Nat.mod_self]
      exact ha
  · rintro ⟨h1, h2⟩ i v w hv hw
    have hi : i < l.length := (List.getElem?_eq_some_iff.mp hv).1
    by_cases hl : i + 1 = l.length
    · rw [hl, Nat.mod_self] at hw
      refine h2 w (by rw [List.head?_eq_getElem?]; exact hw) v ?_
      rw [List.getLast?_eq_getElem?, show l.length - 1 = i by omega]
      exact hv
    · rw [Nat.mod_eq_of_lt (by omega)] at hw
      have := (List.isChain_iff_getElem.mp h1) i (by omega)
      obtain ⟨_, e1⟩ := List.getElem?_eq_some_iff.mp hv
      obtain ⟨_, e2⟩ := List.getElem?_eq_some_iff.mp hw
      rw [← e1, ← e2]; exact this

/-- Replacing every element of a cyclic list by a chain. -/
theorem cyc_flatten {α β : Type} (Q : α → α → Prop) (R : β → β → Prop) (T : α → List β → Prop) (nodes : List α) (chunks : List (List β))
    (hlen : chunks.length = nodes.length) (hq : Cyc Q nodes) (hT : ∀ (i : Nat) (v : α) (c : List β), nodes[i]? = some v → chunks[i]? = some c → T v c)
    (hne : ∀ v c, T v c → c ≠ []) (hin : ∀ v c, T v c → c.IsChain R)
    (hjoin : ∀ v w c d, Q v w → T v c → T w d → ∀ z ∈ c.getLast?, ∀ a ∈ d.head?, R z a) : Cyc R chunks.flatten := by
  rw [cyc_iff] at hq ⊢
  obtain ⟨hl1, hl2⟩ := hq
  have hget : ∀ (i : Nat) (c : List β), chunks[i]? = some c → ∃ v, nodes[i]? = some v ∧ T v c := by
    intro i c hc
    have hi : i < nodes.length := by rw [← hlen]; exact (List.getElem?_eq_some_iff.mp hc).1
    exact ⟨_, List.getElem?_eq_getElem hi, hT i _ c (List.getElem?_eq_getElem hi) hc⟩
  have hnn : [] ∉ chunks := by
    intro hm
    obtain ⟨i, hi, e⟩ := List.getElem_of_mem hm
    obtain ⟨v, _, hc⟩ := hget i [] (by rw [List.getElem?_eq_getElem hi, e])
    exact hne _ _ hc rfl
  constructor
  · rw [List.isChain_flatten hnn]
    constructor
    · intro c hc
      obtain ⟨i, hi, e⟩ := List.getElem_of_mem hc
      obtain ⟨v, _, hc⟩ := hget i c (by rw [List.getElem?_eq_getElem hi, e])
      exact hin _ _ hc
    · rw [List.isChain_iff_getElem]
      intro i hi z hz a ha
      obtain ⟨v, hv, hc⟩ := hget i _ (List.getElem?_eq_getElem (by omega))
      obtain ⟨v', hv', hc'⟩ := hget (i + 1) _ (List.getElem?_eq_getElem hi)
      have := (List.isChain_iff_getElem.mp hl1) i (by omega)
      obtain ⟨_, e1⟩ := List.getElem?_eq_some_iff.mp hv
      obtain ⟨_, e2⟩ := List.getElem?_eq_some_iff.mp hv'
      rw [e1, e2] at this
      exact hjoin _ _ _ _ this hc hc' z hz a ha
  · cases chunks with
    | nil => simp
    | cons c0 cs =>
      obtain ⟨v, hv, hc⟩ := hget 0 c0 rfl
      obtain ⟨init, cl, hcl⟩ : ∃ init cl, c0 :: cs = init ++ [cl] := ⟨_, _, (List.dropLast_concat_getLast (List.cons_ne_nil c0 cs)).symm⟩
      have hidx : (c0 :: cs)[(c0 :: cs).length - 1]? = some cl := by rw [hcl]; simp
      obtain ⟨v', hv', hc'⟩ := hget _ cl hidx
      intro a ha z hz
      have hz' : z ∈ cl.getLast? := by
        rw [hcl, List.flatten_append] at hz
        simp only [List.flatten_cons, List.flatten_nil, List.append_nil] at hz
        obtain ⟨x, hx⟩ : ∃ x, cl.getLast? = some x := ⟨_, List.getLast?_eq_some_getLast (hne _ _ hc')⟩
        rw [List.getLast?_append, hx] at hz
        rw [hx]
        simpa using hz
      have ha' : a ∈ c0.head? := by
        cases c0 with
        | nil => exact absurd rfl (hne _ _ hc)
        | cons b t => simpa using ha
      refine hjoin v' v cl c0 ?_ hc' hc z hz' a ha'
      refine hl2 v (by rw [List.head?_eq_getElem?]; exact hv) v' ?_
      rw [List.getLast?_eq_getElem?, ← hlen]; exact hv'

/-! ## the broken rings, one by one -/

section
variable [FTrans K] [LinearOrder K] [LawfulOrd K]

theorem breakRings_rings (env : Env K) (hok : env.Ok) (brks : List (Brk K)) (rings : List (Ring K)) (hlink : ∀ r ∈ rings, Linked r.nodes)
    (pre : List (Ring K)) :
    List.Forall₂ (fun r r' => r'.ptype = r.ptype ∧ ∃ chunks : List (List (Vtx K)), r'.nodes = chunks.flatten ∧ chunks.length = r.nodes.length ∧
      ∀ (i : Nat) (v : Vtx K) (c : List (Vtx K)), r.nodes[i]? = some v → chunks[i]? = some c →
        ∃ n cuts, (allNodes (pre ++ rings))[n]? = some v ∧ IsCuts brks n cuts ∧ Chain v cuts c) rings
      (breakRings env.tsort (breakGroups env brks) (allNodes pre).length rings) := by
  induction rings generalizing pre with
  | nil => exact List.Forall₂.nil
  | cons r rs ih =>
    rw [breakRings]
    refine List.Forall₂.cons ⟨rfl, ?_⟩ ?_
    · obtain ⟨chunks, c1, c2, c3⟩ := breakRing_spec env hok brks (allNodes pre).length r (hlink r List.mem_cons_self)
      refine ⟨chunks, c1, c2, fun i v c hv hc => ?_⟩
      obtain ⟨cuts, h1, h2⟩ := c3 i v c hv hc
      refine ⟨_, cuts, ?_, h1, h2⟩
      have hi := (List.getElem?_eq_some_iff.1 hv).1
      unfold allNodes
      rw [List.flatMap_append, List.getElem?_append_right (Nat.le_add_right _ _), Nat.add_sub_cancel_left, List.flatMap_cons,
        List.getElem?_append_left hi]
      exact hv
    · have := ih (fun r hr => hlink r (List.mem_cons_of_mem _ hr)) (pre ++ [r])
      rw [List.append_assoc, List.singleton_append] at this
      rw [show (allNodes (pre ++ [r])).length = (allNodes pre).length + r.nodes.length by simp [allNodes]] at this
      exact this
end

variable [Field K] [LinearOrder K] [IsStrictOrderedRing K] [FTrans K] [LawfulOrd K] [Exact K]

/-! ## one segment and its pieces -/

/-- `w` is the part of the segment of `A` between the parameters `a` and `b`. -/
structure SubPiece (A w : Vtx K) (a b : K) : Prop where
  pt : w.pt = lerp A.pt A.seg.target a
  seg : w.seg = .line (lerp A.pt A.seg.target b)
  low : 0 ≤ a
  lt : a < b
  high : b ≤ 1

omit [IsStrictOrderedRing K] [FTrans K] [LawfulOrd K] [Exact K] [LinearOrder K] in
theorem lerp_param (p q : Vec2 K) (u v s : K) : lerp (lerp p q u) (lerp p q v) s = lerp p q (u + s * (v - u)) := by
  unfold lerp; ext <;> simp only <;> ring

omit [FTrans K] [LawfulOrd K] [Exact K] in
theorem SubPiece.onSeg {A w : Vtx K} {a b : K} (h : SubPiece A w a b) (p : Vec2 K) :
    OnSeg p w.pt w.seg.target ↔ ∃ t, a ≤ t ∧ t ≤ b ∧ p = lerp A.pt A.seg.target t := by
  have e : w.seg.target = lerp A.pt A.seg.target b := by rw [h.seg]; rfl
  have hd : 0 < b - a := sub_pos.2 h.lt
  rw [h.pt, e]
  constructor
  · rintro ⟨s, s0, s1, rfl⟩
    rw [lerp_param]
    have := mul_nonneg s0 hd.le
    have := mul_le_mul_of_nonneg_right s1 hd.le
    exact ⟨_, by linarith, by linarith, rfl⟩
  · rintro ⟨t, t0, t1, rfl⟩
    refine ⟨(t - a) / (b - a), div_nonneg (sub_nonneg.2 t0) hd.le, (div_le_one hd).2 (by linarith), ?_⟩
    rw [lerp_param, div_mul_cancel₀ _ hd.ne']
    congr 1
    ring

/-- The chain of pieces of `A`, with the parameters where it is cut: strictly ascending from 0 to 1. -/
structure Pieces (A : Vtx K) (ts : List K) (c : List (Vtx K)) : Prop where
  sorted : (0 :: (ts ++ [1])).Pairwise (· < ·)
  len : c.length = ts.length + 1
  piece : ∀ (k : Nat) (w : Vtx K), c[k]? = some w → ∃ a b, (0 :: (ts ++ [1]))[k]? = some a ∧ (0 :: (ts ++ [1]))[k + 1]? = some b ∧ SubPiece A w a b
  flags : ∀ (k : Nat) (w : Vtx K), c[k]? = some w → (w.lmin, w.lmax) = if k = 0 then (A.lmin, A.lmax) else (false, false)

omit [LawfulOrd K] [Exact K] in
theorem Chain.pieces {A : Vtx K} {cuts : List (Vec2 K × K)} {c : List (Vtx K)} (hA : A.seg = .line A.seg.target) (h : Chain A cuts c)
    (hs : cuts.Pairwise (fun a b => a.2 < b.2)) (hc : ∀ x ∈ cuts, 0 < x.2 ∧ x.2 < 1 ∧ x.1 = lerp A.pt A.seg.target x.2) :
    Pieces A (cuts.map Prod.snd) c := by
  have hlen := h.links.2.2.2
  have hsort : (0 :: (cuts.map Prod.snd ++ [1]) : List K).Pairwise (· < ·) := by
    rw [List.pairwise_cons, List.pairwise_append]
    refine ⟨?_, ?_, by simp, ?_⟩
    · intro x hx
      rcases List.mem_append.1 hx with hx | hx
      · obtain ⟨y, hy, rfl⟩ := List.mem_map.1 hx; exact (hc y hy).1
      · rw [List.mem_singleton.1 hx]; exact zero_lt_one
    · rw [List.pairwise_map]; exact hs
    · intro x hx y hy
      obtain ⟨z, hz, rfl⟩ := List.mem_map.1 hx
      rw [List.mem_singleton.1 hy]; exact (hc z hz).2.1
  refine ⟨hsort, by simpa using hlen, ?_, ?_⟩
  · intro k w hw
    have hk : k < cuts.length + 1 := by rw [← hlen]; exact (List.getElem?_eq_some_iff.1 hw).1
    have h1 := congrArg (fun l => l[k]?) h.pts
    have h2 := congrArg (fun l => l[k]?) h.targets
    simp only [List.getElem?_map, hw, Option.map_some] at h1 h2
    -- the points are the points at the cut parameters
    have ep : A.pt :: cuts.map Prod.fst = (0 :: cuts.map Prod.snd : List K).map (lerp A.pt A.seg.target) := by
      rw [List.map_cons, lerp_zero, List.map_map]
      congr 1
      exact List.map_congr_left (fun x hx => (hc x hx).2.2)
    have et : cuts.map Prod.fst ++ [A.seg.target] = (cuts.map Prod.snd ++ [1] : List K).map (lerp A.pt A.seg.target) := by
      rw [List.map_append, List.map_singleton, lerp_one, List.map_map]
      congr 1
      exact List.map_congr_left (fun x hx => (hc x hx).2.2)
    rw [ep, List.getElem?_map] at h1
    rw [et, List.getElem?_map] at h2
    obtain ⟨a, ha, ea⟩ := Option.map_eq_some_iff.1 h1.symm
    obtain ⟨b, hb, eb⟩ := Option.map_eq_some_iff.1 h2.symm
    have ha' : (0 :: (cuts.map Prod.snd ++ [1]) : List K)[k]? = some a := by
      rw [← List.cons_append, List.getElem?_append_left (by simpa using hk)]; exact ha
    have hb' : (0 :: (cuts.map Prod.snd ++ [1]) : List K)[k + 1]? = some b := by rw [List.getElem?_cons_succ]; exact hb
    refine ⟨a, b, ha', hb', ea.symm, ?_, ?_, ?_, ?_⟩
    · have hcub := h.kind w (List.mem_of_getElem? hw)
      rw [hA] at hcub
      cases hseg : w.seg with
      | line t => rw [eb, hseg]; rfl
      | cubic c1 c2 t => rw [hseg] at hcub; exact absurd hcub (by simp [Seg.isCubic])
    · have hm := List.mem_of_getElem? ha'
      rcases List.mem_cons.1 hm with h | h
      · exact h.ge
      · exact ((List.pairwise_cons.1 hsort).1 a h).le
    · obtain ⟨i1, e1⟩ := List.getElem?_eq_some_iff.1 ha'
      obtain ⟨i2, e2⟩ := List.getElem?_eq_some_iff.1 hb'
      rw [← e1, ← e2]
      exact List.pairwise_iff_getElem.1 hsort k (k + 1) i1 i2 (by omega)
    · have hm := List.mem_of_getElem? hb
      rcases List.mem_append.1 hm with h | h
      · obtain ⟨x, hx, rfl⟩ := List.mem_map.1 h; exact (hc x hx).2.1.le
      · rw [List.mem_singleton.1 h]
  · intro k w hw
    have h1 := congrArg (fun l => l[k]?) h.flags
    simp only [List.getElem?_map, hw, Option.map_some] at h1
    cases k with
    | zero => simpa using h1
    | succ k =>
      rw [List.getElem?_cons_succ, List.getElem?_map] at h1
      obtain ⟨x, _, e⟩ := Option.map_eq_some_iff.1 h1.symm
      rw [← e]; rfl

omit [FTrans K] [LawfulOrd K] [Exact K] in
/-- No cut lies strictly inside a piece. -/
theorem Pieces.outside {A : Vtx K} {ts : List K} {c : List (Vtx K)} (h : Pieces A ts c) {k : Nat} {a b t : K} (ha : (0 :: (ts ++ [1]))[k]? = some a)
    (hb : (0 :: (ts ++ [1]))[k + 1]? = some b) (ht : t ∈ 0 :: (ts ++ [1])) (h1 : a ≤ t) (h2 : t ≤ b) : t = a ∨ t = b := by
  obtain ⟨m, hm, rfl⟩ := List.getElem_of_mem ht
  obtain ⟨i1, rfl⟩ := List.getElem?_eq_some_iff.1 ha
  obtain ⟨i2, rfl⟩ := List.getElem?_eq_some_iff.1 hb
  have hp := List.pairwise_iff_getElem.1 h.sorted
  rcases lt_trichotomy m k with hlt | rfl | hgt
  · exact absurd (hp m k hm i1 hlt) (not_lt.2 h1)
  · exact Or.inl rfl
  · rcases Nat.lt_or_ge (k + 1) m with h3 | h3
    · exact absurd (hp (k + 1) m i2 hm h3) (not_lt.2 h2)
    · have : m = k + 1 := by omega
      subst this; exact Or.inr rfl

/-- The common points of two segments are ends of both. -/
def EndsOnly (v w : Vtx K) : Prop :=
  ∀ p, OnSeg p v.pt v.seg.target → OnSeg p w.pt w.seg.target → (p = v.pt ∨ p = v.seg.target) ∧ (p = w.pt ∨ p = w.seg.target)

omit [FTrans K] [LawfulOrd K] [Exact K] in
theorem SubPiece.end {A w : Vtx K} {a b t : K} (h : SubPiece A w a b) (ht : t = a ∨ t = b) :
    lerp A.pt A.seg.target t = w.pt ∨ lerp A.pt A.seg.target t = w.seg.target := by
  rcases ht with rfl | rfl
  · exact Or.inl h.pt.symm
  · right; rw [h.seg]; rfl

omit [FTrans K] [LawfulOrd K] [Exact K] in
/-- Pieces of the same segment. -/
theorem Pieces.same {A : Vtx K} {ts : List K} {c : List (Vtx K)} (h : Pieces A ts c) (hl : A.pt ≠ A.seg.target) : c.Pairwise EndsOnly := by
  rw [List.pairwise_iff_getElem]
  intro k l hk hll hlt p hp hq
  obtain ⟨a, b, ha, hb, hw⟩ := h.piece k _ (List.getElem?_eq_getElem hk)
  obtain ⟨a', b', ha', hb', hw'⟩ := h.piece l _ (List.getElem?_eq_getElem hll)
  obtain ⟨t, t0, t1, e⟩ := (hw.onSeg p).1 hp
  obtain ⟨t', t0', t1', e'⟩ := (hw'.onSeg p).1 hq
  have : t = t' := lerp_inj hl (e.symm.trans e')
  subst this
  have hba : b ≤ a' := by
    obtain ⟨i1, rfl⟩ := List.getElem?_eq_some_iff.1 hb
    obtain ⟨i2, rfl⟩ := List.getElem?_eq_some_iff.1 ha'
    rcases Nat.lt_or_ge (k + 1) l with h3 | h3
    · exact (List.pairwise_iff_getElem.1 h.sorted (k + 1) l i1 i2 h3).le
    · have : k + 1 = l := by omega
      subst this; exact le_refl _
  have e1 : t = b := le_antisymm t1 (hba.trans t0')
  have e2 : t = a' := le_antisymm (t1.trans hba) t0'
  rw [e]
  exact ⟨hw.end (Or.inr e1), hw'.end (Or.inl e2)⟩

end River
