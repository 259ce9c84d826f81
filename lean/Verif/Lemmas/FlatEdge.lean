import Verif.Lemmas.FlatWalk

/-! # Edges walking over horizontal sides -/

namespace River
variable {K : Type}

/-- The edge lies on a side, which may be horizontal. -/
structure On (rings : List (Ring K)) (e : Edge K) (s : Side K) : Prop where
  mem : s ∈ sides rings
  ring : e.ring = s.ring
  ptype : e.ptype = s.ptype
  dir : e.windDx = 1 ∨ e.windDx = -1
  vtop : e.vtop = if e.isUp then nextIdx (ringSize rings s.ring) s.idx else s.idx
  bot : e.bot = s.inn e.isUp
  top : e.top = s.out e.isUp

theorem isUp_congr {e e' : Edge K} (h : e'.windDx = e.windDx) : e'.isUp = e.isUp := by unfold Edge.isUp; rw [h]

section
variable [LinearOrder K] {rings : List (Ring K)}

theorem EOk.on (hl : ∀ r ∈ rings, Linked r.nodes) {e : Edge K} (h : EOk rings e) : On rings e (sideOf rings e) := by
  obtain ⟨h1, _, h3, h4, h5, _, h7⟩ := h.facts hl
  refine ⟨h1, rfl, h7.symm, h.dir, ?_, ?_, ?_⟩
  · show e.vtop = if e.isUp then nextIdx (ringSize rings e.ring) (e.sideIdx rings) else e.sideIdx rings
    rw [Edge.sideIdx]
    cases e.isUp with
    | true => simp only [if_true]; rw [next_prev h.vtop_lt]
    | false => rfl
  · rw [← h3, Side.inn_bot, h4]
  · rw [← h3, Side.out_top, h5]

theorem On.ok (hl : ∀ r ∈ rings, Linked r.nodes) {e : Edge K} {s : Side K} (h : On rings e s) (hu : s.up = e.isUp) (hs : ¬ s.Flat) :
    EOk rings e ∧ sideOf rings e = s := by
  obtain ⟨x, v, hx, hv, h1, h2, h3⟩ := side_node h.mem
  have hlt := nodeAt_lt hv
  obtain ⟨w, hw⟩ := nodeAt_of_lt hv (nextIdx_lt hlt)
  have htw : s.seg.target = w.pt := by rw [h2]; exact node_target hl hv hw
  have hb := h.bot
  have ht := h.top
  have hlt2 := Side.bot_lt_top hs
  have ok : EOk rings e := by
    refine ⟨⟨x, by rw [h.ring]; exact hx, by rw [h.ptype, h3]⟩, h.dir, ?_, ?_, ?_⟩
    · rw [h.ring, h.vtop, ht]
      cases e.isUp with
      | true => exact ⟨w, hw, htw.symm⟩
      | false => exact ⟨v, hv, h1.symm⟩
    · rw [h.ring, h.vtop, hb]
      cases e.isUp with
      | true => simp only [if_true]; rw [prev_next hlt]; exact ⟨v, hv, h1.symm⟩
      | false => exact ⟨w, hw, htw.symm⟩
    · rw [hb, ht, ← hu, Side.inn_bot, Side.out_top]; exact hlt2
  refine ⟨ok, side_ext rings _ _ (ok.facts hl).1 h.mem h.ring ?_⟩
  show e.sideIdx rings = s.idx
  rw [Edge.sideIdx, h.ring, h.vtop]
  cases e.isUp with
  | true => simp only [if_true]; exact prev_next hlt
  | false => rfl

omit [LinearOrder K] in
theorem On.step (hl : ∀ r ∈ rings, Linked r.nodes) {e : Edge K} {s t : Side K} (h : On rings e s) (ha : Adj rings e.isUp s t) :
    ∃ e', stepEdge rings e = some e' ∧ On rings e' t ∧
      e' = { e with vtop := e'.vtop, bot := e.top, top := e'.top, currX := e.top.x } := by
  obtain ⟨x, v, hx, hv, h1, h2, h3⟩ := side_node h.mem
  obtain ⟨x', v', hx', hv', h1', h2', h3'⟩ := side_node ha.1
  have hlt := nodeAt_lt hv
  have hlt' := nodeAt_lt hv'
  have hp := ha.point hl h.mem
  have hxx : x = x' := by rw [ha.2.1, hx] at hx'; exact Option.some.inj hx'
  obtain ⟨i, hi⟩ : ∃ i, i = if e.isUp then nextIdx (ringSize rings e.ring) e.vtop else prevIdx (ringSize rings e.ring) e.vtop := ⟨_, rfl⟩
  have hit : i = if e.isUp then nextIdx (ringSize rings t.ring) t.idx else t.idx := by
    rw [hi, h.vtop, h.ring, ha.2.1, ha.2.2]
    cases e.isUp <;> rfl
  obtain ⟨w, hw, hwt⟩ : ∃ w, nodeAt rings e.ring i = some w ∧ w.pt = t.out e.isUp := by
    rw [h.ring, ← ha.2.1, hit]
    cases hu : e.isUp with
    | true =>
      obtain ⟨w, hw⟩ := nodeAt_of_lt hv' (nextIdx_lt hlt')
      refine ⟨w, hw, ?_⟩
      simp only [Side.out, if_true]
      rw [h2']; exact (node_target hl hv' hw).symm
    | false => exact ⟨v', hv', h1'.symm⟩
  have hstep : stepEdge rings e = some { e with vtop := i, bot := e.top, top := w.pt, currX := e.top.x } := by
    simp only [stepEdge, ← hi, hw, Option.map_some]
  refine ⟨_, hstep, ⟨ha.1, h.ring.trans ha.2.1.symm, ?_, h.dir, hit, ?_, hwt⟩, rfl⟩
  · show e.ptype = t.ptype
    rw [h.ptype, h3, h3', hxx]
  · show e.top = t.inn e.isUp
    rw [h.top, hp]

/-- The vertex at the upper end of an edge is the one where the next side begins (where its own side begins, for an edge that walks
backwards). -/
theorem On.maxima {e : Edge K} {s t : Side K} (h : On rings e s) (ha : Adj rings e.isUp s t) :
    ∃ v, isMaxima rings e = some v.lmax ∧
      nodeAt rings (if e.isUp then t else s).ring (if e.isUp then t else s).idx = some v := by
  obtain ⟨x, v, hx, hv, h1, h2, h3⟩ := side_node h.mem
  obtain ⟨x', v', hx', hv', h1', h2', h3'⟩ := side_node ha.1
  rw [isMaxima, h.ring, h.vtop]
  have hi := ha.2.2
  cases hu : e.isUp with
  | true =>
    rw [hu] at hi
    simp only [if_true] at hi ⊢
    rw [← hi, ← ha.2.1, hv']; exact ⟨v', rfl, rfl⟩
  | false =>
    simp only [Bool.false_eq_true, if_false]
    rw [hv]; exact ⟨v, rfl, rfl⟩

end

section
variable [FTrans K] [LinearOrder K] [Absc K] [LawfulOrd K] {rings : List (Ring K)}

omit [LinearOrder K] [LawfulOrd K] in
theorem On.horz [LinearOrder K] [LawfulOrd K] {e : Edge K} {s : Side K} (h : On rings e s) : e.isHorz = true ↔ s.Flat := by
  rw [Edge.isHorz, eq_eq_decide, decide_eq_true_eq, h.bot, h.top]
  unfold Side.Flat
  cases e.isUp
  · exact eq_comm
  · exact Iff.rfl

theorem Arranged.lmax_flat (A : Arranged rings) {f : Side K} (hf : f ∈ sides rings) (hfl : f.Flat) {v : Vtx K}
    (hv : nodeAt rings f.ring f.idx = some v) : v.lmax = false := by
  cases h : v.lmax with
  | false => rfl
  | true =>
    obtain ⟨_, s, _, h2, _⟩ := ((A.flags f hf v hv).2).1 h
    exact (h2.2.1 hfl).elim

theorem horzGo_spec (A : Arranged rings) {fwd : Bool} {f t : Side K} {fl : List (Side K)} (hc : FWalk rings fwd f fl t) (ht : ¬ t.Flat)
    (hf : f.Flat) (e : Edge K) (he : On rings e f) (hu : e.isUp = fwd)
    (hpre : fwd = true → ∃ s0 ∈ sides rings, s0.up = true ∧ Follows rings s0 t) (fuel : Nat) (hfuel : fl.length + 2 ≤ fuel) (ch : List K) :
    (fwd = true → t.up = false → horzGo rings fuel e ch = some (none, ch ++ (f :: fl).map (fun g => (g.out fwd).x))) ∧
    (¬ (fwd = true ∧ t.up = false) → ∃ e', horzGo rings fuel e ch = some (some e', ch ++ (f :: fl).map (fun g => (g.out fwd).x)) ∧
      On rings e' t ∧ e' = { e with vtop := e'.vtop, bot := e'.bot, top := e'.top, currX := e'.bot.x }) := by
  induction hc generalizing e fuel ch with
  | @nil f t ha =>
    obtain ⟨fuel, rfl⟩ : ∃ k, fuel = k + 2 := ⟨fuel - 2, by simp at hfuel; omega⟩
    rw [← hu] at ha
    obtain ⟨e', hs, hon, heq⟩ := he.step A.linked ha
    obtain ⟨v, hm, hv⟩ := he.maxima ha
    rw [horzGo, he.horz.2 hf, if_pos rfl, hm, Option.bind_some, hs, Option.bind_some]
    have hlm : v.lmax = true ↔ fwd = true ∧ t.up = false := by
      rw [hu] at hv
      cases fwd with
      | true =>
        simp only [if_true] at hv
        rw [((A.flags t ha.1 v hv).2)]
        obtain ⟨s0, h0, h1, h2⟩ := hpre rfl
        exact ⟨fun h => ⟨rfl, h.1⟩, fun h => ⟨h.2, s0, h0, h2, h1⟩⟩
      | false =>
        simp only [Bool.false_eq_true, if_false] at hv
        rw [A.lmax_flat he.mem hf hv]; simp
    have hx : e.top.x = (f.out fwd).x := by rw [he.top, hu]
    refine ⟨fun h1 h2 => ?_, fun h => ?_⟩
    · rw [hlm.2 ⟨h1, h2⟩, if_pos rfl, hx]; rfl
    · have : v.lmax = false := by
        cases hq : v.lmax with
        | false => rfl
        | true => exact (h (hlm.1 hq)).elim
      rw [this]
      have hnh : e'.isHorz = false := by
        cases hq : e'.isHorz with
        | false => rfl
        | true => exact (ht (hon.horz.1 hq)).elim
      have hb : e'.bot = e.top := by rw [heq]
      refine ⟨e', ?_, hon, ?_⟩
      · simp only [Bool.false_eq_true, if_false]
        rw [horzGo, hnh, hx]; rfl
      · rw [hb]; exact heq
  | @cons f g t fl ha hg hc ih =>
    obtain ⟨fuel, rfl⟩ : ∃ k, fuel = k + 1 := ⟨fuel - 1, by simp at hfuel; omega⟩
    rw [← hu] at ha
    obtain ⟨e', hs, hon, heq⟩ := he.step A.linked ha
    obtain ⟨v, hm, hv⟩ := he.maxima ha
    have hlm : v.lmax = false := by
      cases hq : e.isUp with
      | true => rw [hq] at hv; exact A.lmax_flat ha.1 hg hv
      | false => rw [hq] at hv; exact A.lmax_flat he.mem hf hv
    rw [horzGo, he.horz.2 hf, if_pos rfl, hm, Option.bind_some, hlm, hs]
    simp only [Bool.false_eq_true, if_false, Option.bind_some]
    have hx : e.top.x = (f.out fwd).x := by rw [he.top, hu]
    have hup : e'.isUp = fwd := by rw [← hu]; apply isUp_congr; rw [heq]
    obtain ⟨i1, i2⟩ := ih ht hg e' hon hup hpre fuel (by simp at hfuel; omega) (ch ++ [e.top.x])
    have hl : ch ++ [e.top.x] ++ (g :: fl).map (fun g => (g.out fwd).x) = ch ++ (f :: g :: fl).map (fun g => (g.out fwd).x) := by
      rw [hx]; simp
    rw [hl] at i1 i2
    refine ⟨i1, fun h => ?_⟩
    obtain ⟨e2, h1, h2, h3⟩ := i2 h
    refine ⟨e2, h1, h2, ?_⟩
    rw [h3, heq]

theorem skipHorz_spec (A : Arranged rings) {fwd : Bool} {f t : Side K} {fl : List (Side K)} (hc : FWalk rings fwd f fl t) (ht : ¬ t.Flat)
    (hf : f.Flat) (e : Edge K) (he : On rings e f) (hu : e.isUp = fwd) (fuel : Nat) (hfuel : fl.length + 2 ≤ fuel) (ch : List K) :
    ∃ e', skipHorz rings fuel e ch = some (e', ch ++ (f :: fl).map (fun g => (g.out fwd).x)) ∧
      On rings e' t ∧ e' = { e with vtop := e'.vtop, bot := e'.bot, top := e'.top, currX := e'.bot.x } := by
  induction hc generalizing e fuel ch with
  | @nil f t ha =>
    obtain ⟨fuel, rfl⟩ : ∃ k, fuel = k + 2 := ⟨fuel - 2, by simp at hfuel; omega⟩
    rw [← hu] at ha
    obtain ⟨e', hs, hon, heq⟩ := he.step A.linked ha
    rw [skipHorz, he.horz.2 hf, if_pos rfl, hs, Option.bind_some]
    have hb : e'.bot = e.top := by rw [heq]
    have hx : e'.bot.x = (f.out fwd).x := by rw [hb, he.top, hu]
    have hnh : e'.isHorz = false := by
      cases hq : e'.isHorz with
      | false => rfl
      | true => exact (ht (hon.horz.1 hq)).elim
    refine ⟨e', ?_, hon, by rw [hb]; exact heq⟩
    rw [skipHorz, hnh, hx]; rfl
  | @cons f g t fl ha hg hc ih =>
    obtain ⟨fuel, rfl⟩ : ∃ k, fuel = k + 1 := ⟨fuel - 1, by simp at hfuel; omega⟩
    rw [← hu] at ha
    obtain ⟨e', hs, hon, heq⟩ := he.step A.linked ha
    rw [skipHorz, he.horz.2 hf, if_pos rfl, hs, Option.bind_some]
    have hb : e'.bot = e.top := by rw [heq]
    have hx : e'.bot.x = (f.out fwd).x := by rw [hb, he.top, hu]
    have hup : e'.isUp = fwd := by rw [← hu]; apply isUp_congr; rw [heq]
    obtain ⟨e2, h1, h2, h3⟩ := ih ht hg e' hon hup fuel (by simp at hfuel; omega) (ch ++ [e'.bot.x])
    have hl : ch ++ [e'.bot.x] ++ (g :: fl).map (fun g => (g.out fwd).x) = ch ++ (f :: g :: fl).map (fun g => (g.out fwd).x) := by
      rw [hx]; simp
    rw [hl] at h1
    exact ⟨e2, h1, h2, by rw [h3, heq]⟩

/-! ## the edge after its upper end -/

/-- What becomes of an edge at its upper end, and the abscissas recorded on the way (`vatti.cpp:1163-1185`). -/
def topN (rings : List (Ring K)) (e : Edge K) : Option (Edge K) × List K :=
  if isMaxima rings e = some true then (none, [])
  else ((stepEdge rings e).bind (fun e1 => horzGo rings (ringSize rings e.ring + 1) e1 [])).getD (none, [])

omit [LinearOrder K] [LawfulOrd K] in
theorem horzGo_ch (fuel : Nat) (e : Edge K) (ch : List K) :
    horzGo rings fuel e ch = (horzGo rings fuel e []).map (fun r => (r.1, ch ++ r.2)) := by
  induction fuel generalizing e ch with
  | zero => rfl
  | succ fuel ih =>
    rw [horzGo, horzGo]
    split
    · cases isMaxima rings e with
      | none => rfl
      | some m =>
        simp only [Option.bind_some]
        cases m with
        | true => simp
        | false =>
          simp only [Bool.false_eq_true, if_false]
          cases stepEdge rings e with
          | none => rfl
          | some e' =>
            simp only [Option.bind_some]
            rw [ih e' (ch ++ [e.top.x]), ih e' ([] ++ [e.top.x]), Option.map_map]
            congr 1
            funext r
            simp
    · simp

/-- The edge is a local maximum at its upper end, or after the horizontal sides that follow, or its successor runs along the next side
that is not horizontal. -/
theorem EOk.next (A : Arranged rings) {e : Edge K} (h : EOk rings e) :
    ∃ fl t, FWalk rings e.isUp (sideOf rings e) fl t ∧ ¬ t.Flat ∧
      ((t.up = (!e.isUp) ∧ topN rings e = (none, if e.isUp then fl.map (fun g => (g.out e.isUp).x) else []) ∧
          (isMaxima rings e = some true ∨ (isMaxima rings e = some false ∧ ∃ e1, stepEdge rings e = some e1 ∧
            horzGo rings (ringSize rings e.ring + 1) e1 [] = some (topN rings e)))) ∨
       (t.up = e.isUp ∧ isMaxima rings e = some false ∧ ∃ e1 e', stepEdge rings e = some e1 ∧
          horzGo rings (ringSize rings e.ring + 1) e1 [] = some (topN rings e) ∧
          topN rings e = (some e', fl.map (fun g => (g.out e.isUp).x)) ∧ EOk rings e' ∧ sideOf rings e' = t ∧
          e' = { e with vtop := e'.vtop, bot := e'.bot, top := e'.top, currX := e'.bot.x })) := by
  obtain ⟨h1, _, h3, h4, h5, _, h7⟩ := h.facts A.linked
  have hon := h.on A.linked
  have hst : ¬ (sideOf rings e).Flat := Side.steep_of_lt (by rw [h4, h5]; exact h.lt)
  obtain ⟨fl, t, hw, ht, hlen⟩ := FWalk.exists e.isUp h1 h1 rfl hst
  refine ⟨fl, t, hw, ht, ?_⟩
  have hsz : ringSize rings (sideOf rings e).ring = ringSize rings e.ring := rfl
  rw [hsz] at hlen
  obtain ⟨g, hg⟩ := Adj.exists e.isUp h1
  obtain ⟨v, hm, hv⟩ := hon.maxima hg
  obtain ⟨e1, hs, hon1, heq1⟩ := hon.step A.linked hg
  have hb1 : e1.bot = e.top := by rw [heq1]
  have hup1 : e1.isUp = e.isUp := by apply isUp_congr; rw [heq1]
  -- the flag
  have hfol : e.isUp = true → Follows rings (sideOf rings e) t := fun hu => (follows_iff h1 hw.mem.1).2 ⟨hst, ht, fl, hu ▸ hw⟩
  have hfol' : e.isUp = false → Follows rings t (sideOf rings e) := fun hu => (follows_iff hw.mem.1 h1).2 ⟨ht, hst, fl.reverse, by
    have := hw.rev h1
    rw [hu] at this; exact this⟩
  have hdown : e.isUp = false → (v.lmax = true ↔ t.up = true) := by
    intro hu
    rw [hu] at hv
    simp only [Bool.false_eq_true, if_false] at hv
    rw [(A.flags _ h1 v hv).2]
    constructor
    · rintro ⟨_, s, hs, hf, hsu⟩
      rwa [hf.unique hs hw.mem.1 h1 (hfol' hu)] at hsu
    · intro htu
      exact ⟨by rw [h3, hu], t, hw.mem.1, hfol' hu, htu⟩
  have hup : e.isUp = true → (v.lmax = true ↔ fl = [] ∧ t.up = false) := by
    intro hu
    rw [hu] at hv hg hw
    simp only [if_true] at hv
    cases hw with
    | nil ha =>
      have hgt := ha.unique hg
      subst hgt
      rw [(A.flags _ hg.1 v hv).2]
      exact ⟨fun h => ⟨rfl, h.1⟩, fun h => ⟨h.2, _, h1, hfol hu, by rw [h3, hu]⟩⟩
    | cons ha hf hc =>
      rw [ha.unique hg] at hf
      rw [A.lmax_flat hg.1 hf hv]
      simp
  cases hfl : fl with
  | nil =>
    subst hfl
    have htg : t = g := by
      cases hw with
      | nil ha => exact ha.unique hg
    subst htg
    have hnh : e1.isHorz = false := by
      cases hq : e1.isHorz with
      | false => rfl
      | true => exact (ht (hon1.horz.1 hq)).elim
    have hgo : horzGo rings (ringSize rings e.ring + 1) e1 [] = some (some e1, []) := by rw [horzGo, hnh]; rfl
    by_cases hq : t.up = e.isUp
    · right
      have hlm : v.lmax = false := by
        cases hv' : v.lmax with
        | false => rfl
        | true =>
          cases hu : e.isUp with
          | true => rw [((hup hu).1 hv').2, hu] at hq; cases hq
          | false => rw [(hdown hu).1 hv', hu] at hq; cases hq
      have htn : topN rings e = (some e1, []) := by
        rw [topN, hm, hlm, if_neg (by simp), hs, Option.bind_some, hgo]; rfl
      obtain ⟨o1, o2⟩ := hon1.ok A.linked (hq.trans hup1.symm) ht
      exact ⟨hq, by rw [hm, hlm], e1, e1, hs, by rw [hgo, htn], htn, o1, o2, by rw [hb1]; exact heq1⟩
    · left
      have hq' : t.up = !e.isUp := by revert hq; cases t.up <;> cases e.isUp <;> decide
      have hlm : v.lmax = true := by
        cases hu : e.isUp with
        | true => exact (hup hu).2 ⟨rfl, by rw [hq', hu]; rfl⟩
        | false => exact (hdown hu).2 (by rw [hq', hu]; rfl)
      refine ⟨hq', ?_, Or.inl (by rw [hm, hlm])⟩
      rw [topN, hm, hlm, if_pos rfl]; simp
  | cons g' fl' =>
    rw [hfl] at hw hup
    have hgf : g' = g ∧ g.Flat ∧ FWalk rings e.isUp g fl' t := by
      cases hw with
      | cons ha hf hc =>
        have := ha.unique hg
        subst this
        exact ⟨rfl, hf, hc⟩
    obtain ⟨rfl, hgfl, hw'⟩ := hgf
    rw [hfl] at hlen
    have hgo := horzGo_spec A hw' ht hgfl e1 hon1 hup1 (fun hu => ⟨_, h1, by rw [h3, hu], hfol hu⟩) (ringSize rings e.ring + 1)
      (by simp at hlen; omega) []
    simp only [List.nil_append] at hgo
    by_cases hq : t.up = e.isUp
    · right
      have hlm : v.lmax = false := by
        cases hv' : v.lmax with
        | false => rfl
        | true =>
          cases hu : e.isUp with
          | true => have := ((hup hu).1 hv').1; cases this
          | false => rw [(hdown hu).1 hv', hu] at hq; cases hq
      obtain ⟨e2, g1, g2, g3⟩ := hgo.2 (by rintro ⟨q1, q2⟩; rw [q1, q2] at hq; cases hq)
      have htn : topN rings e = (some e2, (g' :: fl').map (fun g => (g.out e.isUp).x)) := by
        rw [topN, hm, hlm, if_neg (by simp), hs, Option.bind_some, g1]; rfl
      have hup2 : e2.isUp = e.isUp := by apply isUp_congr; rw [g3, heq1]
      obtain ⟨o1, o2⟩ := g2.ok A.linked (hq.trans hup2.symm) ht
      exact ⟨hq, by rw [hm, hlm], e1, e2, hs, by rw [g1, htn], htn, o1, o2, by rw [g3, heq1]⟩
    · left
      have hq' : t.up = !e.isUp := by revert hq; cases t.up <;> cases e.isUp <;> decide
      cases hu : e.isUp with
      | false =>
        have hlm : v.lmax = true := (hdown hu).2 (by rw [hq', hu]; rfl)
        refine ⟨by rw [hq', hu], ?_, Or.inl (by rw [hm, hlm])⟩
        rw [topN, hm, hlm, if_pos rfl]; simp
      | true =>
        have hlm : v.lmax = false := by
          cases hv' : v.lmax with
          | false => rfl
          | true => have := ((hup hu).1 hv').1; cases this
        have g1 := hgo.1 hu (by rw [hq', hu]; rfl)
        rw [hu] at g1
        have htn : topN rings e = (none, (g' :: fl').map (fun g => (g.out true).x)) := by
          rw [topN, hm, hlm, if_neg (by simp), hs, Option.bind_some, g1]; rfl
        exact ⟨by rw [hq', hu], by rw [htn]; simp, Or.inr ⟨by rw [hm, hlm], e1, hs, by rw [g1, htn]⟩⟩

/-- What happens at the lower end of a side: either another side ends there, or it is a local minimum (horizontal sides may lie in
between). -/
theorem Arranged.under (A : Arranged rings) {s : Side K} (hs : s ∈ sides rings) (hst : ¬ s.Flat) :
    ∃ fl p, FWalk rings (!s.up) s fl p ∧ ¬ p.Flat ∧ p ∈ sides rings ∧ FWalk rings s.up p fl.reverse s ∧
      ((p.up = s.up ∧ p.top.y = s.bot.y) ∨
       (p.up = (!s.up) ∧ p.bot.y = s.bot.y ∧
        ∃ v, nodeAt rings s.ring (if s.up then s else p).idx = some v ∧ v.pt = (if s.up then s else p).bot ∧ v.lmin = true)) := by
  obtain ⟨fl, p, hw, hp, _⟩ := FWalk.exists (!s.up) hs hs rfl hst
  have hrev := hw.rev hs
  rw [Bool.not_not] at hrev
  refine ⟨fl, p, hw, hp, hw.mem.1, hrev, ?_⟩
  have hh := (hw.height A.linked hs).1
  rw [Side.out_bot] at hh
  by_cases hq : p.up = s.up
  · left
    refine ⟨hq, ?_⟩
    rw [← hh, ← hq, Side.inn_top]
  · right
    have hq' : p.up = !s.up := by revert hq; cases p.up <;> cases s.up <;> decide
    refine ⟨hq', ?_, ?_⟩
    · rw [← hh, ← hq', Side.inn_bot]
    · cases hu : s.up with
      | true =>
        obtain ⟨x, v, hx, hv, h1, h2, h3⟩ := side_node hs
        simp only [if_true]
        refine ⟨v, hv, ?_, ?_⟩
        · rw [Side.bot, hu]; exact h1.symm
        · exact ((A.flags s hs v hv).1).2 ⟨hu, p, hw.mem.1, (follows_iff hw.mem.1 hs).2 ⟨hp, hst, _, hu ▸ hrev⟩, by rw [hq', hu]; rfl⟩
      | false =>
        obtain ⟨x, v, hx, hv, h1, h2, h3⟩ := side_node hw.mem.1
        simp only [Bool.false_eq_true, if_false]
        have hpu : p.up = true := by rw [hq', hu]; rfl
        refine ⟨v, hw.mem.2.1 ▸ hv, ?_, ?_⟩
        · rw [Side.bot, hpu]; exact h1.symm
        · refine ((A.flags p hw.mem.1 v hv).1).2 ⟨hpu, s, hs, (follows_iff hs hw.mem.1).2 ⟨hst, hp, fl, ?_⟩, hu⟩
          rw [hu] at hw; exact hw

/-! ## no overlap -/

theorem FWalk.append {fwd : Bool} {s f t : Side K} {fl fl2 : List (Side K)} (h : FWalk rings fwd s fl f) (hf : f.Flat)
    (h2 : FWalk rings fwd f fl2 t) : FWalk rings fwd s (fl ++ f :: fl2) t := by
  induction h with
  | nil h => exact .cons h hf h2
  | cons h h3 _ ih => exact .cons h h3 (ih hf h2)

/-- A walk that ends at a side that is not horizontal does not pass a side twice. -/
theorem FWalk.suffix {fwd : Bool} {s t f : Side K} {fl : List (Side K)} (h : FWalk rings fwd s fl t) (hf : f ∈ fl) :
    ∃ l1 l2, fl = l1 ++ f :: l2 ∧ FWalk rings fwd s l1 f ∧ FWalk rings fwd f l2 t := by
  induction h with
  | nil h => cases hf
  | @cons s g t fl h h2 hw ih =>
    rcases List.mem_cons.1 hf with rfl | hf
    · exact ⟨[], fl, rfl, .nil h, hw⟩
    · obtain ⟨l1, l2, e, i1, i2⟩ := ih hf
      exact ⟨g :: l1, l2, by rw [e]; rfl, .cons h h2 i1, i2⟩

/-- The horizontal sides of a walk from one side up to another. -/
theorem FWalk.through {fwd : Bool} {s t f : Side K} {fl : List (Side K)} (hs : s ∈ sides rings) (h : FWalk rings fwd s fl t) (fs : ¬ s.Flat) (ft : ¬ t.Flat)
    (hu : t.up = s.up) (hf : f ∈ fl) : Through rings f := by
  obtain ⟨l1, l2, _, w1, w2⟩ := h.suffix hf
  obtain ⟨f1, f2, _⟩ := h.mem.2.2 f hf
  have ht := h.mem.1
  have hr := h.mem.2.1
  cases fwd with
  | true =>
    have r1 := chain_flatRun w1
    have r2 := chain_flatRun w2
    rw [← f2] at r1
    exact ⟨s, hs, t, ht, fs, ft, hu.symm, f2, f2.trans hr.symm, r1, r2⟩
  | false =>
    have r1 := chain_flatRun (w1.rev hs)
    have r2 := chain_flatRun (w2.rev f1)
    rw [hr, ← f2] at r2
    exact ⟨t, ht, s, hs, ft, fs, hu, f2.trans hr.symm, f2, r2, r1⟩

/-- The first horizontal side of a walk from one side up to another. -/
theorem FWalk.goesOn {s t : Side K} {fl : List (Side K)} (hs : s ∈ sides rings) (h : FWalk rings s.up s fl t) (fs : ¬ s.Flat) (ft : ¬ t.Flat)
    (hu : t.up = s.up) (hfl : fl ≠ []) : GoesOn rings s := by
  cases fl with
  | nil => exact (hfl rfl).elim
  | cons f fl =>
    have hth := h.through (f := f) hs fs ft hu (by simp)
    have hm := h.mem.2.2 f (by simp)
    refine ⟨f, hm.1, hm.2.2, hm.2.1, hth, ?_⟩
    cases h with
    | cons ha _ _ =>
      have hi := ha.2.2
      cases hup : s.up with
      | true => rw [hup] at hi; exact hi
      | false =>
        rw [hup] at hi
        simp only [Bool.false_eq_true, if_false] at hi ⊢
        rw [hi, next_prev (side_idx_lt' hs)]

theorem Arranged.flat_disjoint (A : Arranged rings) {f g : Side K} (hf : f ∈ sides rings) (hg : g ∈ sides rings) (h1 : f.Flat) (h2 : g.Flat)
    (tf : Through rings f) (tg : Through rings g) (hy : f.frm.y = g.frm.y) {X : K} (c1 : min f.frm.x f.seg.target.x ≤ X ∧ X < max f.frm.x f.seg.target.x)
    (c2 : min g.frm.x g.seg.target.x ≤ X ∧ X < max g.frm.x g.seg.target.x) : f = g := by
  by_contra hne
  rcases A.overlap f hf g hg h1 h2 hne tf tg hy with h | h
  · exact not_lt.2 (h.trans c2.1) c1.2
  · exact not_lt.2 (h.trans c1.1) c2.2

/-- A walk over horizontal sides does not come back. -/
theorem Arranged.walk_ne (A : Arranged rings) {fwd : Bool} {s t : Side K} {fl : List (Side K)} (hs : s ∈ sides rings)
    (h : FWalk rings fwd s fl t) (hst : ¬ s.Flat) (ht : ¬ t.Flat) (hu : t.up = s.up) (hfl : fl ≠ []) : (s.out fwd).x ≠ (t.inn fwd).x := by
  intro he
  have hth := fun f hf => h.through (f := f) hs hst ht hu hf
  cases h with
  | nil => exact hfl rfl
  | @cons _ f _ fl ha hf hw =>
    rw [ha.point A.linked hs] at he
    have hwide : (f.inn fwd).x ≠ (f.out fwd).x := by
      have := A.wide f ha.1 hf
      cases fwd
      · exact this.symm
      · exact this
    obtain ⟨X, hX⟩ : ∃ X, X = min (f.inn fwd).x (f.out fwd).x := ⟨_, rfl⟩
    have hlt : X < max (f.inn fwd).x (f.out fwd).x := by
      rw [hX]; exact min_lt_max.2 hwide
    obtain ⟨g, hg, c⟩ := hw.cover_lt A.linked ha.1 X (by rw [← he, min_comm]; exact hX.ge) (by rw [← he, max_comm]; exact hlt)
    have hgm := hw.mem.2.2 g hg
    have hfg : f = g := by
      refine A.flat_disjoint ha.1 hgm.1 hf hgm.2.2 (hth f (by simp)) (hth g (by simp [hg])) ?_ (X := X) ?_ c
      · have := (hw.height A.linked ha.1).2 g hg
        rw [this, ← hf.ends fwd, Side.flat_y hf]
      · cases fwd
        · simp only [Side.inn, Side.out, Bool.false_eq_true, if_false] at hX hlt
          rw [min_comm, max_comm]; exact ⟨hX.ge, hlt⟩
        · exact ⟨hX.ge, hlt⟩
    subst hfg
    obtain ⟨l1, l2, e, _, w2⟩ := hw.suffix hg
    have := (hw.unique w2 ht ht).1
    rw [e] at this
    have := congrArg List.length this
    simp at this
    omega

end
end River
