import Verif.Lemmas.Value

/-! # Comparing doubles (C08, C09, C26, C28, C31, C32, C34, C36)

The parts of the code that only compare numbers are right for all IEEE doubles that are not NaN: signed zeros and infinities
included, whatever the coordinates are. -/

namespace River
attribute [local instance 10000] FTrans.toFNum
attribute [local instance] erealNum erealLawful

/-! ## boxes -/

theorem fmin_value {a b : Dbl} (ha : a ≠ .nan) (hb : b ≠ .nan) : fmin a b ≠ .nan ∧ (fmin a b).value = fmin a.value b.value := by
  unfold fmin
  rw [Dbl.value_lt hb ha]
  split
  · exact ⟨hb, rfl⟩
  · exact ⟨ha, rfl⟩

theorem fmax_value {a b : Dbl} (ha : a ≠ .nan) (hb : b ≠ .nan) : fmax a b ≠ .nan ∧ (fmax a b).value = fmax a.value b.value := by
  unfold fmax
  rw [Dbl.value_lt ha hb]
  split
  · exact ⟨hb, rfl⟩
  · exact ⟨ha, rfl⟩

theorem extend_value {r : Rect Dbl} {p : Vec2 Dbl} (hr : r.NotNan) (hp : p.NotNan) :
    (r.extend p).NotNan ∧ (r.extend p).value = r.value.extend p.value := by
  obtain ⟨a1, a2⟩ := fmin_value hr.1.1 hp.1
  obtain ⟨b1, b2⟩ := fmin_value hr.1.2 hp.2
  obtain ⟨c1, c2⟩ := fmax_value hr.2.1 hp.1
  obtain ⟨d1, d2⟩ := fmax_value hr.2.2 hp.2
  refine ⟨⟨⟨a1, b1⟩, ⟨c1, d1⟩⟩, ?_⟩
  unfold Rect.extend Rect.value Vec2.value
  dsimp only
  rw [a2, b2, c2, d2]

theorem foldl_extend_value (ps : List (Vec2 Dbl)) (hp : ∀ p ∈ ps, p.NotNan) {r : Rect Dbl} (hr : r.NotNan) :
    (ps.foldl Rect.extend r).NotNan ∧ (ps.foldl Rect.extend r).value = (ps.map Vec2.value).foldl Rect.extend r.value := by
  induction ps generalizing r with
  | nil => exact ⟨hr, rfl⟩
  | cons p ps ih =>
    obtain ⟨h1, h2⟩ := extend_value hr (hp p (by simp))
    obtain ⟨h3, h4⟩ := ih (fun q hq => hp q (by simp [hq])) h1
    exact ⟨h3, by rw [List.foldl_cons, h4, h2]; rfl⟩

theorem neg_max_value : (FNum.neg (FNum.maxNum : Dbl)).value = FNum.neg (FNum.maxNum : EReal) := by
  show (((Dbl.val true dblMax : ℚ) : ℝ) : EReal) = -(((dblMax : ℝ) : EReal))
  rw [← EReal.coe_neg]
  simp [Dbl.val]

theorem max_value : (FNum.maxNum : Dbl).value = (FNum.maxNum : EReal) := by
  show (((Dbl.val false dblMax : ℚ) : ℝ) : EReal) = (((dblMax : ℝ) : EReal))
  simp [Dbl.val]

theorem start_value : (Rect.start : Rect Dbl).value = Rect.start := by
  unfold Rect.start Rect.value Vec2.value
  simp only [neg_max_value, max_value]

theorem Dbl.WithinMax.notNan {d : Dbl} (h : d.WithinMax) : d ≠ .nan := by
  obtain ⟨s, m, rfl, _⟩ := h
  simp

theorem Dbl.WithinMax.range {d : Dbl} (h : d.WithinMax) : FNum.neg (FNum.maxNum : EReal) ≤ d.value ∧ d.value ≤ (FNum.maxNum : EReal) := by
  obtain ⟨s, m, rfl, h0, h1⟩ := h
  rw [← neg_max_value, ← max_value]
  show (((Dbl.val true dblMax : ℚ) : ℝ) : EReal) ≤ (((Dbl.val s m : ℚ) : ℝ) : EReal) ∧ (((Dbl.val s m : ℚ) : ℝ) : EReal) ≤ (((Dbl.val false dblMax : ℚ) : ℝ) : EReal)
  rw [EReal.coe_le_coe_iff, EReal.coe_le_coe_iff, Rat.cast_le, Rat.cast_le]
  unfold Dbl.val
  cases s <;> simp <;> constructor <;> linarith

/-- **C08** for doubles: `rect::from` of finite points is their bounding box. -/
theorem rect_from_doubles (ps : List (Vec2 Dbl)) (hne : ps ≠ []) (hfin : ∀ p ∈ ps, p.WithinMax) :
    (Rect.of ps).NotNan ∧ (Rect.of ps).value.IsBBox (ps.map Vec2.value) := by
  obtain ⟨h1, h2⟩ := foldl_extend_value ps (fun p hp => ⟨(hfin p hp).1.notNan, (hfin p hp).2.notNan⟩)
    (r := Rect.start) ⟨⟨by simp [Rect.start, FNum.maxNum], by simp [Rect.start, FNum.maxNum]⟩,
      ⟨by simp [Rect.start, FNum.maxNum, FNum.neg, Dbl.neg], by simp [Rect.start, FNum.maxNum, FNum.neg, Dbl.neg]⟩⟩
  refine ⟨h1, ?_⟩
  show (List.foldl Rect.extend Rect.start ps).value.IsBBox _
  rw [h2, start_value]
  refine Rect.of_isBBox _ (by simpa using hne) ?_
  intro p hp
  obtain ⟨q, hq, rfl⟩ := List.mem_map.1 hp
  obtain ⟨f1, f2⟩ := hfin q hq
  exact ⟨f1.range.1, f1.range.2, f2.range.1, f2.range.2⟩

theorem intersect_value {r s : Rect Dbl} (hr : r.NotNan) (hs : s.NotNan) : r.intersect s = r.value.intersect s.value := by
  unfold Rect.intersect
  rw [Dbl.value_lt hr.2.1 hs.1.1, Dbl.value_lt hs.2.1 hr.1.1, Dbl.value_lt hr.2.2 hs.1.2, Dbl.value_lt hs.2.2 hr.1.2]
  rfl

/-- **C09** for doubles: two boxes whose corners are in order intersect exactly when they share a point. -/
theorem intersect_doubles (r s : Rect Dbl) (hr : r.NotNan) (hs : s.NotNan) (vr : r.value.Valid) (vs : s.value.Valid) :
    r.intersect s = true ↔ ∃ p : Vec2 EReal, r.value.Mem p ∧ s.value.Mem p := by
  rw [intersect_value hr hs]
  exact Rect.intersect_iff _ _ vr vs

/-! ## broad phase -/

/-- The scan point with the value of its abscissa. -/
noncomputable def scanPointValue (p : ScanPoint Dbl) : ScanPoint EReal := ⟨p.x.value, p.ins, p.outs⟩

theorem touch_value {x : Dbl} (hx : x ≠ .nan) {f : ScanPoint Dbl → ScanPoint Dbl} {g : ScanPoint EReal → ScanPoint EReal}
    (hf : ∀ p, scanPointValue (f p) = g (scanPointValue p)) (hn : ∀ p, (f p).x = p.x) (l : List (ScanPoint Dbl)) (hl : ∀ p ∈ l, p.x ≠ .nan) :
    (touch x f l).map scanPointValue = touch x.value g (l.map scanPointValue) ∧ ∀ p ∈ touch x f l, p.x ≠ .nan := by
  induction l with
  | nil =>
    refine ⟨by simp [touch, hf]; rfl, ?_⟩
    intro p hp
    rw [touch, List.mem_singleton] at hp
    rw [hp, hn]; exact hx
  | cons a l ih =>
    have ha := hl a (by simp)
    obtain ⟨h1, h2⟩ := ih (fun p hp => hl p (by simp [hp]))
    rw [List.map_cons]
    unfold touch
    show _ = (if a.x.value <. x.value then _ else if x.value <. a.x.value then _ else _) ∧ _
    rw [Dbl.value_lt ha hx, Dbl.value_lt hx ha]
    split
    · refine ⟨by rw [List.map_cons, h1], ?_⟩
      intro p hp
      rcases List.mem_cons.1 hp with rfl | hp
      · exact ha
      · exact h2 p hp
    · split
      · refine ⟨by rw [List.map_cons, List.map_cons, hf]; rfl, ?_⟩
        intro p hp
        rcases List.mem_cons.1 hp with rfl | hp
        · rw [hn]; exact hx
        · exact hl p hp
      · refine ⟨by rw [List.map_cons, hf], ?_⟩
        intro p hp
        rcases List.mem_cons.1 hp with rfl | hp
        · rw [hn]; exact ha
        · exact hl p (by simp [hp])

theorem addSegments_value (bs : List (Rect Dbl)) (hb : ∀ b ∈ bs, b.NotNan) (i : Nat) (l : List (ScanPoint Dbl)) (hl : ∀ p ∈ l, p.x ≠ .nan) :
    (addSegments l i bs).map scanPointValue = addSegments (l.map scanPointValue) i (bs.map Rect.value) := by
  induction bs generalizing i l with
  | nil => rfl
  | cons b bs ih =>
    obtain ⟨b1, b2⟩ := hb b (by simp)
    obtain ⟨h1, h2⟩ := touch_value (f := fun p => { p with ins := p.ins ++ [i] }) (g := fun p => { p with ins := p.ins ++ [i] }) b1.1
      (fun _ => rfl) (fun _ => rfl) l hl
    obtain ⟨h3, h4⟩ := touch_value (f := fun p => { p with outs := p.outs ++ [i] }) (g := fun p => { p with outs := p.outs ++ [i] }) b2.1
      (fun _ => rfl) (fun _ => rfl) _ h2
    have := ih (fun c hc => hb c (by simp [hc])) (i + 1) _ h4
    rw [h3, h1] at this
    exact this

theorem scanIns_value (addr : Nat → Nat) {bs : Nat → Rect Dbl} (hb : ∀ i, (bs i).NotNan) (cur is : List Nat) :
    scanIns addr bs cur is = scanIns addr (fun i => (bs i).value) cur is := by
  induction is generalizing cur with
  | nil => rfl
  | cons i is ih =>
    unfold scanIns
    simp only
    rw [ih]
    have : (fun c => (bs c).intersect (bs i)) = (fun c => (bs c).value.intersect (bs i).value) := funext (fun c => intersect_value (hb c) (hb i))
    rw [this]

theorem scanPoints_value (addr : Nat → Nat) {bs : Nat → Rect Dbl} (hb : ∀ i, (bs i).NotNan) (l : List (ScanPoint Dbl)) (cur : List Nat) :
    scanPoints addr bs cur l = scanPoints addr (fun i => (bs i).value) cur (l.map scanPointValue) := by
  induction l generalizing cur with
  | nil => rfl
  | cons p l ih =>
    rw [List.map_cons]
    unfold scanPoints
    simp only
    rw [scanIns_value addr hb, ih]
    rfl

theorem scanProcess_value (addr : Nat → Nat) (bs : List (Rect Dbl)) (d : Rect Dbl) (hb : ∀ b ∈ bs, b.NotNan) (hd : d.NotNan) :
    scanProcess addr bs d = scanProcess addr (bs.map Rect.value) d.value := by
  unfold scanProcess
  rw [scanPoints_value addr (bs := fun i => bs.getD i d), addSegments_value bs hb 0 [] (by simp)]
  · congr 1
    funext i
    rw [List.getD_eq_getElem?_getD, List.getD_eq_getElem?_getD, List.getElem?_map]
    cases bs[i]? <;> rfl
  · intro i
    rw [List.getD_eq_getElem?_getD]
    cases h : bs[i]? with
    | none => exact hd
    | some b => exact hb b (List.mem_of_getElem? h)

/-- **C26** for doubles: whatever the addresses of the segments are, the callback is called for two of them, in one of the two
orders and once, exactly when their boxes intersect. -/
theorem scanProcess_doubles (addr : Nat → Nat) (hinj : Function.Injective addr) (bs : List (Rect Dbl)) (d : Rect Dbl)
    (hb : ∀ b ∈ bs, b.NotNan) (hd : d.NotNan) :
    (scanProcess addr bs d).Nodup ∧
    (∀ i j, (i, j) ∈ scanProcess addr bs d → i < bs.length ∧ j < bs.length ∧ i ≠ j ∧ (j, i) ∉ scanProcess addr bs d) ∧
    (∀ i j (hi : i < bs.length) (hj : j < bs.length), i ≠ j →
      ((i, j) ∈ scanProcess addr bs d ∨ (j, i) ∈ scanProcess addr bs d ↔ (bs[i]).intersect bs[j] = true)) := by
  rw [scanProcess_value addr bs d hb hd]
  obtain ⟨h1, h2, h3⟩ := scanProcess_spec addr hinj (bs.map Rect.value) d.value
  refine ⟨h1, ?_, ?_⟩
  · intro i j h
    simpa using h2 i j h
  · intro i j hi hj hij
    rw [h3 i j (by simpa using hi) (by simpa using hj) hij, List.getElem_map, List.getElem_map,
      intersect_value (hb _ (List.getElem_mem hi)) (hb _ (List.getElem_mem hj))]

/-! ## local extrema -/

/-- A vertex with the value of its height and some segment. -/
noncomputable def vtxValue (v : Vtx Dbl) : Vtx EReal := ⟨v.pt.value, .line ⟨0, 0⟩, v.lmin, v.lmax⟩

theorem walkBack_value (l : List Dbl) (hl : ∀ y ∈ l, y ≠ .nan) : walkBack l = walkBack (l.map Dbl.value) := by
  induction l with
  | nil => rfl
  | cons a l ih =>
    cases l with
    | nil => rfl
    | cons b l =>
      rw [List.map_cons, List.map_cons]
      unfold walkBack
      have ha := hl a (by simp)
      have hb := hl b (by simp)
      rw [Dbl.value_eq ha hb, Dbl.value_lt ha hb, ih (fun y hy => hl y (by simp [hy])), List.map_cons]

theorem goingDown0_value (l : List (Vtx Dbl)) (hl : ∀ v ∈ l, v.y ≠ .nan) : goingDown0 l = goingDown0 (l.map vtxValue) := by
  cases l with
  | nil => rfl
  | cons v vs =>
    unfold goingDown0
    dsimp only [List.map_cons]
    rw [walkBack_value]
    · simp only [List.map_cons, List.map_reverse, List.map_map]
      rfl
    · intro y hy
      rcases List.mem_cons.1 hy with rfl | hy
      · exact hl v (by simp)
      · rw [List.mem_reverse, List.mem_map] at hy
        obtain ⟨w, hw, rfl⟩ := hy
        exact hl w hw

theorem flagLoop_value (g0 g : Bool) (l : List (Vtx Dbl)) (hl : ∀ v ∈ l, v.y ≠ .nan) :
    (flagLoop g0 g l).map vtxValue = flagLoop g0 g (l.map vtxValue) := by
  induction l generalizing g with
  | nil => rfl
  | cons v l ih =>
    cases l with
    | nil =>
      rw [List.map_cons, List.map_nil]
      unfold flagLoop
      split <;> (try split) <;> rfl
    | cons w l =>
      rw [List.map_cons, List.map_cons]
      unfold flagLoop
      have hv := hl v (by simp)
      have hw := hl w (by simp)
      have ih := fun g => ih g (fun y hy => hl y (by simp [hy]))
      simp only [List.map_cons] at ih
      show List.map vtxValue _ = if (v.y.value <. w.y.value) && g then _ else if (w.y.value <. v.y.value) && !g then _ else _
      rw [Dbl.value_lt hv hw, Dbl.value_lt hw hv]
      split
      · rw [List.map_cons, ih]; rfl
      · split
        · rw [List.map_cons, ih]; rfl
        · rw [List.map_cons, ih]

/-- **C28** for doubles: in the ring stored for a contour a vertex is flagged as local minimum (maximum) exactly if it is one. -/
theorem insertVertexList_doubles (c : Contour Dbl) (pt : PathType) (r : Ring Dbl) (h : insertVertexList c pt = some r)
    (hn : ∀ v ∈ r.nodes, v.y ≠ .nan) (Y : ℤ → EReal) (hY : IsCyc (r.nodes.map (fun v => v.y.value)) Y) :
    ∀ (i : Nat) (v : Vtx Dbl), r.nodes[i]? = some v → (v.lmin = true ↔ LocalMin Y i) ∧ (v.lmax = true ↔ LocalMax Y i) := by
  unfold insertVertexList at h
  cases hc : closeContour c with
  | none => rw [hc] at h; simp at h
  | some nodes =>
    rw [hc] at h; dsimp only at h
    obtain ⟨hlen, hfresh⟩ := closeContour_fresh c nodes hc
    cases hg : goingDown0 nodes with
    | none => rw [hg] at h; simp at h
    | some g0 =>
      rw [hg] at h; simp only [Option.some.injEq] at h
      subst h
      dsimp only at hY hn ⊢
      have hmap := flagLoop_map_y g0 g0 nodes
      have hn' : ∀ v ∈ nodes, v.y ≠ .nan := by
        intro v hv
        have : v.y ∈ (flagLoop g0 g0 nodes).map Vtx.y := by rw [hmap]; exact List.mem_map.2 ⟨v, hv, rfl⟩
        obtain ⟨w, hw, e⟩ := List.mem_map.1 this
        rw [← e]; exact hn w hw
      have hY' : IsCyc ((nodes.map vtxValue).map Vtx.y) Y := by
        have e : (nodes.map vtxValue).map Vtx.y = (nodes.map Vtx.y).map Dbl.value := by rw [List.map_map, List.map_map]; rfl
        rw [e, ← hmap, List.map_map]
        exact hY
      have hne : nodes.map vtxValue ≠ [] := by intro e; rw [List.map_eq_nil_iff] at e; rw [e] at hlen; simp at hlen
      have h0 := goingDown0_spec (nodes.map vtxValue) hne Y hY'
      rw [← goingDown0_value nodes hn', hg] at h0
      have hg0 : if g0 then DownInto Y 0 else UpInto Y 0 := by cases g0 <;> simpa using h0
      obtain ⟨_, h2⟩ := flagLoop_spec (nodes.map vtxValue) Y hY' g0 hg0 0 g0 (by rw [List.length_map]; omega) (by simpa using hg0) (by
        intro v hv
        obtain ⟨w, hw, rfl⟩ := List.mem_map.1 hv
        exact hfresh w hw)
      intro i v hv
      have := h2 i (vtxValue v) (by rw [List.drop_zero, ← flagLoop_value g0 g0 nodes hn', List.getElem?_map, hv]; rfl)
      simpa [vtxValue] using this.2

/-! ## the queue of scan lines -/

theorem dropWhile_value (y : Dbl) (hy : y ≠ .nan) (q : List Dbl) (hq : ∀ z ∈ q, z ≠ .nan) :
    (q.dropWhile (fun z => y ==. z)).map Dbl.value = (q.map Dbl.value).dropWhile (fun z => y.value ==. z) := by
  induction q with
  | nil => rfl
  | cons a q ih =>
    rw [List.map_cons, List.dropWhile_cons, List.dropWhile_cons, Dbl.value_eq hy (hq a (by simp))]
    split
    · exact ih (fun z hz => hq z (by simp [hz]))
    · rfl

theorem popScan_value (old : Dbl) (ho : old ≠ .nan) (q : List Dbl) (hq : ∀ z ∈ q, z ≠ .nan) :
    (popScan old q).map (fun r => (r.1.value, r.2.map Dbl.value)) = popScan old.value (q.map Dbl.value) := by
  induction q with
  | nil => rfl
  | cons a q ih =>
    rw [List.map_cons]
    unfold popScan
    rw [Dbl.value_eq (hq a (by simp)) ho]
    split
    · exact ih (fun z hz => hq z (by simp [hz]))
    · rw [Option.map_some, dropWhile_value a (hq a (by simp)) q (fun z hz => hq z (by simp [hz]))]

theorem popScan_mem (old : Dbl) (q : List Dbl) (y : Dbl) (q' : List Dbl) (h : popScan old q = some (y, q')) : y ∈ q ∧ q'.Sublist q := by
  induction q with
  | nil => simp [popScan] at h
  | cons a q ih =>
    unfold popScan at h
    split at h
    · obtain ⟨h1, h2⟩ := ih h
      exact ⟨by simp [h1], h2.cons a⟩
    · simp only [Option.some.injEq, Prod.mk.injEq] at h
      rw [← h.1, ← h.2]
      exact ⟨by simp, (List.dropWhile_sublist _).cons a⟩

theorem insertNum_value (x : Dbl) (hx : x ≠ .nan) (q : List Dbl) (hq : ∀ z ∈ q, z ≠ .nan) :
    (insertNum x q).map Dbl.value = insertNum x.value (q.map Dbl.value) ∧ ∀ z ∈ insertNum x q, z ≠ .nan := by
  induction q with
  | nil => exact ⟨rfl, by simpa [insertNum] using hx⟩
  | cons a q ih =>
    obtain ⟨h1, h2⟩ := ih (fun z hz => hq z (by simp [hz]))
    rw [List.map_cons]
    unfold insertNum
    rw [Dbl.value_lt (hq a (by simp)) hx]
    split
    · refine ⟨by rw [List.map_cons, h1], ?_⟩
      intro z hz
      rcases List.mem_cons.1 hz with rfl | hz
      · exact hq _ (by simp)
      · exact h2 z hz
    · refine ⟨rfl, ?_⟩
      intro z hz
      rcases List.mem_cons.1 hz with rfl | hz
      · exact hx
      · exact hq z hz

theorem insertAll_value (new : List Dbl) (hn : ∀ z ∈ new, z ≠ .nan) (q : List Dbl) (hq : ∀ z ∈ q, z ≠ .nan) :
    (new.foldl (fun s z => insertNum z s) q).map Dbl.value = (new.map Dbl.value).foldl (fun s z => insertNum z s) (q.map Dbl.value) ∧
      ∀ z ∈ new.foldl (fun s z => insertNum z s) q, z ≠ .nan := by
  induction new generalizing q with
  | nil => exact ⟨rfl, hq⟩
  | cons a new ih =>
    obtain ⟨h1, h2⟩ := insertNum_value a (hn a (by simp)) q hq
    obtain ⟨h3, h4⟩ := ih (fun z hz => hn z (by simp [hz])) _ h2
    exact ⟨by rw [List.foldl_cons, h3, h1]; rfl, h4⟩

theorem scanRun_value {old : Dbl} {q : List Dbl} {ins : List (List Dbl)} {ys : List Dbl} (hrun : ScanRun old q ins ys)
    (ho : old ≠ .nan) (hq : ∀ z ∈ q, z ≠ .nan) (hi : ∀ l ∈ ins, ∀ z ∈ l, z ≠ .nan) :
    ScanRun old.value (q.map Dbl.value) (ins.map (List.map Dbl.value)) (ys.map Dbl.value) := by
  induction hrun with
  | stop h =>
    refine .stop ?_
    rw [← popScan_value _ ho _ hq, h]
    rfl
  | @visit old q y q' new ins ys h _ ih =>
    obtain ⟨hy, hq'⟩ := popScan_mem old q y q' h
    obtain ⟨h1, h2⟩ := insertAll_value new (hi new (by simp)) q' (fun z hz => hq z (hq'.subset hz))
    refine .visit (q' := q'.map Dbl.value) ?_ ?_
    · rw [← popScan_value _ ho _ hq, h]
      rfl
    · have := ih (hq y hy) h2 (fun l hl => hi l (by simp [hl]))
      rw [h1] at this
      exact this

theorem scanRun_length {old : Dbl} {q : List Dbl} {ins : List (List Dbl)} {ys : List Dbl} (hrun : ScanRun old q ins ys) :
    ins.length = ys.length := by
  induction hrun with
  | stop h => rfl
  | visit _ _ ih => simp [ih]

/-- **C31** for doubles: in every run of the queue of scan lines in which no height below the one being processed is inserted the
delivered heights strictly increase, and their values are the values that were ever in the queue: the two zeros count as one height. -/
theorem scanRun_doubles (old : Dbl) (q : List Dbl) (ins : List (List Dbl)) (ys : List Dbl) (hrun : ScanRun old q ins ys)
    (ho : old ≠ .nan) (hq : ∀ z ∈ q, z ≠ .nan) (hi : ∀ l ∈ ins, ∀ z ∈ l, z ≠ .nan)
    (hsort : q.Pairwise (fun a b => a.value ≤ b.value)) (hold : ∀ z ∈ q, old.value ≤ z.value)
    (hup : Upward (ys.map Dbl.value) (ins.map (List.map Dbl.value))) :
    (old :: ys).Pairwise (fun a b => a.value < b.value) ∧
      ∀ v : EReal, (∃ z ∈ old :: ys, z.value = v) ↔ v = old.value ∨ (∃ z ∈ q, z.value = v) ∨ ∃ l ∈ ins, ∃ z ∈ l, z.value = v := by
  obtain ⟨h1, h2⟩ := scanRun_increasing old.value (q.map Dbl.value) (ins.map (List.map Dbl.value)) (ys.map Dbl.value)
    (by rw [List.pairwise_map]; exact hsort) (by
      intro z hz
      obtain ⟨w, hw, rfl⟩ := List.mem_map.1 hz
      exact hold w hw) (scanRun_value hrun ho hq hi) hup
  refine ⟨by rw [← List.map_cons, List.pairwise_map] at h1; exact h1, ?_⟩
  intro v
  have := h2 v
  rw [← List.map_cons, List.mem_map, List.mem_map, List.mem_flatten] at this
  rw [this]
  constructor
  · rintro (h | h | ⟨l, hl, hv⟩)
    · exact .inl h
    · exact .inr (.inl h)
    · obtain ⟨l', hl', rfl⟩ := List.mem_map.1 hl
      exact .inr (.inr ⟨l', hl', List.mem_map.1 hv⟩)
  · rintro (h | h | ⟨l, hl, hv⟩)
    · exact .inl h
    · exact .inr (.inl h)
    · exact .inr (.inr ⟨_, List.mem_map.2 ⟨l, hl, rfl⟩, List.mem_map.2 hv⟩)

/-! ## the active edge list -/

theorem validOrder_value_true (rings : List (Ring Dbl)) (r n : Edge Dbl) (hr : r.currX ≠ .nan) (hn : n.currX ≠ .nan)
    (h : validOrder rings r n = true) : r.currX.value ≤ n.currX.value := by
  by_contra hlt
  rw [not_le] at hlt
  unfold validOrder at h
  rw [Dbl.value_eq hn hr, Dbl.value_lt hr hn] at h
  simp [eq_eq_decide, lt_eq_decide, hlt.ne, hlt.le] at h
  exact absurd h hlt.not_gt

theorem validOrder_value_false (rings : List (Ring Dbl)) (r n : Edge Dbl) (hr : r.currX ≠ .nan) (hn : n.currX ≠ .nan)
    (h : validOrder rings r n = false) : n.currX.value ≤ r.currX.value := by
  by_contra hlt
  rw [not_le] at hlt
  unfold validOrder at h
  rw [Dbl.value_eq hn hr, Dbl.value_lt hr hn] at h
  simp [eq_eq_decide, lt_eq_decide, hlt.ne', hlt] at h

/-- **C32** for doubles: `insert_into_ael` keeps the active edge list ordered, inserts exactly the newcomer and leaves the other edges in
their order. -/
theorem insertAel_doubles (rings : List (Ring Dbl)) (ael : List (Edge Dbl)) (n : Edge Dbl) (hs : AelValues ael) (hn : n.currX ≠ .nan) :
    AelValues (insertAel (validOrder rings) n ael) ∧
      ∃ l1 l2, ael = l1 ++ l2 ∧ insertAel (validOrder rings) n ael = l1 ++ n :: l2 := by
  obtain ⟨hnan, hs⟩ := hs
  rw [insertAel_eq]
  obtain ⟨l1, l2, h1, h2, h3, h4⟩ := insertFrom_split (validOrder rings) n ael
  refine ⟨?_, l1, l2, h1, h2⟩
  rw [h2]
  subst h1
  have hle2 : ∀ x ∈ l2, n.currX.value ≤ x.currX.value := by
    intro x hx
    cases l2 with
    | nil => simp at hx
    | cons a l2 =>
      have ha := validOrder_value_false rings a n (hnan a (by simp)) hn (h4 a rfl)
      rcases List.mem_cons.mp hx with rfl | hx
      · exact ha
      · exact ha.trans ((List.pairwise_cons.mp (List.pairwise_append.mp hs).2.1).1 x hx)
  obtain ⟨h5, h6, h7⟩ := List.pairwise_append.1 hs
  refine ⟨?_, List.pairwise_append.2 ⟨h5, List.pairwise_cons.2 ⟨hle2, h6⟩, ?_⟩⟩
  · intro e he
    rcases List.mem_append.1 he with he | he
    · exact hnan e (by simp [he])
    · rcases List.mem_cons.1 he with rfl | he
      · exact hn
      · exact hnan e (by simp [he])
  · intro x hx z hz
    rcases List.mem_cons.mp hz with rfl | hz
    · exact validOrder_value_true rings x z (hnan x (by simp [hx])) hn (h3 x hx)
    · exact h7 x hx z hz

theorem takeAt_doubles (x : Dbl) (l : List (Edge Dbl)) :
    ((takeAt x l).1 ++ (takeAt x l).2.1 ++ (takeAt x l).2.2).Perm l ∧ ((takeAt x l).1 ++ (takeAt x l).2.2).Sublist l ∧
      ∀ e ∈ (takeAt x l).2.1, (e.currX ==. x) = true := by
  induction l with
  | nil => simp [takeAt]
  | cons e l ih =>
    obtain ⟨h1, h2, h3⟩ := ih
    rw [takeAt]
    split
    · rename_i he
      refine ⟨?_, h2.trans (List.sublist_cons_self _ _), ?_⟩
      · refine List.Perm.trans ?_ (h1.cons e)
        rw [List.append_assoc, List.append_assoc]
        exact List.perm_middle
      · intro z hz
        rcases List.mem_cons.1 hz with rfl | hz
        · exact he
        · exact h3 z hz
    · split
      · exact ⟨by simp, by simp, by simp⟩
      · exact ⟨h1.cons e, h2.cons_cons e, h3⟩

theorem takeAll_doubles (xs : List Dbl) (l : List (Edge Dbl)) :
    ((takeAll xs l).1 ++ (takeAll xs l).2).Perm l ∧ (takeAll xs l).1.Sublist l ∧
      ∀ e ∈ (takeAll xs l).2, ∃ x ∈ xs, (e.currX ==. x) = true := by
  induction xs generalizing l with
  | nil => simp [takeAll]
  | cons x xs ih =>
    obtain ⟨h1, h2, h3⟩ := takeAt_doubles x l
    obtain ⟨g1, g2, g3⟩ := ih (takeAt x l).2.2
    simp only [takeAll]
    refine ⟨?_, (List.Sublist.append_left g2 _).trans h2, ?_⟩
    rotate_left
    · intro e he
      rcases List.mem_append.1 he with he | he
      · exact ⟨x, by simp, h3 e he⟩
      · obtain ⟨y, hy, h⟩ := g3 e he
        exact ⟨y, by simp [hy], h⟩
    refine List.Perm.trans ?_ h1
    rw [List.append_assoc, List.append_assoc]
    refine List.Perm.append_left _ ?_
    have : ((takeAll xs (takeAt x l).2.2).1 ++ ((takeAt x l).2.1 ++ (takeAll xs (takeAt x l).2.2).2)).Perm
        ((takeAt x l).2.1 ++ ((takeAll xs (takeAt x l).2.2).1 ++ (takeAll xs (takeAt x l).2.2).2)) := by
      rw [← List.append_assoc, ← List.append_assoc]
      exact List.perm_append_comm.append_right _
    exact this.trans (List.Perm.append_left _ g1)

theorem foldl_insert_doubles (rings : List (Ring Dbl)) (ins l : List (Edge Dbl)) (hs : AelValues l) (hi : ∀ e ∈ ins, e.currX ≠ .nan) :
    AelValues (ins.foldl (fun l e => insertAel (validOrder rings) { e with bound := none } l) l) ∧
      (ins.foldl (fun l e => insertAel (validOrder rings) { e with bound := none } l) l).Perm
        (l ++ ins.map (fun e => { e with bound := none })) := by
  induction ins generalizing l with
  | nil => exact ⟨hs, by simp⟩
  | cons e ins ih =>
    obtain ⟨h1, l1, l2, h2, h3⟩ := insertAel_doubles rings l { e with bound := none } hs (hi e (by simp))
    obtain ⟨g1, g2⟩ := ih _ h1 (fun a ha => hi a (by simp [ha]))
    refine ⟨g1, g2.trans ?_⟩
    rw [h3, h2, List.map_cons]
    refine List.Perm.trans ?_ List.perm_middle.symm
    exact (List.perm_middle (l₁ := l1)).append_right _

theorem uniqFrom_mem (x : Dbl) (l : List Dbl) : ∀ z ∈ uniqFrom x l, z ∈ l := by
  induction l generalizing x with
  | nil => simp [uniqFrom]
  | cons a l ih =>
    unfold uniqFrom
    intro z hz
    split at hz
    · exact List.mem_cons_of_mem _ (ih x z hz)
    · rcases List.mem_cons.1 hz with rfl | hz
      · simp
      · exact List.mem_cons_of_mem _ (ih a z hz)

theorem insertNum_mem (x : Dbl) (l : List Dbl) : ∀ z ∈ insertNum x l, z = x ∨ z ∈ l := by
  induction l with
  | nil => simp [insertNum]
  | cons a l ih =>
    unfold insertNum
    intro z hz
    split at hz
    · rcases List.mem_cons.1 hz with rfl | hz
      · simp
      · rcases ih z hz with h | h
        · exact .inl h
        · exact .inr (List.mem_cons_of_mem _ h)
    · exact List.mem_cons.1 hz

theorem sortNum_mem (l : List Dbl) : ∀ z ∈ sortNum l, z ∈ l := by
  induction l with
  | nil => simp [sortNum]
  | cons a l ih =>
    intro z hz
    rcases insertNum_mem a (sortNum l) z hz with rfl | h
    · simp
    · exact List.mem_cons_of_mem _ (ih z h)

theorem changes_mem (l : List Dbl) : ∀ z ∈ uniqNum (sortNum l), z ∈ l := by
  intro z hz
  refine sortNum_mem l z ?_
  cases h : sortNum l with
  | nil => rw [h] at hz; simp [uniqNum] at hz
  | cons a l' =>
    rw [h] at hz
    rcases List.mem_cons.1 hz with rfl | hz
    · simp
    · exact List.mem_cons_of_mem _ (uniqFrom_mem a l' z hz)

/-! ## winding counts -/

/-- An edge with the values of its coordinates. -/
noncomputable def edgeValue (e : Edge Dbl) : Edge EReal :=
  { eid := e.eid, bot := e.bot.value, top := e.top.value, currX := e.currX.value, windDx := e.windDx, windCnt := e.windCnt,
    windCnt2 := e.windCnt2, bound := e.bound, ring := e.ring, vtop := e.vtop, ptype := e.ptype }

theorem wn_value (t : PathType) (l : List (Edge Dbl)) : wn t (l.map edgeValue) = wn t l := by
  induction l with
  | nil => rfl
  | cons e l ih => rw [List.map_cons, wn_cons, wn_cons, ih]; rfl

theorem countsOk_value (fr : FillRule) (pre : List (Edge Dbl)) (e : Edge Dbl) :
    CountsOk fr (pre.map edgeValue) (edgeValue e) ↔ CountsOk fr pre e := by
  have h : ∀ t, wn t (pre.map edgeValue ++ [edgeValue e]) = wn t (pre ++ [e]) := by
    intro t
    rw [← wn_value t (pre ++ [e]), List.map_append]; rfl
  unfold CountsOk
  simp only [h, wn_value]
  rfl

theorem allCountsOk_value (fr : FillRule) (l : List (Edge Dbl)) : AllCountsOk fr (l.map edgeValue) ↔ AllCountsOk fr l := by
  constructor
  · intro h pre e post he
    exact (countsOk_value fr pre e).1 (h (pre.map edgeValue) (edgeValue e) (post.map edgeValue) (by rw [he]; simp))
  · intro h pre e post he
    obtain ⟨pre', l2, rfl, rfl, h3⟩ := List.map_eq_append_iff.1 he
    obtain ⟨e', post', rfl, rfl, rfl⟩ := List.map_eq_cons_iff.1 h3
    exact (countsOk_value fr pre' e').2 (h pre' e' post' rfl)

theorem splitLast_value (p : Edge Dbl → Bool) (p' : Edge EReal → Bool) (hp : ∀ e, p' (edgeValue e) = p e) (l : List (Edge Dbl)) :
    splitLast p' (l.map edgeValue) = (splitLast p l).map (fun r => (edgeValue r.1, r.2.map edgeValue)) := by
  induction l with
  | nil => rfl
  | cons e l ih =>
    rw [List.map_cons]
    unfold splitLast
    rw [ih, hp]
    cases splitLast p l with
    | none => simp only [Option.map_none]; split <;> rfl
    | some r => rfl

theorem wind2_value (fr : FillRule) (t : PathType) (a : Int) (l : List (Edge Dbl)) : wind2 fr t a (l.map edgeValue) = wind2 fr t a l := by
  unfold wind2
  rw [List.foldl_map]
  rfl

theorem calcWind_value (fr : FillRule) (left : List (Edge Dbl)) (e : Edge Dbl) :
    edgeValue (calcWind fr left e) = calcWind fr (left.map edgeValue) (edgeValue e) := by
  unfold calcWind
  rw [splitLast_value (fun l => decide (l.ptype = e.ptype)) _ (fun _ => rfl)]
  cases splitLast (fun l => decide (l.ptype = e.ptype)) left with
  | none => simp only [Option.map_none, wind2_value]; rfl
  | some r => simp only [Option.map_some, wind2_value]; rfl

theorem recalcX_value (fr : FillRule) (x : Dbl) (hx : x ≠ .nan) (done rest : List (Edge Dbl)) (hr : ∀ e ∈ rest, e.currX ≠ .nan) :
    (recalcX fr x done rest).1.map edgeValue = (recalcX fr x.value (done.map edgeValue) (rest.map edgeValue)).1 ∧
      (recalcX fr x done rest).2.map edgeValue = (recalcX fr x.value (done.map edgeValue) (rest.map edgeValue)).2 ∧
      (recalcX fr x done rest).2.Sublist rest := by
  induction rest generalizing done with
  | nil => exact ⟨rfl, rfl, .refl _⟩
  | cons e rest ih =>
    have he := hr e (by simp)
    have ih := fun d => ih d (fun a ha => hr a (by simp [ha]))
    rw [List.map_cons]
    unfold recalcX
    show _ = (if e.currX.value <. x.value then _ else if x.value <. e.currX.value then _ else _ : List (Edge EReal) × List (Edge EReal)).1 ∧
      _ = (if e.currX.value <. x.value then _ else if x.value <. e.currX.value then _ else _ : List (Edge EReal) × List (Edge EReal)).2 ∧ _
    rw [Dbl.value_lt he hx, Dbl.value_lt hx he]
    split
    · obtain ⟨h1, h2, h3⟩ := ih (done ++ [e])
      rw [List.map_append] at h1 h2
      exact ⟨h1, h2, h3.cons e⟩
    · split
      · exact ⟨rfl, rfl, .refl _⟩
      · obtain ⟨h1, h2, h3⟩ := ih (done ++ [calcWind fr done { e with bound := none }])
        rw [List.map_append, List.map_singleton, calcWind_value] at h1 h2
        exact ⟨h1, h2, h3.cons e⟩

theorem recalcGo_value (fr : FillRule) (xs : List Dbl) (hx : ∀ x ∈ xs, x ≠ .nan) (done rest : List (Edge Dbl)) (hr : ∀ e ∈ rest, e.currX ≠ .nan) :
    (recalcGo fr xs done rest).map edgeValue = recalcGo fr (xs.map Dbl.value) (done.map edgeValue) (rest.map edgeValue) := by
  induction xs generalizing done rest with
  | nil => simp [recalcGo]
  | cons x xs ih =>
    rw [List.map_cons]
    unfold recalcGo
    simp only
    obtain ⟨h1, h2, h3⟩ := recalcX_value fr x (hx x (by simp)) done rest hr
    rw [← h1, ← h2]
    exact ih (fun y hy => hx y (by simp [hy])) _ _ (fun e he => hr e (h3.subset he))

theorem uniqFrom_value (x : Dbl) (hx : x ≠ .nan) (l : List Dbl) (hl : ∀ z ∈ l, z ≠ .nan) :
    (uniqFrom x l).map Dbl.value = uniqFrom x.value (l.map Dbl.value) := by
  induction l generalizing x with
  | nil => rfl
  | cons a l ih =>
    have ha := hl a (by simp)
    have ih := fun x hx => ih x hx (fun z hz => hl z (by simp [hz]))
    rw [List.map_cons]
    unfold uniqFrom
    rw [Dbl.value_eq hx ha]
    split
    · exact ih x hx
    · rw [List.map_cons, ih a ha]

theorem sortNum_value (l : List Dbl) (hl : ∀ z ∈ l, z ≠ .nan) :
    (sortNum l).map Dbl.value = sortNum (l.map Dbl.value) ∧ ∀ z ∈ sortNum l, z ≠ .nan := by
  induction l with
  | nil => exact ⟨rfl, by simp [sortNum]⟩
  | cons a l ih =>
    obtain ⟨h1, h2⟩ := ih (fun z hz => hl z (by simp [hz]))
    obtain ⟨h3, h4⟩ := insertNum_value a (hl a (by simp)) (sortNum l) h2
    refine ⟨?_, h4⟩
    show (insertNum a (sortNum l)).map Dbl.value = _
    rw [h3, h1]
    rfl

theorem changes_value (l : List Dbl) (hl : ∀ z ∈ l, z ≠ .nan) :
    (uniqNum (sortNum l)).map Dbl.value = uniqNum (sortNum (l.map Dbl.value)) ∧ ∀ z ∈ uniqNum (sortNum l), z ≠ .nan := by
  obtain ⟨h1, h2⟩ := sortNum_value l hl
  refine ⟨?_, fun z hz => hl z (changes_mem l z hz)⟩
  rw [← h1]
  cases h : sortNum l with
  | nil => rfl
  | cons a l' =>
    rw [h] at h2
    show a.value :: (uniqFrom a l').map Dbl.value = _
    rw [uniqFrom_value a (h2 a (by simp)) l' (fun z hz => h2 z (by simp [hz]))]
    rfl

theorem calcWind_plain' (fr : FillRule) (left : List (Edge Dbl)) (e : Edge Dbl) : (calcWind fr left e).plain = e.plain := by
  unfold calcWind
  split <;> rfl

theorem recalcX_plain_dbl (fr : FillRule) (x : Dbl) (done rest : List (Edge Dbl)) :
    ((recalcX fr x done rest).1 ++ (recalcX fr x done rest).2).map Edge.plain = (done ++ rest).map Edge.plain := by
  induction rest generalizing done with
  | nil => rfl
  | cons e rest ih =>
    unfold recalcX
    split
    · rw [ih]; simp
    · split
      · rfl
      · rw [ih]
        simp only [List.map_append, List.map_cons, List.map_nil, calcWind_plain', List.append_assoc, List.singleton_append]
        rfl

theorem recalcGo_plain_dbl (fr : FillRule) (xs : List Dbl) (done rest : List (Edge Dbl)) :
    (recalcGo fr xs done rest).map Edge.plain = (done ++ rest).map Edge.plain := by
  induction xs generalizing done rest with
  | nil => rfl
  | cons x xs ih =>
    unfold recalcGo
    simp only
    rw [ih, recalcX_plain_dbl]

/-- **C34** for doubles: if every edge whose abscissa is not among the recorded changes carries the right counts, then after
`recalc_windcnt` all edges do, and nothing but the counts and the attached output bounds has changed. -/
theorem recalc_windcnt_doubles (fr : FillRule) (changes : List Dbl) (hc : ∀ x ∈ changes, x ≠ .nan) (ael : List (Edge Dbl)) (hd : DirsOk ael)
    (hs : AelValues ael)
    (hok : ∀ pre e post, ael = pre ++ e :: post → (∀ x ∈ changes, x.value ≠ e.currX.value) → CountsOk fr pre e) :
    AllCountsOk fr (recalcGo fr (uniqNum (sortNum changes)) [] ael) ∧
      (recalcGo fr (uniqNum (sortNum changes)) [] ael).map Edge.plain = ael.map Edge.plain := by
  obtain ⟨h1, h2⟩ := changes_value changes hc
  refine ⟨?_, recalcGo_plain_dbl fr _ [] ael⟩
  rw [← allCountsOk_value, recalcGo_value fr _ h2 [] ael hs.1, h1]
  refine (recalc_windcnt_ok fr (changes.map Dbl.value) (ael.map edgeValue) ?_ ?_ ?_).1
  · intro e he
    obtain ⟨e', he', rfl⟩ := List.mem_map.1 he
    exact hd e' he'
  · rw [List.pairwise_map]; exact hs.2
  · intro pre e post he hn
    obtain ⟨pre', l2, rfl, rfl, h3⟩ := List.map_eq_append_iff.1 he
    obtain ⟨e', post', rfl, rfl, rfl⟩ := List.map_eq_cons_iff.1 h3
    rw [countsOk_value]
    refine hok pre' e' post' rfl ?_
    intro x hx hxe
    exact hn (List.mem_map.2 ⟨x, hx, hxe⟩)

/-- **C36** for doubles: the points of a scan line at abscissa `x` belong to the result exactly when an odd number of output edges
lies to the left of `x`. -/
theorem inside_at_doubles (ct : ClipType) (fr : FillRule) (ael : List (Edge Dbl)) (x : Dbl) (hx : x ≠ .nan) (hd : DirsOk ael)
    (hok : AllCountsOk fr ael) (hs : AelValues ael) :
    inResult ct fr (ael.filter (fun e => e.currX <. x)) ↔ Odd (ael.countP (fun e => (e.currX <. x) && isContributing ct fr e)) := by
  have h := inside_at_iff_odd ct fr (ael.map edgeValue) x.value (by
    intro e he
    obtain ⟨e', he', rfl⟩ := List.mem_map.1 he
    exact hd e' he') ((allCountsOk_value fr ael).2 hok) (by rw [List.pairwise_map]; exact hs.2)
  have hp : ∀ e ∈ ael, (decide ((edgeValue e).currX < x.value)) = (e.currX <. x) := by
    intro e he
    rw [Dbl.value_lt (hs.1 e he) hx, lt_eq_decide]
    rfl
  have h1 : (ael.map edgeValue).filter (fun e => decide (e.currX < x.value)) = (ael.filter (fun e => e.currX <. x)).map edgeValue := by
    rw [List.filter_map]
    congr 1
    exact List.filter_congr hp
  have h2 : (ael.map edgeValue).countP (fun e => decide (e.currX < x.value) && isContributing ct fr e) =
      ael.countP (fun e => (e.currX <. x) && isContributing ct fr e) := by
    rw [List.countP_map]
    refine List.countP_congr ?_
    intro e he
    show (decide ((edgeValue e).currX < x.value) && isContributing ct fr e) = true ↔ _
    rw [hp e he]
  rw [h1, h2] at h
  rw [← h]
  unfold inResult
  simp only [wn_value]

/-! ## the active edge list again -/

theorem takeAt_value (x : Dbl) (hx : x ≠ .nan) (l : List (Edge Dbl)) (hl : ∀ e ∈ l, e.currX ≠ .nan) :
    (takeAt x l).1.map edgeValue = (takeAt x.value (l.map edgeValue)).1 ∧ (takeAt x l).2.2.map edgeValue = (takeAt x.value (l.map edgeValue)).2.2 := by
  induction l with
  | nil => exact ⟨rfl, rfl⟩
  | cons e l ih =>
    have he := hl e (by simp)
    obtain ⟨h1, h2⟩ := ih (fun a ha => hl a (by simp [ha]))
    rw [List.map_cons, takeAt, takeAt]
    have e1 : (e.currX ==. x) = ((edgeValue e).currX ==. x.value) := Dbl.value_eq he hx
    have e2 : (x <. e.currX) = (x.value <. (edgeValue e).currX) := Dbl.value_lt hx he
    rw [e1, e2]
    split
    · exact ⟨h1, h2⟩
    · split
      · exact ⟨rfl, rfl⟩
      · exact ⟨by rw [List.map_cons, h1], h2⟩

theorem takeAll_value (xs : List Dbl) (hx : ∀ x ∈ xs, x ≠ .nan) (l : List (Edge Dbl)) (hl : ∀ e ∈ l, e.currX ≠ .nan) :
    (takeAll xs l).1.map edgeValue = (takeAll (xs.map Dbl.value) (l.map edgeValue)).1 := by
  induction xs generalizing l with
  | nil => rfl
  | cons x xs ih =>
    obtain ⟨h1, h2⟩ := takeAt_value x (hx x (by simp)) l hl
    have hsub := (takeAt_doubles x l).2.1
    rw [List.map_cons]
    simp only [takeAll]
    rw [List.map_append, h1, ih (fun y hy => hx y (by simp [hy])) _ (fun e he => hl e (hsub.subset (by simp [he]))), h2]

/-- **C32** for doubles, `resort_ael`: the active edge list stays ordered, and no edge is lost or added; exactly the edges at recorded
abscissas are inserted anew. -/
theorem resortAel_doubles (rings : List (Ring Dbl)) (st : St Dbl) (hs : AelValues st.ael) (hc : ∀ x ∈ st.changes, x ≠ .nan) :
    AelValues (resortAel rings st).ael ∧
      ∃ kept taken, (kept ++ taken).Perm st.ael ∧ kept.Sublist st.ael ∧
        (∀ e ∈ taken, ∃ x ∈ st.changes, e.currX.value = x.value) ∧ (∀ e ∈ kept, ∀ x ∈ st.changes, e.currX.value ≠ x.value) ∧
        (resortAel rings st).ael.Perm (kept ++ taken.map (fun e => { e with bound := none })) := by
  obtain ⟨h1, h2, h3⟩ := takeAll_doubles (uniqNum (sortNum st.changes)) st.ael
  obtain ⟨g1, g2⟩ := foldl_insert_doubles rings (takeAll (uniqNum (sortNum st.changes)) st.ael).2 (takeAll (uniqNum (sortNum st.changes)) st.ael).1
    ⟨fun e he => hs.1 e (h2.subset he), hs.2.sublist h2⟩ (fun e he => hs.1 e (h1.subset (by simp [he])))
  refine ⟨g1, _, _, h1, h2, ?_, ?_, g2⟩
  · intro e he
    obtain ⟨x, hx, h⟩ := h3 e he
    rw [Dbl.value_eq (hs.1 e (h1.subset (by simp [he]))) (hc x (changes_mem _ x hx)), eq_eq_decide, decide_eq_true_eq] at h
    exact ⟨x, changes_mem _ x hx, h⟩
  · intro e he x hx hxe
    obtain ⟨c1, c2⟩ := changes_value st.changes hc
    have hk := takeAll_value (uniqNum (sortNum st.changes)) c2 st.ael hs.1
    rw [c1] at hk
    obtain ⟨u1, u2⟩ := uniqNum_spec (sortNum (st.changes.map Dbl.value)) (sortNum_sorted _)
    refine takeAll_kept (uniqNum (sortNum (st.changes.map Dbl.value))) (st.ael.map edgeValue) u2 ?_ (edgeValue e) ?_ ?_
    · unfold AelSorted
      rw [List.pairwise_map]; exact hs.2
    · rw [← hk]
      exact List.mem_map.2 ⟨e, he, rfl⟩
    · rw [u1, (sortNum_perm _).mem_iff]
      exact List.mem_map.2 ⟨x, hx, hxe.symm⟩

/-! ## concrete cases -/

namespace IeeeDemo

/-- A number and its sign (zero has two). -/
def n (s : Bool) (m : ℚ) : Dbl := .num s m

theorem fin (s : Bool) (m : ℚ) (h0 : 0 ≤ m) (h1 : m ≤ 8) : (n s m).WithinMax :=
  ⟨s, m, rfl, h0, h1.trans (by decide +kernel)⟩

/-- C08. -/
example : (Rect.of [⟨n false 1, n true 0⟩, ⟨n true 2, n false 3⟩]) = ⟨⟨n true 2, n true 0⟩, ⟨n false 1, n false 3⟩⟩ ∧
    (Rect.of [⟨n false 1, n true 0⟩, ⟨n true 2, n false 3⟩]).value.IsBBox [(⟨n false 1, n true 0⟩ : Vec2 Dbl).value, (⟨n true 2, n false 3⟩ : Vec2 Dbl).value] := by
  refine ⟨by decide +kernel, (rect_from_doubles _ (by simp) ?_).2⟩
  intro p hp
  simp only [List.mem_cons, List.not_mem_nil, or_false] at hp
  rcases hp with rfl | rfl <;> exact ⟨fin _ _ (by norm_num) (by norm_num), fin _ _ (by norm_num) (by norm_num)⟩

/-- C09: a box that reaches to infinity; the two share a side, written with two zeros. -/
def left : Rect Dbl := ⟨⟨.inf true, n true 1⟩, ⟨n true 0, n false 1⟩⟩
/-- The other box. -/
def right : Rect Dbl := ⟨⟨n false 0, n true 2⟩, ⟨n false 3, n false 2⟩⟩

theorem nanFree : left.NotNan ∧ right.NotNan := by
  refine ⟨⟨⟨?_, ?_⟩, ⟨?_, ?_⟩⟩, ⟨⟨?_, ?_⟩, ⟨?_, ?_⟩⟩⟩ <;> decide +kernel

example : left.intersect right = true ∧ ∃ p : Vec2 EReal, left.value.Mem p ∧ right.value.Mem p := by
  have h : left.intersect right = true := by decide +kernel
  refine ⟨h, (intersect_doubles left right nanFree.1 nanFree.2 ⟨?_, ?_⟩ ⟨?_, ?_⟩).1 h⟩
  all_goals
    simp only [left, right, Rect.value, Vec2.value, n, Dbl.value, Dbl.val]
    first
    | exact bot_le
    | (rw [EReal.coe_le_coe_iff]; norm_num)

/-- C26. -/
example : scanProcess id [left, right] left = [(0, 1)] ∧ (∀ b ∈ [left, right], b.NotNan) := by
  refine ⟨by decide +kernel, ?_⟩
  intro b hb
  simp only [List.mem_cons, List.not_mem_nil, or_false] at hb
  rcases hb with rfl | rfl
  · exact nanFree.1
  · exact nanFree.2

/-- C28: a triangle with a flat bottom, written with two zeros. -/
example : ((insertVertexList (⟨⟨n false 0, n true 0⟩, [.line ⟨n false 4, n false 0⟩, .line ⟨n false 2, n false 3⟩, .line ⟨n false 0, n true 0⟩]⟩ : Contour Dbl)
    .subject).map (fun r => r.nodes.map (fun v => (v.y, v.lmin, v.lmax)))) =
    some [(n true 0, false, false), (n false 0, true, false), (n false 3, false, true)] := by decide +kernel

/-- C31: the two zeros are one height. -/
example : ScanRun (.inf true) [n true 0, n false 0, n false 1] [[n false 2], [], []] [n true 0, n false 1, n false 2] := by
  refine .visit (q' := [n false 1]) (by decide +kernel) (.visit (q' := [n false 2]) (by decide +kernel) (.visit (q' := []) (by decide +kernel) (.stop (by decide +kernel))))

/-- An edge at the given abscissa. -/
def edge (i : Nat) (x : Dbl) : Edge Dbl :=
  { eid := i, bot := ⟨x, n false 0⟩, top := ⟨x, n false 1⟩, currX := x, windDx := 1, ring := 0, vtop := 0, ptype := .subject }

/-- C32: an ordered active edge list with an edge at minus infinity, and a newcomer. -/
example : AelValues [edge 0 (.inf true), edge 1 (n false 0), edge 2 (n false 4)] ∧
    (insertAel (validOrder []) (edge 3 (n false 1)) [edge 0 (.inf true), edge 1 (n false 0), edge 2 (n false 4)]).map (·.eid) = [0, 1, 3, 2] := by
  refine ⟨⟨?_, ?_⟩, by decide +kernel⟩
  · intro e he
    simp only [List.mem_cons, List.not_mem_nil, or_false] at he
    rcases he with rfl | rfl | rfl <;> decide +kernel
  · simp only [List.pairwise_cons, List.mem_cons, List.not_mem_nil, or_false, forall_eq_or_imp, forall_eq, List.Pairwise.nil, and_true]
    simp only [edge, n, Dbl.value, Dbl.val]
    refine ⟨⟨bot_le, bot_le⟩, ?_, by simp⟩
    rw [EReal.coe_le_coe_iff]; norm_num

/-- C34: three edges, all of them to be counted anew; the change is recorded with the other zero. -/
example : DirsOk [edge 0 (n true 1), edge 1 (n false 0), edge 2 (n false 4)] ∧
    (recalcGo .nonZero (uniqNum (sortNum [n false 4, n true 0, n true 1, n false 0])) [] [edge 0 (n true 1), edge 1 (n false 0), edge 2 (n false 4)]).map
      (fun e => (e.windCnt, e.windCnt2)) = [(1, 0), (2, 0), (3, 0)] := by
  refine ⟨?_, by decide +kernel⟩
  intro e he
  simp only [List.mem_cons, List.not_mem_nil, or_false] at he
  rcases he with rfl | rfl | rfl <;> exact .inl rfl

end IeeeDemo

end River
