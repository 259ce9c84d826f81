import Verif.Spec.Reader
import Verif.Props.Intake

/-! # C65: paths added through a reader of the user

Level: any arithmetic. -/

namespace River
variable {K : Type} [FTrans K]

theorem readCall_event (pt : PathType) (d : Intake K) (e : Event K) : readCall pt d e.call = Path.deliver (intakeFuncs pt) (some d) e := by
  obtain ⟨f, c⟩ := e
  cases c <;> rfl

theorem deliver_none' (pt : PathType) (es : List (Event K)) : es.foldl (Path.deliver (intakeFuncs pt)) none = none := by
  induction es with
  | nil => rfl
  | cons e es ih =>
    obtain ⟨f, c⟩ := e
    cases c <;> exact ih

theorem foldlM_event (pt : PathType) (es : List (Event K)) (d : Intake K) :
    (es.map Event.call).foldlM (readCall pt) d = es.foldl (Path.deliver (intakeFuncs pt)) (some d) := by
  induction es generalizing d with
  | nil => rfl
  | cons e es ih =>
    rw [List.map_cons, List.foldlM_cons, List.foldl_cons, readCall_event]
    cases h : Path.deliver (intakeFuncs pt) (some d) e with
    | none => rw [deliver_none']; rfl
    | some d1 => exact ih d1

/-- **C65**: a reader that reports what a traversal of a path reports stores exactly what adding the path stores, undefined
behaviour included. -/
theorem addReader_path (c : Clipper K) (cs : List (Cmd K)) (pt : PathType) :
    c.addReader ((eventsFrom ⟨FNum.lit 0, FNum.lit 0⟩ cs).map Event.call) pt = c.addPath [Path.build cs] pt := by
  unfold Clipper.addReader Clipper.addPath
  rw [foldlM_event]
  have h1 : addPaths pt c.rings [Path.build cs] = addPath1 pt c.rings (Path.build cs) := by
    rw [addPaths]
    split
    · cases addPath1 pt c.rings (Path.build cs) <;> rfl
    · rename_i hs
      rw [build_small cs (Nat.le_of_not_gt hs)]
      rfl
  rw [h1, addPath1, Path.traverse, Path.traverse_build]
  simp only [Option.map_some]
  cases (eventsFrom ⟨FNum.lit 0, FNum.lit 0⟩ cs).foldl (Path.deliver (intakeFuncs pt)) (some (⟨c.rings, none⟩ : Intake K)) <;> rfl

/-- What a drawing call does. -/
theorem readCall_segs (pt : PathType) (x : ReadCall K) (hb : x.begins = false) (ha : x ≠ .arc) (d : Intake K) :
    readCall pt d x = x.segs.foldlM Intake.append d := by
  cases x with
  | move _ _ => simp [ReadCall.begins] at hb
  | arc => exact absurd rfl ha
  | line a b =>
    simp only [readCall, readLineto, ReadCall.segs, cmdEdges]
    split <;> simp
  | cubic a c1 c2 b =>
    simp only [readCall, readCubicto, ReadCall.segs, cmdEdges]
    split
    · simp only [readLineto]
      split <;> simp
    · rw [cubicSegs_eq]

theorem append_nothing (l : List (Seg K)) (d : Intake K) (h : d.cur = none) :
    l.foldlM Intake.append d = if l = [] then some d else none := by
  cases l with
  | nil => rfl
  | cons s l => simp [Intake.append, h]

theorem calls_body (pt : PathType) (l : List (ReadCall K)) (hl : Draws l) (rings : List (Ring K)) (c : Contour K) :
    l.foldlM (readCall pt) (⟨rings, some c⟩ : Intake K) = some ⟨rings, some { c with segs := c.segs ++ l.flatMap ReadCall.segs }⟩ := by
  induction l generalizing c with
  | nil => simp
  | cons x l ih =>
    obtain ⟨h1, h2⟩ := hl x List.mem_cons_self
    rw [List.foldlM_cons, readCall_segs pt x h1 h2, foldlM_append]
    simp only [Option.bind_eq_bind, Option.bind_some]
    rw [ih (fun y hy => hl y (List.mem_cons_of_mem _ hy))]
    simp

theorem calls_contours (pt : PathType) (ds : List (Reported K)) (hd : ∀ r ∈ ds, Draws r.body) (d0 : Intake K) :
    ∃ d1, (ds.flatMap Reported.calls).foldlM (readCall pt) d0 = some d1 ∧
      (d1.finish pt).rings = (d0.finish pt).rings ++ ds.filterMap (fun r => insertVertexList ⟨r.start, r.body.flatMap ReadCall.segs⟩ pt) := by
  induction ds generalizing d0 with
  | nil => exact ⟨d0, rfl, by simp⟩
  | cons r ds ih =>
    rw [List.flatMap_cons, List.foldlM_append]
    have h1 : r.calls.foldlM (readCall pt) d0 = some ⟨(d0.finish pt).rings, some ⟨r.start, r.body.flatMap ReadCall.segs⟩⟩ := by
      rw [Reported.calls, List.foldlM_cons]
      simp only [readCall, readMoveto, Option.bind_eq_bind, Option.bind_some]
      rw [calls_body pt r.body (hd r List.mem_cons_self)]
      simp
    rw [h1]
    simp only [Option.bind_eq_bind, Option.bind_some]
    obtain ⟨d1, h2, h3⟩ := ih (fun x hx => hd x (List.mem_cons_of_mem _ hx)) ⟨(d0.finish pt).rings, some ⟨r.start, r.body.flatMap ReadCall.segs⟩⟩
    refine ⟨d1, h2, ?_⟩
    rw [h3]
    simp only [Intake.finish, List.filterMap_cons]
    cases insertVertexList (⟨r.start, r.body.flatMap ReadCall.segs⟩ : Contour K) pt with
    | none => simp
    | some r => simp

theorem calls_before (pt : PathType) (l : List (ReadCall K)) (hl : Draws l) (d : Intake K) (h : d.cur = none) :
    l.foldlM (readCall pt) d = if ∀ x ∈ l, x.segs = [] then some d else none := by
  induction l with
  | nil => simp
  | cons x l ih =>
    obtain ⟨h1, h2⟩ := hl x List.mem_cons_self
    rw [List.foldlM_cons, readCall_segs pt x h1 h2, append_nothing _ d h]
    by_cases hx : x.segs = []
    · rw [if_pos hx]
      simp only [Option.bind_eq_bind, Option.bind_some]
      rw [ih (fun y hy => hl y (List.mem_cons_of_mem _ hy))]
      simp [hx]
    · rw [if_neg hx, if_neg (fun hc => hx (hc x List.mem_cons_self))]
      rfl

/-- **C65**: the contours a reader reports are stored one after the other. Whatever the calls say about where a line or curve
begins, that point is not stored: it only decides whether a line is dropped and where a curve is cut. -/
theorem addReader_spec (c : Clipper K) (pt : PathType) (pre : List (ReadCall K)) (hp : Draws pre) (hn : ∀ x ∈ pre, x.segs = [])
    (ds : List (Reported K)) (hd : ∀ r ∈ ds, Draws r.body) :
    c.addReader (pre ++ ds.flatMap Reported.calls) pt =
      some { c with rings := c.rings ++ ds.filterMap (fun r => insertVertexList ⟨r.start, r.body.flatMap ReadCall.segs⟩ pt) } := by
  unfold Clipper.addReader
  rw [List.foldlM_append, calls_before pt pre hp _ rfl, if_pos hn]
  obtain ⟨d1, h1, h2⟩ := calls_contours pt ds hd ⟨c.rings, none⟩
  simp only [Option.bind_eq_bind, Option.bind_some]
  rw [h1, Option.map_some, h2]
  rfl

/-- Any calls are some before the first contour and the calls of the contours. -/
theorem calls_split (l : List (ReadCall K)) : ∃ (pre : List (ReadCall K)) (ds : List (Reported K)), l = pre ++ ds.flatMap Reported.calls ∧
    pre = l.takeWhile (fun x => !x.begins) ∧ (∀ x ∈ pre, x.begins = false) ∧ ∀ r ∈ ds, ∀ x ∈ r.body, x.begins = false := by
  induction l with
  | nil => exact ⟨[], [], rfl, rfl, by simp, by simp⟩
  | cons x l ih =>
    obtain ⟨pre, ds, h1, h2, h3, h4⟩ := ih
    cases hx : x.begins with
    | false =>
      refine ⟨x :: pre, ds, by rw [h1]; rfl, ?_, ?_, h4⟩
      · rw [List.takeWhile_cons, hx, h2]; rfl
      · intro y hy
        rcases List.mem_cons.1 hy with rfl | hy
        · exact hx
        · exact h3 y hy
    | true =>
      cases x with
      | move a b =>
        refine ⟨[], ⟨a, b, pre⟩ :: ds, by rw [h1]; simp [Reported.calls], by rw [List.takeWhile_cons, hx]; rfl, by simp, ?_⟩
        intro r hr
        rcases List.mem_cons.1 hr with rfl | hr
        · exact h3
        · exact h4 r hr
      | line _ _ => cases hx
      | cubic _ _ _ _ => cases hx
      | arc => cases hx

theorem arc_undefined (pt : PathType) (l : List (ReadCall K)) (h : ReadCall.arc ∈ l) (d : Intake K) : l.foldlM (readCall pt) d = none := by
  induction l generalizing d with
  | nil => cases h
  | cons x l ih =>
    rw [List.foldlM_cons]
    rcases List.mem_cons.1 h with rfl | h
    · rfl
    · cases readCall pt d x with
      | none => rfl
      | some d1 => exact ih h d1

/-- **C65**: adding through a reader is undefined exactly if the reader asks for an arc or draws something before it has begun
a contour. -/
theorem addReader_undefined_iff (c : Clipper K) (calls : List (ReadCall K)) (pt : PathType) :
    c.addReader calls pt = none ↔ .arc ∈ calls ∨ ∃ x ∈ calls.takeWhile (fun x => !x.begins), x.segs ≠ [] := by
  by_cases ha : ReadCall.arc ∈ calls
  · simp only [ha, true_or, iff_true]
    rw [Clipper.addReader, arc_undefined pt calls ha]; rfl
  · obtain ⟨pre, ds, h1, h2, h3, h4⟩ := calls_split calls
    have hp : Draws pre := fun x hx => ⟨h3 x hx, fun e => ha (by rw [h1, ← e]; exact List.mem_append_left _ hx)⟩
    have hd : ∀ r ∈ ds, Draws r.body := fun r hr x hx => ⟨h4 r hr x hx, fun e => ha (by
      rw [h1, ← e]
      exact List.mem_append_right _ (List.mem_flatMap.2 ⟨r, hr, List.mem_cons_of_mem _ hx⟩))⟩
    rw [← h2]
    simp only [ha, false_or]
    by_cases hn : ∀ x ∈ pre, x.segs = []
    · rw [h1, addReader_spec c pt pre hp hn ds hd]
      simp only [reduceCtorEq, ne_eq, false_iff, not_exists, not_and, not_not]
      exact hn
    · rw [h1, Clipper.addReader, List.foldlM_append, calls_before pt pre hp _ rfl, if_neg hn]
      push Not at hn
      simpa using hn

/-! ## Concrete cases -/

/-- A point of the examples. -/
private def q (x y : Int) : Vec2 ℚ := ⟨x, y⟩

/-- A square reported by a reader. -/
theorem square_read : (Clipper.new (K := ℚ)).addReader
      [.move (q 9 9) (q 0 0), .line (q 0 0) (q 4 0), .line (q 4 0) (q 4 4), .line (q 4 4) (q 0 4)] .clip =
    (Clipper.new (K := ℚ)).addPath [Path.build [.moveto (q 0 0), .lineto (q 4 0), .lineto (q 4 4), .lineto (q 0 4)]] .clip := by
  decide +kernel

/-- **C65**: a reader that reports a wrong beginning can lose a corner: a square becomes a triangle. -/
theorem reader_wrong_from : ∃ r : Ring ℚ, (Clipper.new (K := ℚ)).addReader
      [.move (q 0 0) (q 0 0), .line (q 0 0) (q 4 0), .line (q 4 4) (q 4 4), .line (q 4 4) (q 0 4)] .clip = some ⟨[r], ⟨[], [], none⟩, [], []⟩ ∧
    r.nodes.map (fun v => v.pt) = [q 0 0, q 4 0, q 0 4] := ⟨_, rfl, by decide +kernel⟩

/-- **C65**: drawing before a contour has begun. -/
theorem reader_no_move : (Clipper.new (K := ℚ)).addReader [.line (q 0 0) (q 4 0)] .clip = none := by decide +kernel

end River
