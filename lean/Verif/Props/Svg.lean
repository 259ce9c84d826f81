import Verif.Spec.Svg
import Verif.Props.Output
import Verif.Props.Intake
import Verif.Props.Rect

/-! # C81: the drawing of the test program

Level: any arithmetic, unless stated. -/

namespace River

section
variable {K : Type} [FNum K]

/-- What a drawing state holds after these contours. -/
structure Svg.Holds (s : Svg K) (L : List (SvgKind × Drawn K)) : Prop where
  paths : s.paths = closeOff (L.map (fun x => x.2.text))
  types : s.types = L.map Prod.fst
  rect : s.rect = Rect.of (L.flatMap (fun x => x.2.points))
  nodes : s.nodes = (L.filter (fun x => x.1 = .output)).flatMap (fun x => x.2.points)
  hints : s.hints = (L.filter (fun x => x.1 = .output)).flatMap (fun x => x.2.handles)

theorem Svg.new_holds (k : SvgKind) : ({ Svg.new with cur := k } : Svg K).Holds [] := ⟨rfl, rfl, rfl, rfl, rfl⟩

omit [FNum K] in
theorem closeOff_append (l : List (List (SvgTok K))) (a : List (SvgTok K)) : closeOff (l ++ [a]) = l.map (· ++ [.z]) ++ [a] := by
  induction l with
  | nil => rfl
  | cons b l ih =>
    cases l with
    | nil => rfl
    | cons c l =>
      rw [List.cons_append, List.cons_append, closeOff, ← List.cons_append, ih]
      rfl

omit [FNum K] in
theorem appendBack_snoc (l : List (List (SvgTok K))) (a : List (SvgTok K)) (t : SvgTok K) : appendBack (l ++ [a]) t = some (l ++ [a ++ [t]]) := by
  simp [appendBack]

theorem updateRect_eq (s : Svg K) (p : Vec2 K) : s.updateRect p = { s with rect := s.rect.extend p } := rfl

theorem mark_eq (s : Svg K) (p : Vec2 K) : s.mark p = { s with nodes := s.nodes ++ if s.cur = .output then [p] else [] } := by
  unfold Svg.mark
  split <;> simp

theorem rectOf_snoc (l m : List (Vec2 K)) : Rect.of (l ++ m) = m.foldl Rect.extend (Rect.of l) := by
  unfold Rect.of; rw [List.foldl_append]

theorem svgMoveto_eq (s : Svg K) (p : Vec2 K) : svgMoveto s p = (if s.paths.isEmpty then some s.paths else appendBack s.paths .z).map (fun ps =>
    Svg.mark { s with rect := s.rect.extend p, types := s.types ++ [s.cur], paths := ps ++ [[.m p]] } p) := rfl

theorem svgMoveto_holds {s : Svg K} {L : List (SvgKind × Drawn K)} (h : s.Holds L) (p : Vec2 K) :
    ∃ s', svgMoveto s p = some s' ∧ s'.Holds (L ++ [(s.cur, ⟨p, []⟩)]) ∧ s'.cur = s.cur := by
  have hp : (if s.paths.isEmpty then some s.paths else appendBack s.paths .z) = some ((L.map (fun x => x.2.text)).map (· ++ [.z])) := by
    rw [h.paths]
    rcases List.eq_nil_or_concat L with rfl | ⟨L', x, rfl⟩
    · rfl
    · rw [List.concat_eq_append, List.map_append, List.map_singleton, closeOff_append, if_neg (by simp), appendBack_snoc]
      simp
  rw [svgMoveto_eq, hp, Option.map_some]
  refine ⟨_, rfl, ⟨?_, ?_, ?_, ?_, ?_⟩, ?_⟩
  · rw [mark_eq, List.map_append, List.map_singleton, closeOff_append]; rfl
  · rw [mark_eq, List.map_append, ← h.types]; rfl
  · rw [mark_eq, List.flatMap_append, rectOf_snoc, ← h.rect]; rfl
  · rw [mark_eq, List.filter_append, List.flatMap_append, ← h.nodes]
    dsimp only
    congr 1
    by_cases hk : s.cur = .output <;> simp [hk, Drawn.points, Drawn.cmds, Cmd.points]
  · rw [mark_eq, List.filter_append, List.flatMap_append, ← h.hints]
    dsimp only
    by_cases hk : s.cur = .output <;> simp [hk, Drawn.handles, eventsFrom]
  · rw [mark_eq]

omit [FNum K] in
theorem eventsFrom_snoc (p : Vec2 K) (l : List (Cmd K)) (c : Cmd K) :
    eventsFrom p (l ++ [c]) = eventsFrom p l ++ [⟨(l.getLast?.map Cmd.target).getD p, c⟩] := by
  induction l generalizing p with
  | nil => rfl
  | cons a l ih =>
    rw [List.cons_append, eventsFrom, ih, eventsFrom, List.cons_append, List.getLast?_cons]
    cases l.getLast? <;> rfl

/-- One more command of the contour being drawn. -/
theorem svgDraw_holds {s : Svg K} {L : List (SvgKind × Drawn K)} {a : Vec2 K} {b : List (Cmd K)} (h : s.Holds (L ++ [(s.cur, ⟨a, b⟩)])) (c : Cmd K)
    (hc : ∀ p, c ≠ .moveto p) :
    ∃ s', Path.deliver svgFuncs (some s) ⟨(b.getLast?.map Cmd.target).getD a, c⟩ = some s' ∧ s'.Holds (L ++ [(s.cur, ⟨a, b ++ [c]⟩)]) ∧ s'.cur = s.cur := by
  have ht : ∀ t, (Drawn.text (⟨a, b ++ [c]⟩ : Drawn K)) = Drawn.text ⟨a, b⟩ ++ [t] → closeOff ((L ++ [(s.cur, (⟨a, b ++ [c]⟩ : Drawn K))]).map (fun x => x.2.text)) =
      (L.map (fun x => x.2.text)).map (· ++ [.z]) ++ [Drawn.text ⟨a, b⟩ ++ [t]] := by
    intro t ht
    rw [List.map_append, List.map_singleton, closeOff_append, ht]
  have hq := h.paths
  rw [List.map_append, List.map_singleton, closeOff_append] at hq
  have hpts : Drawn.points (⟨a, b ++ [c]⟩ : Drawn K) = Drawn.points ⟨a, b⟩ ++ c.points := by
    unfold Drawn.points Drawn.cmds; simp
  have hhan : Drawn.handles (⟨a, b ++ [c]⟩ : Drawn K) = Drawn.handles ⟨a, b⟩ ++ Event.handles ⟨(b.getLast?.map Cmd.target).getD a, c⟩ := by
    unfold Drawn.handles; rw [eventsFrom_snoc, List.flatMap_append]; simp
  have hr : Rect.of ((L ++ [(s.cur, (⟨a, b ++ [c]⟩ : Drawn K))]).flatMap (fun x => x.2.points)) = c.points.foldl Rect.extend s.rect := by
    rw [h.rect, ← rectOf_snoc]; simp [hpts]
  have hn : ((L ++ [(s.cur, (⟨a, b ++ [c]⟩ : Drawn K))]).filter (fun x => x.1 = .output)).flatMap (fun x => x.2.points) =
      s.nodes ++ if s.cur = .output then c.points else [] := by
    rw [h.nodes]
    by_cases hk : s.cur = .output <;> simp [hk, hpts]
  have hh : ((L ++ [(s.cur, (⟨a, b ++ [c]⟩ : Drawn K))]).filter (fun x => x.1 = .output)).flatMap (fun x => x.2.handles) =
      s.hints ++ if s.cur = .output then Event.handles ⟨(b.getLast?.map Cmd.target).getD a, c⟩ else [] := by
    rw [h.hints]
    by_cases hk : s.cur = .output <;> simp [hk, hhan]
  have hty : s.types = (L ++ [(s.cur, (⟨a, b ++ [c]⟩ : Drawn K))]).map Prod.fst := by rw [h.types]; simp
  cases c with
  | moveto p => exact absurd rfl (hc p)
  | lineto p =>
    simp only [Path.deliver, svgFuncs, Option.bind_some, svgLineto, updateRect_eq, hq, appendBack_snoc, Option.map_some, mark_eq]
    refine ⟨_, rfl, ⟨?_, hty, ?_, ?_, ?_⟩, rfl⟩
    · rw [ht (.l p) (by simp [Drawn.text, Drawn.cmds, Cmd.svg])]
    · rw [hr]; rfl
    · rw [hn]; rfl
    · rw [hh]; simp [Event.handles]
  | cubicto c1 c2 p =>
    simp only [Path.deliver, svgFuncs, Option.bind_some, svgCubicto, updateRect_eq, hq, appendBack_snoc, Option.map_some, mark_eq]
    by_cases hk : s.cur = .output
    · simp only [hk, if_true] at hh hn ht hr hty ⊢
      refine ⟨_, rfl, ⟨?_, hty, ?_, ?_, ?_⟩, rfl⟩
      · rw [ht (.c c1 c2 p) (by simp [Drawn.text, Drawn.cmds, Cmd.svg])]
      · rw [hr]; rfl
      · rw [hn]; simp [Cmd.points]
      · rw [hh]; rfl
    · simp only [hk, if_false] at hh hn ⊢
      refine ⟨_, rfl, ⟨?_, hty, ?_, ?_, ?_⟩, rfl⟩
      · rw [ht (.c c1 c2 p) (by simp [Drawn.text, Drawn.cmds, Cmd.svg])]
      · rw [hr]; rfl
      · rw [hn]; simp
      · rw [hh]; simp

theorem svgBody_holds (m : List (Cmd K)) (hm : ∀ c ∈ m, ∀ p, c ≠ .moveto p) {s : Svg K} {L : List (SvgKind × Drawn K)} {a : Vec2 K} {b : List (Cmd K)}
    (h : s.Holds (L ++ [(s.cur, ⟨a, b⟩)])) :
    ∃ s', (eventsFrom ((b.getLast?.map Cmd.target).getD a) m).foldl (Path.deliver svgFuncs) (some s) = some s' ∧
      s'.Holds (L ++ [(s.cur, ⟨a, b ++ m⟩)]) ∧ s'.cur = s.cur := by
  induction m generalizing s b with
  | nil => exact ⟨s, rfl, by simpa using h, rfl⟩
  | cons c m ih =>
    obtain ⟨s1, e1, h1, k1⟩ := svgDraw_holds h c (hm c List.mem_cons_self)
    rw [← k1] at h1
    obtain ⟨s2, e2, h2, k2⟩ := ih (fun c hc => hm c (List.mem_cons_of_mem _ hc)) h1
    refine ⟨s2, ?_, by rw [k1] at h2; simpa using h2, k2.trans k1⟩
    rw [eventsFrom, List.foldl_cons, e1]
    have : ((b ++ [c]).getLast?.map Cmd.target).getD a = c.target := by simp
    rw [this] at e2
    exact e2

/-- A contour is drawn, wherever the pen was. -/
theorem svgContour_holds {s : Svg K} {L : List (SvgKind × Drawn K)} (h : s.Holds L) (d : Drawn K) (hd : d.Ok) (pen : Vec2 K) :
    ∃ s', (eventsFrom pen d.cmds).foldl (Path.deliver svgFuncs) (some s) = some s' ∧ s'.Holds (L ++ [(s.cur, d)]) ∧ s'.cur = s.cur := by
  obtain ⟨s1, e1, h1, k1⟩ := svgMoveto_holds h d.start
  rw [← k1] at h1
  obtain ⟨s2, e2, h2, k2⟩ := svgBody_holds d.body hd h1
  refine ⟨s2, ?_, by rw [k1] at h2; simpa using h2, k2.trans k1⟩
  rw [Drawn.cmds, eventsFrom, List.foldl_cons]
  have : Path.deliver svgFuncs (some s) ⟨pen, .moveto d.start⟩ = svgMoveto s d.start := rfl
  rw [this, e1]
  exact e2

omit [FNum K] in
theorem eventsFrom_split (p : Vec2 K) (l m : List (Cmd K)) :
    eventsFrom p (l ++ m) = eventsFrom p l ++ eventsFrom ((l.getLast?.map Cmd.target).getD p) m := by
  induction l generalizing p with
  | nil => rfl
  | cons a l ih =>
    rw [List.cons_append, eventsFrom, ih, eventsFrom, List.cons_append, List.getLast?_cons]
    cases l.getLast? <;> rfl

theorem svgPath_holds (ds : List (Drawn K)) (hd : ∀ d ∈ ds, d.Ok) {s : Svg K} {L : List (SvgKind × Drawn K)} (h : s.Holds L) (pen : Vec2 K) :
    ∃ s', (eventsFrom pen (ds.flatMap Drawn.cmds)).foldl (Path.deliver svgFuncs) (some s) = some s' ∧
      s'.Holds (L ++ ds.map (fun d => (s.cur, d))) ∧ s'.cur = s.cur := by
  induction ds generalizing s L pen with
  | nil => exact ⟨s, rfl, by simpa using h, rfl⟩
  | cons d ds ih =>
    obtain ⟨s1, e1, h1, k1⟩ := svgContour_holds h d (hd d List.mem_cons_self) pen
    obtain ⟨s2, e2, h2, k2⟩ := ih (fun d h => hd d (List.mem_cons_of_mem _ h)) h1 ((d.cmds.getLast?.map Cmd.target).getD pen)
    refine ⟨s2, ?_, by rw [k1] at h2; simpa using h2, k2.trans k1⟩
    rw [List.flatMap_cons, eventsFrom_split, List.foldl_append, e1]
    exact e2

/-- Reading paths into the drawing. -/
theorem readInput_holds (dss : List (List (Drawn K))) (hd : ∀ ds ∈ dss, ∀ d ∈ ds, d.Ok) {s : Svg K} {L : List (SvgKind × Drawn K)} (h : s.Holds L) :
    ∃ s', readInput svgFuncs (dss.map (fun ds => Path.build (ds.flatMap Drawn.cmds))) (some s) = some (some s') ∧
      s'.Holds (L ++ dss.flatten.map (fun d => (s.cur, d))) ∧ s'.cur = s.cur := by
  induction dss generalizing s L with
  | nil => exact ⟨s, rfl, by simpa using h, rfl⟩
  | cons ds dss ih =>
    obtain ⟨s1, e1, h1, k1⟩ := svgPath_holds ds (hd ds List.mem_cons_self) h ⟨FNum.lit 0, FNum.lit 0⟩
    obtain ⟨s2, e2, h2, k2⟩ := ih (fun d h => hd d (List.mem_cons_of_mem _ h)) h1
    refine ⟨s2, ?_, by rw [k1] at h2; simpa using h2, k2.trans k1⟩
    rw [readInput, List.map_cons, List.foldlM_cons, Path.traverse, Path.traverse_build, e1]
    exact e2

/-- **C81**, exactly when it is undefined: reading into a new drawing is undefined exactly if the first thing drawn is not a `move_to`. -/
theorem svg_undefined_iff (es : List (Event K)) (k : SvgKind) :
    es.foldl (Path.deliver svgFuncs) (some ({ Svg.new with cur := k } : Svg K)) = none ↔ ∃ e es', es = e :: es' ∧ ∀ p, e.cmd ≠ .moveto p := by
  have back : ∀ (ps : List (List (SvgTok K))) t, ps ≠ [] → ∃ q, appendBack ps t = some q ∧ q ≠ [] := by
    intro ps t h
    obtain ⟨l, a, rfl⟩ := (List.eq_nil_or_concat ps).resolve_left h
    rw [List.concat_eq_append]
    exact ⟨_, appendBack_snoc l a t, by simp⟩
  have cont : ∀ (es : List (Event K)) (s : Svg K), s.paths ≠ [] → es.foldl (Path.deliver svgFuncs) (some s) ≠ none := by
    intro es
    induction es with
    | nil => intro s _; simp
    | cons e es ih =>
      intro s hs
      obtain ⟨f, c⟩ := e
      rw [List.foldl_cons]
      suffices ∃ s', Path.deliver svgFuncs (some s) ⟨f, c⟩ = some s' ∧ s'.paths ≠ [] by
        obtain ⟨s', e1, e2⟩ := this
        rw [e1]; exact ih s' e2
      cases c with
      | moveto p =>
        obtain ⟨q, hq, _⟩ := back s.paths .z hs
        simp only [Path.deliver, svgFuncs, Option.bind_some, svgMoveto_eq, List.isEmpty_iff, hs, if_false, hq, Option.map_some, mark_eq]
        exact ⟨_, rfl, by simp⟩
      | lineto p =>
        obtain ⟨q, hq, hn⟩ := back s.paths (.l p) hs
        simp only [Path.deliver, svgFuncs, Option.bind_some, svgLineto, updateRect_eq, hq, Option.map_some, mark_eq]
        exact ⟨_, rfl, hn⟩
      | cubicto a b p =>
        obtain ⟨q, hq, hn⟩ := back s.paths (.c a b p) hs
        simp only [Path.deliver, svgFuncs, Option.bind_some, svgCubicto, updateRect_eq, hq, Option.map_some, mark_eq]
        split <;> exact ⟨_, rfl, hn⟩
  have stuck : ∀ es : List (Event K), es.foldl (Path.deliver svgFuncs) (none : Option (Svg K)) = none := by
    intro es
    induction es with
    | nil => rfl
    | cons e es ih =>
      obtain ⟨f, c⟩ := e
      cases c <;> exact ih
  cases es with
  | nil => simp
  | cons e es =>
    obtain ⟨f, c⟩ := e
    rw [List.foldl_cons]
    cases c with
    | moveto p =>
      refine ⟨fun h => ?_, ?_⟩
      · exfalso
        refine cont es _ ?_ h
        simp [mark_eq]
      · rintro ⟨e, es', h, hp⟩
        simp only [List.cons.injEq] at h
        rw [← h.1] at hp
        exact absurd rfl (hp p)
    | lineto p =>
      refine ⟨fun _ => ⟨_, _, rfl, fun q => by simp⟩, fun _ => ?_⟩
      exact stuck es
    | cubicto a b p =>
      refine ⟨fun _ => ⟨_, _, rfl, fun q => by simp⟩, fun _ => ?_⟩
      exact stuck es

omit [FNum K] in
theorem closeOff_length (l : List (List (SvgTok K))) : (closeOff l).length = l.length := by
  rcases List.eq_nil_or_concat l with rfl | ⟨l, a, rfl⟩
  · rfl
  · rw [List.concat_eq_append, closeOff_append]; simp

omit [FNum K] in
theorem svgFigs_zip (ps : List (List (SvgTok K))) (ts : List SvgKind) (h : ps.length = ts.length) : svgFigs ps ts = some (ps.zip ts) := by
  induction ps generalizing ts with
  | nil => cases ts <;> rfl
  | cons p ps ih =>
    cases ts with
    | nil => cases h
    | cons t ts => rw [svgFigs, ih ts (by simpa using h)]; rfl

/-- What `get_svg` writes. -/
theorem Svg.Holds.get {s : Svg K} {L : List (SvgKind × Drawn K)} (h : s.Holds L) :
    ∃ D, s.get = some D ∧ D.Shows L ∧
      D.view = ((Rect.of (L.flatMap (fun x => x.2.points))).min, (Rect.of (L.flatMap (fun x => x.2.points))).width, (Rect.of (L.flatMap (fun x => x.2.points))).height) ∧
      D.trans = (FNum.lit 1, FNum.neg (FNum.lit 1), FNum.neg ((Rect.of (L.flatMap (fun x => x.2.points))).center.y *. FNum.lit 2)) := by
  unfold Svg.get
  rw [svgFigs_zip _ _ (by rw [h.paths, h.types, closeOff_length]; simp)]
  refine ⟨_, rfl, ⟨?_, ?_, rfl, rfl, h.hints⟩, ?_, ?_⟩
  · rw [h.paths, h.types]
  · rw [← h.nodes]; rfl
  · rw [← h.rect]
  · rw [← h.rect]

end

end River
