import Verif.Lemmas.Order
import Verif.Props.Result

/-! # C57: the region enclosed by the output is the result -/

namespace River
variable {K : Type}

/-- A drawing callback as a side. -/
def Event.side (e : Event K) : Side K :=
  ⟨0, 0, e.source, (match e.cmd with
    | .moveto t => .line t
    | .lineto t => .line t
    | .cubicto c1 c2 t => .cubic c1 c2 t), .subject⟩

variable [FTrans K] [LinearOrder K] [Absc K]

/-- The winding number at the point `(X, y)` of the curves drawn by a sequence of callbacks: the curves crossing the ray that
leads from the point to the left, counted `+1` if they lead down, `-1` if they lead up. -/
def windingAt (es : List (Event K)) (X y : K) : Int :=
  ((((drawn es).map Event.side).filter (fun s => decide (s.Above y ∧ s.x y < X))).map Side.dx).sum

/-- The point `(X, y)` belongs to the result of the operation on the contours. -/
def PointIn (rings : List (Ring K)) (ct : ClipType) (fr : FillRule) (X y : K) : Prop :=
  inResultS ct fr ((sides rings).filter (fun s => decide (s.Above y ∧ s.x y < X)))

omit [FTrans K] [LinearOrder K] [Absc K] in
theorem event_side (s : Side K) : s.event.side = ⟨0, 0, s.frm, s.seg, .subject⟩ := by
  obtain ⟨r, i, f, g, p⟩ := s
  cases g <;> rfl

open Classical in
/-- Curves that are an outline of the result wind around exactly the result. -/
theorem boundary_region [LawfulOrd K] {rings : List (Ring K)} (A : Arranged rings) {ct : ClipType} {fr : FillRule} {σ : Int} (hσ : σ = 1 ∨ σ = -1)
    {B : List (Side K)} (O : Outline rings ct fr σ B) {es : List (Event K)} {H : List (Vec2 K × Seg K)} (hH : ∀ p ∈ H, ∃ y, Level y p)
    (h : (drawn es).Perm (B.map Side.event ++ H.map pieceEvent)) (X y : K) :
    windingAt es X y = if PointIn rings ct fr X y then σ else 0 := by
  rw [PointIn, ← A.winding hσ O y X, windingAt]
  have p := (((h.map Event.side).filter (fun s => decide (s.Above y ∧ s.x y < X))).map Side.dx).sum_eq
  have hz : ((H.map pieceEvent).map Event.side).filter (fun s => decide (s.Above y ∧ s.x y < X)) = [] := by
    rw [List.filter_eq_nil_iff]
    intro s hs
    rw [List.map_map] at hs
    obtain ⟨q, hq, rfl⟩ := List.mem_map.1 hs
    obtain ⟨y0, a, b, _, rfl⟩ := hH q hq
    rw [decide_eq_true_eq]
    rintro ⟨h1, _⟩
    exact h1.steep rfl
  rw [p, List.map_append, List.filter_append, hz, List.append_nil, List.map_map, List.filter_map, List.map_map]
  have hd : ∀ s : Side K, (s.event.side).dx = s.dx ∧ ((s.event.side).Above y ↔ s.Above y) ∧ (s.event.side).x y = s.x y := by
    intro s; rw [event_side]; exact ⟨rfl, Iff.rfl, rfl⟩
  have e1 : B.filter ((fun s : Side K => decide (s.Above y ∧ s.x y < X)) ∘ (Event.side ∘ Side.event)) =
      B.filter (fun s => decide (s.Above y ∧ s.x y < X)) := by
    refine List.filter_congr (fun s _ => ?_)
    simp only [Function.comp, (hd s).2.1, (hd s).2.2]
  rw [e1]
  congr 1
  refine List.map_congr_left (fun s _ => ?_)
  exact (hd s).1

open Classical in
/-- **C57.** Under the hypotheses of C56: at every point, the winding number of the curves delivered is `σ` if the point
belongs to the result of the operation, and `0` otherwise. So reading the output with the nonzero, the even-odd or (for
`σ = 1`) the positive rule gives exactly the result. -/
theorem process_region [LawfulOrd K] {rings : List (Ring K)} (env : Env K) (hok : env.Ok) (msort : List (LocMin K) → List (LocMin K)) (hm : MinSort msort) (c : Clipper K)
    (hc : c.Reach env) (hnew : c.out.polys = []) (hp : processIntersect env c.rings = some rings) (A : Arranged rings)
    (ct : ClipType) (fr : FillRule) (σ : Int) (hσ : σ = 1 ∨ σ = -1) (D : Directed rings ct fr σ) :
    ∃ n, ∀ fuel, n ≤ fuel → ∃ (c' : Clipper K) (es : List (Event K)),
      c.process env msort fuel ct fr Path.recorder [] = some (some (c', es)) ∧
      ∀ X y, windingAt es X y = if PointIn rings ct fr X y then σ else 0 := by
  obtain ⟨n, hn⟩ := process_boundary env hok msort hm c hc hnew hp A ct fr σ hσ D
  refine ⟨n, fun fuel hf => ?_⟩
  obtain ⟨c', es, h1, _, B, H, hB, h3, h4⟩ := hn fuel hf
  exact ⟨c', es.flatten, h1, fun X y => boundary_region A hσ hB (fun p hp => h3.level p (Multiset.mem_coe.2 hp)) h4 X y⟩

end River
