import Verif.Model.Output
import Verif.Model.Break

/-! # The sweep (`/repo/src/src/vatti.cpp:339-428`, `705-1244`)

`none` is undefined behaviour (a null or end iterator dereferenced) or an inner loop that does not end. -/

namespace River
variable {K : Type}

/-- `struct local_minima` (`vatti.h:49-57`): the vertex by ring and position, with its point and path type. -/
structure LocMin (K : Type) where
  pt : Vec2 K
  ring : Nat
  node : Nat
  ptype : PathType
deriving DecidableEq, Repr

/-- `local_minima_list` before sorting: the flagged vertices in order of creation (`vatti.cpp:74-81`). -/
def locMins (rings : List (Ring K)) : List (LocMin K) :=
  rings.zipIdx.flatMap (fun ri => ri.1.nodes.zipIdx.filterMap (fun vi =>
    if vi.1.lmin then some ⟨vi.1.pt, ri.2, vi.2, ri.1.ptype⟩ else none))

/-- The comparison of local minima (`vatti.cpp:343-346`). -/
def LocMin.less [FNum K] (l r : LocMin K) : Bool :=
  if l.pt.y ==. r.pt.y then l.pt.x <. r.pt.x else l.pt.y <. r.pt.y

/-- The members of `clipper` that change during the sweep (`vatti.h:210-218`). `scan` is the priority queue, kept sorted;
`mins` the local minima from `cur_locmin_it` on; `nextId` numbers the edges. -/
structure St (K : Type) where
  ael : List (Edge K)
  out : Outs K
  changes : List K
  scan : List K
  mins : List (LocMin K)
  nextId : Nat
deriving DecidableEq, Repr

/-! ## edges and vertices -/

/-- Position of the next vertex of a ring of `n` vertices (`v->next`, as in `vatti.cpp:101-114`). -/
def nextIdx (n i : Nat) : Nat := (i + 1) % n

/-- Position of the previous vertex of a ring of `n` vertices (`v->prev`, as in `vatti.cpp:101-114`). -/
def prevIdx (n i : Nat) : Nat := (i + (n - 1)) % n

/-- Vertex `i` of ring `r` (a pointer to a vertex, `vatti.h:140`). -/
def nodeAt (rings : List (Ring K)) (r i : Nat) : Option (Vtx K) := rings[r]?.bind (fun x => x.nodes[i]?)

/-- Number of vertices of ring `r` (not in the code, which follows pointers, `vatti.cpp:577-583`). -/
def ringSize (rings : List (Ring K)) (r : Nat) : Nat := (rings[r]?.map (fun x => x.nodes.length)).getD 0

/-- `get_seg(e, out_from)` (`vatti.cpp:101-114`). -/
def getSeg (rings : List (Ring K)) (e : Edge K) : Option (Seg K × Vec2 K) :=
  if e.isUp then (nodeAt rings e.ring (prevIdx (ringSize rings e.ring) e.vtop)).map (fun v => (v.seg, v.pt))
  else (nodeAt rings e.ring e.vtop).map (fun v => (v.seg, e.top))

/-- `is_maxima` (`vatti.cpp:67-70`). -/
def isMaxima (rings : List (Ring K)) (e : Edge K) : Option Bool := (nodeAt rings e.ring e.vtop).map Vtx.lmax

/-- `next(e)` (`vatti.cpp:157-167`). -/
def stepEdge (rings : List (Ring K)) (e : Edge K) : Option (Edge K) :=
  let i := if e.isUp then nextIdx (ringSize rings e.ring) e.vtop else prevIdx (ringSize rings e.ring) e.vtop
  (nodeAt rings e.ring i).map (fun v => { e with vtop := i, bot := e.top, top := v.pt, currX := e.top.x })

/-- `is_same` (`vatti.cpp:169-196`). -/
def isSame [FNum K] (rings : List (Ring K)) (a b : Edge K) : Bool :=
  match getSeg rings a, getSeg rings b with
  | some (sa, _), some (sb, _) =>
    a.bot.beq b.bot && a.top.beq b.top &&
      (match sa, sb with
      | .line _, .line _ => true
      | .cubic c1 c2 _, .cubic d1 d2 _ => (c1.beq d1 && c2.beq d2) || (c2.beq d1 && c1.beq d2)
      | _, _ => false)
  | _, _ => false

variable [FTrans K]

/-- `is_valid_ael_order(resident, newcomer)` (`vatti.cpp:1113-1132`). The vertices of edges always exist; the last case
does not occur. -/
def validOrder (rings : List (Ring K)) (r n : Edge K) : Bool :=
  if n.currX ==. r.currX then
    let mn := fmin r.bot.y n.bot.y
    let mx := fmin r.top.y n.top.y
    let mid := (mn +. mx) /. FNum.lit 2
    match getSeg rings r, getSeg rings n with
    | some (sr, pr), some (sn, pn) =>
      let rx := sr.currX pr mid
      let nx := sn.currX pn mid
      if rx ==. nx then decide (r.ptype = .subject ∧ n.ptype = .clip) else rx <. nx
    | _, _ => false
  else r.currX <. n.currX

/-! ## scan lines and local minima -/

/-- `pop_scanline(old_y, new_y)` (`vatti.cpp:705-720`); `none`: returns false. -/
def popScan (old : K) : List K → Option (K × List K)
  | [] => none
  | y :: rest => if y ==. old then popScan old rest else some (y, rest.dropWhile (fun z => y ==. z))

/-- `insert_scanline` (`vatti.cpp:1134-1138`). -/
def St.insertScan (st : St K) (y : K) : St K := { st with scan := insertNum y st.scan }

/-- The loop `while (is_horz(e)) { next(e); insert_windcnt_change(e->bot.x); }` (`vatti.cpp:739-742`, `754-757`). A ring
has a vertex of another height, so `fuel` at least its number of vertices is enough. -/
def skipHorz (rings : List (Ring K)) : Nat → Edge K → List K → Option (Edge K × List K)
  | 0, _, _ => none
  | fuel + 1, e, ch =>
    if e.isHorz then (stepEdge rings e).bind (fun e' => skipHorz rings fuel e' (ch ++ [e'.bot.x])) else some (e, ch)

/-- One of the two edges of a local minimum (`vatti.cpp:729-742`, `745-757`): `dx = 1` descending (towards `prev`),
`dx = -1` ascending (towards `next`). -/
def newEdge (rings : List (Ring K)) (m : LocMin K) (eid : Nat) (dx : Int) (ch : List K) : Option (Edge K × List K) :=
  let i := if dx < 0 then nextIdx (ringSize rings m.ring) m.node else prevIdx (ringSize rings m.ring) m.node
  (nodeAt rings m.ring i).bind (fun v =>
    (skipHorz rings (ringSize rings m.ring + 1)
      { eid := eid, bot := m.pt, top := v.pt, currX := FNum.lit 0, windDx := dx, ring := m.ring, vtop := i, ptype := m.ptype }
      (ch ++ [m.pt.x])).map (fun r => ({ r.1 with currX := r.1.bot.x }, r.2)))

/-- The body of the loop of `insert_local_minima_to_ael` (`vatti.cpp:727-764`). -/
def insertMin (rings : List (Ring K)) (m : LocMin K) (st : St K) : Option (St K) :=
  (newEdge rings m st.nextId 1 st.changes).bind (fun ra =>
    (newEdge rings m (st.nextId + 1) (-1) ra.2).map (fun rb =>
      { st with
        ael := insertAfterPrev (validOrder rings) st.nextId rb.1 (insertAel (validOrder rings) ra.1 st.ael)
        changes := rb.2
        scan := insertNum rb.1.top.y (insertNum ra.1.top.y st.scan)
        nextId := st.nextId + 2 }))

/-- `insert_local_minima_to_ael(y)` with `pop_local_minima` (`vatti.cpp:722-765`, `1053-1059`). -/
def insertMins (rings : List (Ring K)) (y : K) : List (LocMin K) → St K → Option (St K)
  | [], st => some { st with mins := [] }
  | m :: ms, st => if m.pt.y ==. y then (insertMin rings m st).bind (insertMins rings y ms) else some { st with mins := m :: ms }

/-! ## winding counts -/

/-- `bound->curr_edge = nullptr` for the bound of an edge, if it has one (`vatti.cpp:784`, `1235`, `1445-1448`). -/
def detach (o : Outs K) (e : Edge K) : Outs K :=
  match e.bound with
  | some b => o.modB b (fun x => { x with currEdge := none })
  | none => o

/-- `recalc_windcnt` (`vatti.cpp:767-791`). -/
def recalcWind (fr : FillRule) (st : St K) : St K :=
  let xs := uniqNum (sortNum st.changes)
  let ael' := recalcGo fr xs [] st.ael
  { st with
    ael := ael'
    changes := xs
    out := (st.ael.zip ael').foldl (fun o p => if p.2.bound.isNone then detach o p.1 else o) st.out }

/-! ## output bounds -/

/-- Set the `bound` of the edge with identity `i` in the active edge list (`vatti.cpp:737, 785, 1234, 1294-1295, 1368-1375, 1407`). -/
def setBound (ael : List (Edge K)) (i : Nat) (b : Option Nat) : List (Edge K) :=
  ael.map (fun e => if e.eid = i then { e with bound := b } else e)

/-- `new_output` (`vatti.cpp:1358-1390`). -/
def St.newOutput (st : St K) (a b : Edge K) : St K :=
  { st with
    ael := setBound (setBound st.ael a.eid (some st.out.bounds.length)) b.eid (some (st.out.bounds.length + 1))
    out := st.out.newOutput a b }

/-- `update_bound` (`vatti.cpp:1393-1408`). -/
def St.updateBound (st : St K) (i : Nat) (e : Edge K) : Option (St K) :=
  (st.out.updateBound i e).map (fun o => { st with out := o, ael := setBound st.ael e.eid (some i) })

/-- Clear the `bound` of the current edge of bound `i` (`vatti.cpp:1294-1295`). -/
def clearEdge (st : St K) (i : Nat) : List (Edge K) :=
  match st.out.bounds[i]?.bind Bound.currEdge with
  | some e => setBound st.ael e none
  | none => st.ael

/-- `join_output` (`vatti.cpp:1292-1355`). -/
def St.join (st : St K) (i j : Nat) (y : K) : Option (St K) :=
  (st.out.join i j y).map (fun o => { st with out := o, ael := clearEdge { st with ael := clearEdge st i } j })

/-- The contributing edges, coincident neighbours removed (`vatti.cpp:872-888`); the vector is kept in reverse. -/
def boundEdges (rings : List (Ring K)) (ct : ClipType) (fr : FillRule) (ael : List (Edge K)) : List (Edge K) :=
  (ael.foldl (fun acc e =>
    if isContributing ct fr e then
      (match acc with
      | b :: acc' => if isSame rings e b then acc' else e :: b :: acc'
      | [] => [e])
    else acc) []).reverse

/-- Opening polygons at common lower end points (`vatti.cpp:890-900`); returns also the edges not done. -/
def openPairs (st : St K) : List (Edge K) → St K × List (Edge K)
  | a :: b :: rest =>
    if a.currX ==. b.currX then openPairs (st.newOutput a b) rest
    else
      let r := openPairs st rest
      (r.1, a :: b :: r.2)
  | l => (st, l)

/-- The bounds of the OBL in order (`vatti.cpp:916-920`); more steps than bounds means an endless loop. -/
def oblWalk (bounds : List (Bound K)) : Nat → Option Nat → Option (List Nat)
  | _, none => some []
  | 0, some _ => none
  | fuel + 1, some i => bounds[i]?.bind (fun b => (oblWalk bounds fuel b.next).map (i :: ·))

/-- `struct bound_data` (`vatti.cpp:902-907`): an edge or a bound, with its abscissa. -/
inductive Item (K : Type) where
  | edge (e : Edge K)
  | bound (i : Nat) (x : K)

/-- The abscissa of an item (`vatti.cpp:905`). -/
def Item.x : Item K → K
  | .edge e => e.currX
  | .bound _ x => x

/-- Whether the item is an edge (`bool(edge)`, `vatti.cpp:937, 941`). -/
def Item.isEdge : Item K → Bool
  | .edge _ => true
  | .bound .. => false

/-- Sorting the items (`vatti.cpp:921-925`): by abscissa, then by the order in which they were appended; that is a stable
sort by abscissa. -/
def insertItem (it : Item K) : List (Item K) → List (Item K)
  | [] => [it]
  | h :: t => if h.x <. it.x then h :: insertItem it t else it :: h :: t

/-- See `insertItem` (`vatti.cpp:921-925`). -/
def sortItems (l : List (Item K)) : List (Item K) := l.foldr insertItem []

/-- What is done with two items (`vatti.cpp:943-944`, `952-955`). -/
def connect (y : K) (st : St K) : Item K → Item K → Option (St K)
  | .edge e, .edge f => some (st.newOutput e f)
  | .bound i _, .bound j _ => st.join i j y
  | .edge e, .bound j _ => st.updateBound j e
  | .bound i _, .edge f => st.updateBound i f

/-- The pairing loop (`vatti.cpp:931-959`). `fuel`: at least the number of items. Reading the item after the last one is
undefined. -/
def pairItems (y : K) : Nat → St K → List (Item K) → Option (St K)
  | _, st, [] => some st
  | 0, _, _ :: _ => none
  | fuel + 1, st, it :: rest =>
    let same := rest.takeWhile (fun n => (n.x ==. it.x) && (n.isEdge == it.isEdge))
    let tail := rest.dropWhile (fun n => (n.x ==. it.x) && (n.isEdge == it.isEdge))
    match tail with
    | n :: tail' =>
      if n.x ==. it.x then (connect y st it n).bind (fun st' => pairItems y fuel st' (same ++ tail'))
      else
        match rest with
        | m :: rest' => (connect y st it m).bind (fun st' => pairItems y fuel st' rest')
        | [] => none
    | [] =>
      match rest with
      | m :: rest' => (connect y st it m).bind (fun st' => pairItems y fuel st' rest')
      | [] => none

/-- Linking the new OBL (`vatti.cpp:971-980`): `last` is followed by the given bounds. -/
def linkObl (o : Outs K) (last : Nat) : List Nat → Outs K
  | [] => o
  | i :: l => linkObl ((o.modB last (fun x => { x with next := some i })).modB i (fun x => { x with prev := some last })) i l

/-- Rebuilding the OBL (`vatti.cpp:961-980`) from the bounds of the contributing edges. -/
def rebuildObl (o : Outs K) : List Nat → Outs K
  | [] => { o with oblFirst := none }
  | i :: l => linkObl ({ o with oblFirst := some i }.modB i (fun x => { x with prev := none, next := none })) i l

/-- The bounds now attached to the contributing edges, in order; `none`: a null bound is dereferenced (`vatti.cpp:968-974`). -/
def boundsOf (ael : List (Edge K)) (bes : List (Edge K)) : Option (List Nat) :=
  bes.mapM (fun e => (ael.find? (fun x => x.eid == e.eid)).bind Edge.bound)

/-- `update_ouput_bound(y)` (`vatti.cpp:867-981`). -/
def updateOutput (rings : List (Ring K)) (ct : ClipType) (fr : FillRule) (y : K) (st : St K) : Option (St K) :=
  if st.changes.isEmpty then some st
  else
    let st := { st with changes := [] }
    let bes := boundEdges rings ct fr st.ael
    let r := openPairs st bes
    (oblWalk r.1.out.bounds (r.1.out.bounds.length) r.1.out.oblFirst).bind (fun obl =>
      let items := sortItems (r.2.map Item.edge ++ obl.filterMap (fun i => (r.1.out.bounds[i]?).map (fun b => Item.bound i b.stopX)))
      (pairItems y items.length r.1 items).bind (fun st' =>
        (boundsOf st'.ael bes).map (fun l => { st' with out := rebuildObl st'.out l })))

/-! ## the top of a scan beam -/

/-- Appending the segment just completed to the output (`vatti.cpp:1150-1161`, `copy_seg` 122-138). -/
def appendSeg (rings : List (Ring K)) (o : Outs K) (e : Edge K) (x : K) : Option (Outs K) :=
  match e.bound with
  | none => some o
  | some i =>
    match o.bounds[i]?, getSeg rings e with
    | some b, some (s, frm) =>
      let s' := if e.isUp != b.isUp then s.reverse frm else s
      some ((o.push b s').modB i (fun z => { z with stopX := x }))
    | _, _ => none

/-- The loop over horizontal successors (`vatti.cpp:1171-1185`): the edge, or `none` when it reached a local maximum. -/
def horzGo (rings : List (Ring K)) : Nat → Edge K → List K → Option (Option (Edge K) × List K)
  | 0, _, _ => none
  | fuel + 1, e, ch =>
    if e.isHorz then
      (isMaxima rings e).bind (fun m =>
        if m then some (none, ch ++ [e.top.x])
        else (stepEdge rings e).bind (fun e' => horzGo rings fuel e' (ch ++ [e.top.x])))
    else some (some e, ch)

/-- The body of the loop of `do_top_of_scanbeam` for one edge (`vatti.cpp:1146-1195`). Returns the edge if it stays in the
list, the new state (its active edge list is not used) and the new `last_x`. -/
def topEdge (rings : List (Ring K)) (y : K) (st : St K) (last : K) (e0 : Edge K) : Option (Option (Edge K) × St K × K) :=
  if e0.top.y ==. y then
    let e := { e0 with currX := e0.top.x }
    let ch := if e.currX ==. last then st.changes ++ [last] else st.changes
    (appendSeg rings st.out e e.currX).bind (fun o =>
      (isMaxima rings e).bind (fun m =>
        if m then some (none, { st with out := detach o e, changes := ch }, e.currX)
        else
          (stepEdge rings e).bind (fun e1 =>
            (horzGo rings (ringSize rings e.ring + 1) e1 ch).map (fun r =>
              match r.1 with
              | none => (none, { st with out := detach o e, changes := r.2 }, e.currX)
              | some e2 =>
                (some e2, { st with out := o, changes := r.2, scan := insertNum e2.top.y st.scan }, e.currX)))))
  else
    (getSeg rings e0).map (fun s =>
      let e := { e0 with currX := s.1.currX s.2 y }
      let o := match e.bound with
        | some b => st.out.modB b (fun z => { z with stopX := e.currX })
        | none => st.out
      (some e, { st with out := o, changes := if e.currX ==. last then st.changes ++ [last] else st.changes }, e.currX))

/-- The loop of `do_top_of_scanbeam` over the active edges (`vatti.cpp:1144-1196`). -/
def topGo (rings : List (Ring K)) (y : K) : St K → K → List (Edge K) → List (Edge K) → Option (St K)
  | st, _, done, [] => some { st with ael := done }
  | st, last, done, e :: rest =>
    (topEdge rings y st last e).bind (fun r => topGo rings y r.2.1 r.2.2 (done ++ r.1.toList) rest)

/-- `do_top_of_scanbeam(y)` (`vatti.cpp:1140-1197`); `num_min` is `-DBL_MAX`. -/
def doTop (rings : List (Ring K)) (y : K) (st : St K) : Option (St K) :=
  topGo rings y { st with changes := [] } (FNum.neg FNum.maxNum) [] st.ael

/-- `close_output(y)` (`vatti.cpp:1199-1216`) from bound `c` on; more rounds than bounds count as an endless loop. -/
def closeGo (y : K) : Nat → St K → Nat → Option (St K)
  | 0, _, _ => none
  | fuel + 1, st, c =>
    st.out.bounds[c]?.bind (fun b =>
      match b.next with
      | none => some st
      | some n =>
        st.out.bounds[n]?.bind (fun bn =>
          (if b.stopX ==. bn.stopX then st.join c n y else some st).bind (fun st' =>
            match bn.next with
            | none => some st'
            | some c' => closeGo y fuel st' c')))

/-- `close_output(y)` (`vatti.cpp:1199-1216`). -/
def closeOutput (y : K) (st : St K) : Option (St K) :=
  match st.out.oblFirst with
  | none => some st
  | some c => closeGo y (st.out.bounds.length + 1) st c

/-- The first loop of `resort_ael` for one abscissa (`vatti.cpp:1228-1241`): edges kept, edges taken out, edges not yet
visited. -/
def takeAt (x : K) : List (Edge K) → List (Edge K) × List (Edge K) × List (Edge K)
  | [] => ([], [], [])
  | e :: rest =>
    let r := takeAt x rest
    if e.currX ==. x then (r.1, e :: r.2.1, r.2.2)
    else if x <. e.currX then ([], [], e :: rest)
    else (e :: r.1, r.2.1, r.2.2)

/-- The first loop of `resort_ael` (`vatti.cpp:1228-1241`): edges left in the list, edges taken out. -/
def takeAll : List K → List (Edge K) → List (Edge K) × List (Edge K)
  | [], l => (l, [])
  | x :: xs, l =>
    let r := takeAt x l
    let q := takeAll xs r.2.2
    (r.1 ++ q.1, r.2.1 ++ q.2)

/-- `resort_ael(y)` (`vatti.cpp:1218-1244`). -/
def resortAel (rings : List (Ring K)) (st : St K) : St K :=
  let xs := uniqNum (sortNum st.changes)
  let r := takeAll xs st.ael
  { st with
    changes := xs
    out := r.2.foldl detach st.out
    ael := r.2.foldl (fun l e => insertAel (validOrder rings) { e with bound := none } l) r.1 }

/-! ## the whole process -/

/-- `reset()` (`vatti.cpp:339-355`). `out` and `changes` are what an earlier call of `process` has left behind. -/
def resetSt (msort : List (LocMin K) → List (LocMin K)) (rings : List (Ring K)) (out : Outs K) (changes scan : List K) : St K :=
  { ael := []
    out := { out with oblFirst := none }
    changes := changes
    scan := (msort (locMins rings)).foldr (fun m s => insertNum m.pt.y s) scan
    mins := msort (locMins rings)
    nextId := 0 }

/-- The first half of the loop of `process` (`vatti.cpp:407-409`). -/
def sweepA (rings : List (Ring K)) (ct : ClipType) (fr : FillRule) (y : K) (st : St K) : Option (St K) :=
  (insertMins rings y st.mins st).bind (fun st1 => updateOutput rings ct fr y (recalcWind fr st1))

/-- The second half of the loop of `process` (`vatti.cpp:411-413`). -/
def sweepB (rings : List (Ring K)) (y : K) (st : St K) : Option (St K) :=
  (doTop rings y st).bind (fun st1 => (closeOutput y st1).map (fun st2 => resortAel rings st2))

/-- The loop of `process` (`vatti.cpp:405-414`), at most `fuel` rounds; `some none`: not finished. -/
def sweep (rings : List (Ring K)) (ct : ClipType) (fr : FillRule) : Nat → K → St K → Option (Option (St K))
  | 0, _, _ => some none
  | fuel + 1, y, st =>
    (sweepA rings ct fr y st).bind (fun st1 =>
      match popScan y st1.scan with
      | none => some (some { st1 with scan := [] })
      | some (y', scan') => (sweepB rings y' { st1 with scan := scan' }).bind (sweep rings ct fr fuel y'))

end River
