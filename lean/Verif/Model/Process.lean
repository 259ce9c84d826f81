import Verif.Model.Sweep

/-! # The clipper as a whole (`/repo/src/src/vatti.cpp:357-428`, `/repo/src/src/processor.cpp:40-58`)

The class `processor` forwards to `clipper` unchanged. -/

namespace River
variable {K : Type}

/-- The state of a `clipper` between two calls of its public functions (`vatti.h:210-218`): the contours, and what the
last call of `process` left in `output_list` and the pools, `windcnt_change_list` and `scanline_list`. `break_info_list`
is cleared by `process_intersect` (`vatti.cpp:573`); `local_minima_list` is determined by the contours up to its order;
`succeeded_` is never changed. -/
structure Clipper (K : Type) where
  rings : List (Ring K)
  out : Outs K
  changes : List K
  scan : List K
deriving DecidableEq, Repr

namespace Clipper

/-- A new `processor` (`processor.cpp:14-18`, `vatti.h:197-223`). -/
def new : Clipper K := ⟨[], ⟨[], [], none⟩, [], []⟩

variable [FTrans K]

/-- `add_path(paths, path_type)` (`processor.cpp:40-43`, `vatti.cpp:357-365`); `none` is undefined behaviour. -/
def addPath (c : Clipper K) (ps : List (Path K)) (pt : PathType) : Option (Clipper K) :=
  (addPaths pt c.rings ps).map (fun r => { c with rings := r })

/-- `process(operation, fill, write_func, output)` (`processor.cpp:55-58`, `vatti.cpp:394-428`), the loop cut off after
`fuel` rounds. `none`: undefined behaviour or an endless inner loop; `some none`: the main loop is not finished. `msort`
is the result of sorting the local minima. The drawing of the debug build is not modelled. -/
def process {σ : Type} (env : Env K) (msort : List (LocMin K) → List (LocMin K)) (fuel : Nat) (c : Clipper K) (ct : ClipType)
    (fr : FillRule) (f : Funcs K σ) (u : σ) : Option (Option (Clipper K × σ)) :=
  (processIntersect env c.rings).bind (fun rings =>
    let st := resetSt msort rings c.out c.changes c.scan
    match popScan (FNum.neg FNum.maxNum) st.scan with
    | none => some (some (⟨rings, st.out, st.changes, []⟩, u))
    | some (y, scan') =>
      (sweep rings ct fr fuel y { st with scan := scan' }).bind (fun r =>
        match r with
        | none => some none
        | some st' => (buildOutput f st'.out.polys u).map (fun u' => some (⟨rings, st'.out, st'.changes, st'.scan⟩, u'))))

/-- `process(operation, fill, paths& output)` (`processor.cpp:50-53`, `vatti.cpp:384-392`). -/
def processPaths (env : Env K) (msort : List (LocMin K) → List (LocMin K)) (fuel : Nat) (c : Clipper K) (ct : ClipType)
    (fr : FillRule) (output : List (Path K)) : Option (Option (Clipper K × List (Path K))) :=
  process env msort fuel c ct fr pathsWriter output

end Clipper
end River
