import Verif.Model.Sweep

/-! # Specifications for scan lines and the order of the active edge list -/

namespace River
variable {K : Type}

/-- A run of the scan line queue: from the queue `q` and the last height `old`, the heights `ys` are delivered one after
the other by `pop_scanline`; after the delivery of each height the next list of `ins` is inserted. The run ends when
`pop_scanline` reports that the queue is exhausted. -/
inductive ScanRun [FTrans K] : K → List K → List (List K) → List K → Prop
  | stop {old q} : popScan old q = none → ScanRun old q [] []
  | visit {old q y q' new ins ys} : popScan old q = some (y, q') →
      ScanRun y (new.foldl (fun s z => insertNum z s) q') ins ys → ScanRun old q (new :: ins) (y :: ys)

/-- No inserted height lies below the height being processed at that moment. -/
def Upward [LE K] : List K → List (List K) → Prop
  | y :: ys, new :: ins => (∀ z ∈ new, y ≤ z) ∧ Upward ys ins
  | _, _ => True

/-- The active edges are ordered by their current abscissa. -/
def AelSorted [LE K] (ael : List (Edge K)) : Prop := ael.Pairwise (fun a b => a.currX ≤ b.currX)

end River
