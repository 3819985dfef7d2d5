import Verif.Metrics.Model

/-! # Bet timings and holding period with missing positions (metrics.py:13-53); NaN is `none`. -/

namespace FinML.Metrics

variable {K : Type} [Field K] [LinearOrder K] [IsStrictOrderedRing K]

/-- `get_position_timings`, metrics.py:13-26: NaN differs from 0, and no product with it is negative. -/
def positionTimingsM (s : Ser (Option K)) : List ℤ :=
  let noPosTimes := (s.filter fun p => p.2 = some 0).map Prod.fst
  let prevPos := (((s.map Prod.fst).zip (none :: s.map Prod.snd)).filter fun p => p.2 ≠ some 0).map Prod.fst
  let res := noPosTimes.filter fun t => t ∈ prevPos
  let flips := List.zipWith (fun p (y : Option K) => (p.1, p.2.bind fun a => y.map fun b => a * b)) s.tail
    (s.dropLast.map Prod.snd)
  (res ++ (flips.filter fun p => ∃ v ∈ p.2, v < 0).map Prod.fst).dedup.insertionSort (· ≤ ·)

/-- One pass of the loop, metrics.py:41-49.  With a NaN both comparisons are false; the row that is written has the weight NaN,
which the sums of metrics.py:50-51 skip, and is left out here. -/
def holdStepM (p q : Option K) (t : K) (st : HoldState K) : HoldState K :=
  match p, q with
  | some p, some q => holdStep p q t st
  | _, _ => st

/-- The loop over the positions after `p`, metrics.py:40-49; `t0` is the first time. -/
def holdLoopM (t0 : ℤ) (p : Option K) (st : HoldState K) : Ser (Option K) → HoldState K
  | [] => st
  | (t, q) :: rest => holdLoopM t0 q (holdStepM p q (((t - t0 : ℤ) : K) / (dayNs : K)) st) rest

/-- `compute_holding_period`, metrics.py:29-53. -/
def holdingPeriodM : Ser (Option K) → Py (Option K)
  | [] => throw .indexError
  | (t0, p) :: rest => return holdAverage (holdLoopM t0 p (0, []) rest).2

end FinML.Metrics
