import Verif.Entropy.Model
import Verif.Filters.Model
import Verif.FracDiff.Model
import Verif.Metrics.Model
import Verif.Basket.Model
import Verif.Micro.Model
import Verif.Breaks.Model
import Mathlib.Algebra.Order.Field.Rat
import Mathlib.Data.Rat.Floor

/-!
# Further tests of the repository, run on the model

Inputs and expected values of `test/test_features/test_entropy.py`, `test_filters.py`,
`test_frac_diff.py`, `test_structural_breaks.py`, `test_microstructure.py`,
`test/test_evaluation/test_metrics.py` and `test/test_data_structures/test_basket.py`, as far as they are
rational.
-/

namespace FinML.Conformance

/-! ## test_entropy.py -/

open FinML.Entropy in
/-- `test_binary_encode`. -/
example : binaryEncode ([0.1, 0.2, 0.3, 0.5, 0.6, 0.7] : List ℚ) 0.5 = "000011".toList := by decide +kernel

/-- `np.linspace(0, 100, 21)`. -/
def by5 : List ℚ := (List.range 21).map fun i : ℕ => 5 * (i : ℚ)

open FinML.Entropy in
/-- `test_quantile_encode`. -/
example : ((Encoder.init 21 >>= fun e => e.fit by5 >>= fun e' => e'.transform by5 : Py (List Char))).toOption =
    some "0123456789abcdefghijk".toList := by decide +kernel

open FinML.Entropy in
/-- `test_sigma_encode`. -/
example : (sigmaEncode by5 5).toOption = some "0123456789abcdefghijk".toList := by decide +kernel

open FinML.Entropy in
/-- `test_lz`. -/
example : (lempelzivLib "YRCADDOHDOSU".toList).toOption =
    some (["Y", "R", "C", "A", "D", "DO", "H", "DOS", "U"].map String.toList) := by decide +kernel

/-! ## test_filters.py -/

open FinML.Filters in
/-- `test_symmetric_cumsum_filter`. -/
example : (filterCusum ((List.range 15).map Int.ofNat)
    ([1, 2, 3, 4, 5, 4, 5, 4, 3, 2, 1, 0, -1, 0, 1] : List ℚ) 3).toOption = some [4, 10] := by decide +kernel

open FinML.Filters in
/-- `test_hull_ma`. -/
example : (hullMa ((List.range 10).map fun i : ℕ => (i : ℚ)) 2).toOption.map (List.filterMap id) =
    some ((List.range 9).map fun i : ℕ => 3 / 2 + (i : ℚ)) := by decide +kernel

/-! ## test_frac_diff.py -/

open FinML.FracDiff in
/-- `linear_series`. -/
def linearFrame : Frame ℚ :=
  ⟨(List.range 10).map Int.ofNat, [("close", (List.range 10).map fun i : ℕ => some (i : ℚ))]⟩

open FinML.FracDiff in
/-- The index and the column of a result. -/
def column (r : Py (Frame ℚ)) : Option (List ℤ × List (List (Option ℚ))) :=
  r.toOption.map fun f => (f.index, f.cols.map Prod.snd)

/-- Days `a` to 9. -/
def daysFrom (a : ℕ) : List ℤ := (List.range' a (10 - a)).map Int.ofNat

open FinML.FracDiff in
/-- `test_frac_diff_expanding`: order 0 and order 1. -/
example : [(0, 1), (0, 0), (1, 1), (1, 0)].map
      (fun p : ℚ × ℚ => column (fracDiffExpanding linearFrame p.1 p.2)) =
    [some (daysFrom 0, [(List.range 10).map fun i : ℕ => some (i : ℚ)]),
      some (daysFrom 0, [(List.range 10).map fun i : ℕ => some (i : ℚ)]),
      some (daysFrom 0, [some 0 :: List.replicate 9 (some 1)]),
      some (daysFrom 1, [List.replicate 9 (some 1)])] := by
  decide +kernel

open FinML.FracDiff in
/-- `test_frac_diff_expanding`, order 0.5: 0, 1, 1.5, 1.875, 2.1875, 2.4609, 2.707, 2.9326, 3.1421, 3.3385. -/
example : ((column (fracDiffExpanding linearFrame 0.5 1)).map fun r => r.2.map fun c =>
    (c.zip ([0, 1, 1.5, 1.875, 2.1875, 2.4609, 2.707, 2.9326, 3.1421, 3.3385] : List ℚ)).all fun p =>
      match p.1 with
      | some x => decide (|x - p.2| ≤ 0.0001)
      | none => false) = some [true] := by decide +kernel

open FinML.FracDiff in
/-- `test_frac_diff_fixed`. -/
example : [(0, 0), (0, 0.01), (1, 0.01), (0.5, 0.05)].map
      (fun p : ℚ × ℚ => column (fracDiffFixed linearFrame p.1 p.2)) =
    [some (daysFrom 9, [[some 9]]),
      some (daysFrom 0, [(List.range 10).map fun i : ℕ => some (i : ℚ)]),
      some (daysFrom 1, [List.replicate 9 (some 1)]),
      some (daysFrom 3, [[some 1.875, some 2.1875, some 2.5, some 2.8125, some 3.125, some 3.4375,
        some 3.75]])] := by decide +kernel

/-! ## test_structural_breaks.py -/

open FinML.Breaks in
/-- `test_get_yx`. -/
example :
    let s : List ℚ := [0.1, 0.2, 0.4, 0.7, 1.1, 1.6]
    (getYxInt s "nc" 3).toOption = some ([0.4, 0.5], [[0.7, 0.3, 0.2, 0.1], [1.1, 0.4, 0.3, 0.2]]) ∧
    (getYxInt s "c" 3).toOption =
      some ([0.4, 0.5], [[0.7, 0.3, 0.2, 0.1, 1], [1.1, 0.4, 0.3, 0.2, 1]]) ∧
    (getYxInt s "ct" 3).toOption =
      some ([0.4, 0.5], [[0.7, 0.3, 0.2, 0.1, 1, 0], [1.1, 0.4, 0.3, 0.2, 1, 1]]) ∧
    (getYxInt s "ctt" 3).toOption =
      some ([0.4, 0.5], [[0.7, 0.3, 0.2, 0.1, 1, 0, 0], [1.1, 0.4, 0.3, 0.2, 1, 1, 1]]) := by decide +kernel

open FinML.Breaks in
/-- `test_lag_df`. -/
example :
    let s : List ℚ := [0.1, 0.2, 0.4, 0.7, 0.11]
    shift s 0 = s.map some ∧ (shift s 1).filterMap id = s.take 4 ∧ (shift s 2).filterMap id = s.take 3 ∧
    (shift s 3).filterMap id = s.take 2 := by decide +kernel

/-! ## test_microstructure.py -/

open FinML.Bars in
/-- `test_tick_rule`. -/
example : tickRule 1 ([1, 1.1, 1.2, 1, 1, 0.9, 0.8, 1.3] : List ℚ) = [1, 1, 1, -1, -1, -1, -1, 1] := by
  decide +kernel

/-! ## test_metrics.py -/

open FinML.Metrics in
/-- A daily series. -/
def daily (l : List ℚ) : Ser ℚ := l.zipIdx.map fun p => ((p.2 : ℤ) * dayNs, p.1)

open FinML.Metrics in
/-- `test_get_position_timings`. -/
example : positionTimings (daily [1, 2, 0, -1, 1, 3, 2, -2, -3, 0]) =
    [2 * dayNs, 4 * dayNs, 7 * dayNs, 9 * dayNs] := by decide +kernel

open FinML.Metrics in
/-- `test_compute_holding_period`. -/
example : (holdingPeriod (daily [1, 2, 0, -1, 1, 3, 2, -2, -3, 0])).toOption = some (some (1 + 2 / 3)) := by
  decide +kernel

open FinML.Metrics in
/-- `test_twrr`, with fixed cash flows in place of random ones. -/
example :
    let rets : List ℚ := [-0.058, 0.235, 0.008, -0.014, 0.112, -0.024, 0.084, -0.029, 0.357, 0.006]
    let flows : List ℚ := [1, -1, 0, 1, 1, -1, -2, 1, 0, 1]
    let step := fun (acc : ℚ × List (ℚ × ℚ)) (p : ℚ × ℚ) =>
      (acc.1 * (1 + p.1) + p.2, acc.2 ++ [(acc.1 * (1 + p.1), p.2)])
    (timeWeightedReturn ((rets.zip flows).foldl step (1, [])).2).toOption =
      some ((rets.tail.map fun r => r + 1).prod - 1) := by decide +kernel

/-- The values of `test_dd_and_tuw`. -/
def wealth : List ℚ := [1, 1.1, 1.2, 2, 1, 0.5, 0.3, 0.7, 0.8, 1.2, 2.1, 0.4, 0.1, 2.2]

open FinML.Metrics in
/-- `test_dd_and_tuw`, in dollars. -/
example : ddAndTuw (daily wealth) true =
    ([(3 * dayNs, some 1.7), (10 * dayNs, some 2)], [(3 * dayNs, 7)]) := by decide +kernel

open FinML.Metrics in
/-- `test_dd_and_tuw`, on returns: 1.75 and 1.6071. -/
example :
    let rets := List.zipWith (fun b a => b / a - 1) wealth.tail wealth
    let s := (rets.zipIdx.map fun p => (((p.2 : ℤ) + 1) * dayNs, p.1)).drop 1
    ddAndTuw s false = ([(3 * dayNs, some 1.75), (7 * dayNs, some (45 / 28))], [(3 * dayNs, 4)]) := by
  decide +kernel

/-! ## test_basket.py -/

open FinML.Basket in
/-- `futures_df`. -/
def futures : Frame ℚ
  | .open => [8.3, 11.71, 14.68, 8.18, 9.05, 8.62, 7.6, 6.44, 9.42, 10.7]
  | .close => [7.56, 10.33, 7.14, 5.09, 11.3, 9.95, 5.53, 9.67, 12, 11]
  | _ => []

/-- The contracts of `futures_df`. -/
def contracts : List Char := ['A', 'A', 'A', 'B', 'B', 'B', 'B', 'C', 'C', 'C']

open FinML.Basket in
/-- `test_forward_roll_adj`. -/
example : (adjustRolledSeries futures contracts [.close] false).toOption.map (fun f => f .close) =
    some (List.zipWith (· - ·) (futures .close)
      (List.replicate 3 0 ++ List.replicate 4 (8.18 - 7.14) ++
        List.replicate 3 (8.18 - 7.14 + (6.44 - 5.53)))) := by decide +kernel

open FinML.Basket in
/-- `test_backward_roll_adj`. -/
example : (adjustRolledSeries futures contracts [.close] true).toOption.map (fun f => f .close) =
    some (List.zipWith (· + ·) (futures .close)
      (List.replicate 3 (6.44 - 5.53 + (8.18 - 7.14)) ++ List.replicate 4 (6.44 - 5.53) ++
        List.replicate 3 0)) := by decide +kernel

open FinML.Basket in
/-- `test_non_negative_adj`. -/
example : (rolledRetPrices futures contracts [.close] true).toOption.map (fun l =>
    (l.zip ([1, 1.37, 0.94, 0.54, 1.19, 1.05, 0.58, 0.92, 1.14, 1.05] : List ℚ)).all fun p =>
      decide (|p.1 - p.2| ≤ 0.01)) = some true := by decide +kernel

/-- Two columns as a table. -/
def table (a b : List ℚ) : ℕ → Fin 2 → ℚ := fun t i => if i = 0 then a.getD t 0 else b.getD t 0

open FinML.Basket in
/-- `basket_sample`. -/
def basket : Input ℚ 2 where
  num := 10
  weights := table [0.9, 0.9, 0.9, 0.2, 0.2, 0.2, 0.2, 0.4, 0.4, 0.4]
    [0.1, 0.1, 0.1, 0.8, 0.8, 0.8, 0.8, 0.6, 0.6, 0.6]
  opens := table [8.3, 11.71, 14.68, 8.18, 9.05, 8.62, 7.6, 6.44, 9.42, 10.7]
    [101.83, 101.08, 92.36, 98.98, 100.27, 100.95, 98.73, 98.22, 94.4, 100.68]
  closes := table [7.56, 10.33, 7.14, 5.09, 11.3, 9.95, 5.53, 9.67, 12, 11]
    [113.42, 101.74, 100.31, 99.23, 97.8, 103.01, 99.18, 98.53, 97.57, 105.93]
  fx := fun _ _ => 1
  volumes := fun _ i => if i = 0 then 10 else 15
  dividends := fun _ _ => 0
  rebal := [3, 7]

/-- The value that `test_basket_to_etf` expects: weights times growth since the last rebalance, each
column growing from close to close, and from open to close on the bar after a rebalance. -/
def expectedValue : ℕ → ℚ
  | 0 => 1
  | 1 => 0.9 * (10.33 / 7.56) + 0.1 * (101.74 / 113.42)
  | 2 => 0.9 * (7.14 / 7.56) + 0.1 * (100.31 / 113.42)
  | 3 => 0.9 * (5.09 / 7.56) + 0.1 * (99.23 / 113.42)
  | 4 => expectedValue 3 * (0.2 * (11.3 / 9.05) + 0.8 * (97.8 / 100.27))
  | 5 => expectedValue 3 * (0.2 * (9.95 / 9.05) + 0.8 * (103.01 / 100.27))
  | 6 => expectedValue 3 * (0.2 * (5.53 / 9.05) + 0.8 * (99.18 / 100.27))
  | 7 => expectedValue 3 * (0.2 * (9.67 / 9.05) + 0.8 * (98.53 / 100.27))
  | 8 => expectedValue 7 * (0.4 * (12 / 9.42) + 0.6 * (97.57 / 94.4))
  | 9 => expectedValue 7 * (0.4 * (11 / 9.42) + 0.6 * (105.93 / 94.4))
  | _ => 0

open FinML.Basket in
/-- `test_basket_to_etf`: the values. -/
example : (basketToEtf basket).toOption.map Prod.fst =
    some ((List.range 10).map fun t => some (expectedValue t)) := by decide +kernel

open FinML.Basket in
/-- `test_basket_to_etf`: the volumes 84, 652.54 and 339.672. -/
example : (basketToEtf basket).toOption.map (fun r =>
    (r.2.zip ((List.replicate 3 84 ++ List.replicate 4 652.54 ++ List.replicate 3 339.672 : List ℚ))).all
      fun p => match p.1 with
        | .fin x => decide (|x - p.2| ≤ 0.01)
        | _ => false) = some true := by decide +kernel

end FinML.Conformance
