import Verif.Entropy.Model
import Mathlib.Data.List.ReduceOption

/-!
# Encoders of series with missing values (entropy.py:115-166)

NaN is `none`.
-/

namespace FinML.Entropy

variable {K : Type} [Field K] [LinearOrder K]

/-- `binary_encode`, entropy.py:115-124: NaN is not greater than the threshold. -/
def binaryEncodeM (series : List (Option K)) (threshold : K) : List Char :=
  series.map fun x => if ∃ v ∈ x, threshold < v then '1' else '0'

/-- The order of numpy's `searchsorted`: NaN comes after all numbers; entropy.py:149. -/
def npLt (a b : Option K) : Bool := a.elim false fun x => b.elim true fun y => x < y

/-- `quantiles_.searchsorted(v)`, entropy.py:149, for quantiles that are sorted with NaN at the end. -/
def searchLeftM (q : List (Option K)) (v : Option K) : ℕ := (q.takeWhile fun x => npLt x v).length

/-- A fitted `QuantileEncoder`, entropy.py:134-144. -/
structure EncoderM (K : Type) where
  alphabet : List Char
  quantiles : List (Option K)

/-- `QuantileEncoder.fit`, entropy.py:141-144: with a NaN among the data `np.quantile` returns NaN throughout. -/
def Encoder.fitM [FloorRing K] (e : Encoder K) (data : List (Option K)) : Py (EncoderM K) :=
  if data = [] then .error .unmodelled
  else .ok ⟨e.alphabet, if none ∈ data then e.probs.map fun _ => none
    else e.probs.map fun p => some (quantileAt (data.reduceOption.insertionSort (· ≤ ·)) p)⟩

/-- `QuantileEncoder.transform`, entropy.py:146-151. -/
def EncoderM.transform (e : EncoderM K) (series : List (Option K)) : Py (List Char) :=
  series.mapM fun v => pyGet e.alphabet (searchLeftM e.quantiles v)

/-- `QuantileEncoder(n).fit(data).transform(series)`, entropy.py:134-151. -/
def quantileCodeM [FloorRing K] (n : ℕ) (data series : List (Option K)) : Py (List Char) := do
  let e ← Encoder.init n
  let f ← e.fitM data
  f.transform series

/-- `sigma_encode`, entropy.py:154-166: the minimum skips NaN, and `astype(int)` refuses it. -/
def sigmaEncodeM [FloorRing K] (series : List (Option K)) (sigma : K) : Py (List Char) :=
  if none ∈ series then .error .valueError else sigmaEncode series.reduceOption sigma

end FinML.Entropy
