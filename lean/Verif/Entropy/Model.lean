import Verif.Py.Basic
import Mathlib.Analysis.SpecialFunctions.Log.Base
import Mathlib.Data.List.Sort
import Mathlib.Algebra.Order.Floor.Ring

/-! # Model of `financial_ml/features/entropy.py`

A message is the list of symbols of the string that `_stringify` (entropy.py:10-13) returns. -/

namespace FinML.Entropy

section Words

variable {α : Type} [DecidableEq α]

/-- `_stringify`, entropy.py:10-13, of a list given by the strings of its elements. -/
def stringify (msg : List (List α)) : List α := msg.flatten

/-- `msg[a:b]` for non-negative bounds; entropy.py:23, 59, 74, 76. -/
def slice (msg : List α) (a b : ℕ) : List α := (msg.take b).drop a

/-- Lines 24-27: record a position of a word in the dictionary (in insertion order);
entropy.py:24-27. -/
def addWord (lib : List (List α × List ℕ)) (p : List α × ℕ) : List (List α × List ℕ) :=
  if p.1 ∈ lib.map Prod.fst then lib.map fun e => if e.1 = p.1 then (e.1, e.2 ++ [p.2]) else e
  else lib ++ [(p.1, [p.2])]

/-- `_word_pmf`, entropy.py:16-30. -/
def wordPmf (K : Type) [Field K] (msg : List α) (w : ℕ) : List (List α × K) :=
  let lib := (List.range' w (msg.length + 1 - w)).foldl
    (fun lib i => addWord lib (slice msg (i - w) i, i - w)) []
  lib.map fun e => (e.1, (e.2.length : K) / ((msg.length : K) - w + 1))

/-- `plugin_entropy`, entropy.py:33-43 (for `w > 0`). -/
noncomputable def pluginEntropy (msg : List α) (w : ℕ) : ℝ :=
  -((wordPmf ℝ msg w).map fun e => e.2 * Real.logb 2 e.2).sum / w

/-- The inner loop of `lempelziv_lib`, entropy.py:58-62, over the remaining values of `j`; returns the
last `j` and the dictionary. -/
def lzInner (msg : List α) (i : ℕ) (lib : List (List α)) : List ℕ → ℕ → ℕ × List (List α)
  | [], j => (j, lib)
  | k :: ks, _ =>
    if slice msg i (k + 1) ∈ lib then lzInner msg i lib ks k else (k, lib ++ [slice msg i (k + 1)])

/-- The outer loop, entropy.py:57-63.  The first argument bounds the number of rounds; running out of
it is reported as `runtimeError` (C72 shows that it never happens). -/
def lzLoop (msg : List α) : ℕ → ℕ → List (List α) → Py (List (List α))
  | 0, i, lib => if i < msg.length then .error .runtimeError else .ok lib
  | fuel + 1, i, lib =>
    if i < msg.length then
      let r := lzInner msg i lib (List.range' i (msg.length - i)) 0
      lzLoop msg fuel (r.1 + 1) r.2
    else .ok lib

/-- `lempelziv_lib`, entropy.py:46-64; the set as the list of its elements in insertion order. -/
def lempelzivLib (msg : List α) : Py (List (List α)) := do
  let c ← pyGet msg 0
  lzLoop msg msg.length 1 [[c]]

/-- Lines 75-79: is the string of `length + 1` symbols at `i` also found at some `j` in `[i-n, i)`?;
entropy.py:75-79. -/
def hasMatch (msg : List α) (i n length : ℕ) : Bool :=
  (List.range' (i - n) n).any fun j => slice msg i (i + length + 1) = slice msg j (j + length + 1)

/-- `_longest_match`, entropy.py:67-80, for `n ≤ i` (no negative indices). -/
def longestMatch (msg : List α) (i n : ℕ) : ℕ × List α :=
  let m := (List.range n).foldl
    (fun m length => if hasMatch msg i n length then slice msg i (i + length + 1) else m) []
  (m.length + 1, m)

/-- The positions and window sizes used by `konto_entropy`, entropy.py:93-103. -/
def kontoPoints (len : ℕ) : Option ℕ → List (ℕ × ℕ)
  | none => (List.range' 1 (len / 2)).map fun i => (i, i)
  | some window =>
    (List.range' (min window (len / 2)) (len - min window (len / 2) + 1 - min window (len / 2))).map
      fun i => (i, min window (len / 2))

/-- `konto_entropy`, entropy.py:83-110 (the redundancy of line 109 is not returned). -/
noncomputable def kontoEntropy (msg : List α) (window : Option ℕ) : Py ℝ :=
  let pts := kontoPoints msg.length window
  if pts.length = 0 then .error .zeroDivision
  else .ok ((pts.map fun p => Real.logb 2 ((p.2 : ℝ) + 1) / ((longestMatch msg p.1 p.2).1 : ℝ)).sum /
    pts.length)

end Words

section Encode

variable {K : Type} [Field K] [LinearOrder K]

/-- `binary_encode`, entropy.py:115-124. -/
def binaryEncode (series : List K) (threshold : K) : List Char :=
  series.map fun x => if threshold < x then '1' else '0'

/-- `string.digits + string.ascii_letters`, entropy.py:132 and :161. -/
def fullAlphabet : List Char := "0123456789abcdefghijklmnopqrstuvwxyzABCDEFGHIJKLMNOPQRSTUVWXYZ".toList

/-- `np.linspace(0, 1, n)`; entropy.py:138. -/
def linspace01 (n : ℕ) : List K := (List.range n).map fun i : ℕ => (i : K) / ((n - 1 : ℕ) : K)

/-- `np.quantile(x, p)` with linear interpolation, for sorted non-empty `s`; entropy.py:142. -/
def quantileAt [FloorRing K] (s : List K) (p : K) : K :=
  let h := p * ((s.length - 1 : ℕ) : K)
  let lo := ⌊h⌋.toNat
  let a := s.getD lo 0
  let b := s.getD (min (lo + 1) (s.length - 1)) 0
  a + (h - lo) * (b - a)

/-- State of a `QuantileEncoder`, entropy.py:134-139. -/
structure Encoder (K : Type) where
  alphabet : List Char
  probs : List K
  quantiles : Option (List K)

/-- `QuantileEncoder.__init__`, entropy.py:134-139. -/
def Encoder.init (n : ℕ) : Py (Encoder K) :=
  if n ≤ fullAlphabet.length then .ok ⟨fullAlphabet.take n ++ ['?'], linspace01 n, none⟩
  else .error .assertionError

/-- `QuantileEncoder.fit`, entropy.py:141-144 (an empty series is not modelled). -/
def Encoder.fit [FloorRing K] (e : Encoder K) (series : List K) : Py (Encoder K) :=
  if series = [] then .error .unmodelled
  else .ok { e with quantiles := some (e.probs.map (quantileAt (series.insertionSort (· ≤ ·)))) }

/-- `QuantileEncoder.transform`, entropy.py:146-151. -/
def Encoder.transform (e : Encoder K) (series : List K) : Py (List Char) :=
  e.quantiles.elim (.error .runtimeError) fun q => series.mapM fun v => pyGet e.alphabet (searchLeft q v)

/-- Indexing of an array, a negative index counting from the end; entropy.py:165. -/
def npIndex {α : Type} (l : List α) (i : ℤ) : Py α :=
  if 0 ≤ i then pyGet l i.toNat
  else if -(l.length : ℤ) ≤ i then pyGet l (l.length + i).toNat
  else .error .indexError

/-- `sigma_encode`, entropy.py:154-166.  The minimum of an empty series is NaN and encodes nothing; division by a
zero `sigma` gives NaN and infinity, which `astype(int)` refuses. -/
def sigmaEncode [FloorRing K] (series : List K) (sigma : K) : Py (List Char) :=
  if series = [] then .ok []
  else if sigma = 0 then .error .valueError
  else do
    let lo ← npMin series
    series.mapM fun x => npIndex (fullAlphabet ++ ['?']) (min ⌊(x - lo) / sigma⌋ 62)

end Encode

end FinML.Entropy
