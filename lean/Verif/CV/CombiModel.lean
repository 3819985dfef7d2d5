import Verif.CV.Model
import Mathlib.Data.Rat.Floor

/-!
# Model of CombinatorialPurgedCV, financial_ml/evaluation/backtest.py:59-115

The floats `n_obs / n_groups` and `g * group_size` go through a rounding function `rd`: the identity
for exact arithmetic, `roundDouble` for IEEE doubles.  A generator returned by `split` is the list of
the splits it has still to yield; the state of an object is the per-group record and all generators
created so far, so that any interleaving of calls is a list of operations.
-/

namespace FinML.CV

variable {K : Type} [Field K] [LinearOrder K] [FloorRing K]

/-- `itertools.combinations(l, k)`; backtest.py:31, 90. -/
def combinations {α : Type} : ℕ → List α → List (List α)
  | 0, _ => [[]]
  | _ + 1, [] => []
  | k + 1, x :: xs => (combinations k xs).map (x :: ·) ++ combinations (k + 1) xs

/-- `int(g*self._group_size)`, backtest.py:82 and 92. -/
def groupBound (rd : K → K) (n N g : ℕ) : ℕ := (pyInt (rd ((g : K) * rd ((n : K) / (N : K))))).toNat

/-- `range(int(g*group_size), int((g+1)*group_size))`; backtest.py:92, 112. -/
def group (rd : K → K) (n N g : ℕ) : List ℕ :=
  List.range' (groupBound rd n N g) (groupBound rd n N (g + 1) - groupBound rd n N g)

/-- Nearest integer, ties to even, of a non-negative rational; backtest.py:82, 92. -/
def roundHalfEven (q : ℚ) : ℤ :=
  if q - ⌊q⌋ < 1 / 2 then ⌊q⌋
  else if 1 / 2 < q - ⌊q⌋ then ⌊q⌋ + 1
  else if ⌊q⌋ % 2 = 0 then ⌊q⌋ else ⌊q⌋ + 1

/-- Exponent `e` with `2^52 ≤ q / 2^e < 2^53`; backtest.py:82, 92. -/
def exponent (q : ℚ) : ℤ :=
  let e : ℤ := (Nat.log2 q.num.natAbs : ℤ) - (Nat.log2 q.den : ℤ) - 52
  if q < 2 ^ (52 : ℕ) * (2 : ℚ) ^ e then e - 1 else e

/-- The IEEE double nearest to a non-negative rational (53-bit significand, ties to even; exponents
are not bounded); backtest.py:82, 92. -/
def roundDouble (q : ℚ) : ℚ :=
  if q ≤ 0 then 0 else (roundHalfEven (q / (2 : ℚ) ^ exponent q) : ℚ) * (2 : ℚ) ^ exponent q

/-- The constructor arguments, backtest.py:73-84. -/
structure Cpcv (K : Type) where
  nGroups : ℕ
  nTest : ℕ
  bars : Option (List ℤ)
  events : List Event
  pct : K
  rd : K → K

/-- Group `g` of an object; backtest.py:92. -/
def Cpcv.grp (c : Cpcv K) (g : ℕ) : List ℕ := group c.rd c.events.length c.nGroups g

/-- `test_indices`, backtest.py:91-94. -/
def Cpcv.testOf (c : Cpcv K) (grps : List ℕ) : List ℕ := grps.flatMap c.grp

/-- All choices of test groups in the order of the loop, backtest.py:90. -/
def Cpcv.choices (c : Cpcv K) : List (List ℕ) := combinations c.nTest (List.range c.nGroups)

/-- One iteration of `split` up to the yield, backtest.py:91-97 and 102. -/
def Cpcv.splitOne (c : Cpcv K) (grps : List ℕ) : Py (List ℕ × List ℕ) := do
  let testEvents ← (c.testOf grps).mapM (pyGet c.events)
  let train ← applyPurging c.events testEvents c.bars c.pct
  return (train, c.testOf grps)

/-- `list(split())`, backtest.py:86-102. -/
def Cpcv.splitAll (c : Cpcv K) : Py (List (List ℕ × List ℕ)) := c.choices.mapM c.splitOne

/-- The object and its generators; backtest.py:84-102. -/
structure State where
  /-- `_split_of_test_group` -/
  lists : List (List ℕ)
  /-- what each generator has still to yield: split index and test groups -/
  iters : List (List (ℕ × List ℕ))
  deriving DecidableEq

/-- `self._split_of_test_group[g].append(split_idx)` for each test group, backtest.py:99-100. -/
def record (lists : List (List ℕ)) (p : ℕ × List ℕ) : List (List ℕ) :=
  p.2.foldl (fun ls g => ls.modify g (· ++ [p.1])) lists

/-- Calls on an object: `split()` and `next` on the i-th generator; backtest.py:86-102. -/
inductive Op
  | create
  | advance (i : ℕ)

/-- The state after the body of the loop ran or raised: a failing generator is finished;
backtest.py:86-102. -/
def afterNext (s : State) (i : ℕ) (p : ℕ × List ℕ) (rest : List (ℕ × List ℕ)) :
    Py (List ℕ × List ℕ) → State
  | .ok _ => ⟨record s.lists p, s.iters.set i rest⟩
  | .error _ => ⟨s.lists, s.iters.set i []⟩

/-- What `next` does to the state, given what the generator has left; backtest.py:86-102. -/
def Cpcv.next (c : Cpcv K) (s : State) (i : ℕ) : List (ℕ × List ℕ) → State
  | [] => s
  | p :: rest => afterNext s i p rest (c.splitOne p.2)

/-- One call; backtest.py:86-102. -/
def Cpcv.step (c : Cpcv K) (s : State) : Op → State
  | .create => ⟨s.lists, s.iters ++ [c.choices.zipIdx.map fun p => (p.2, p.1)]⟩
  | .advance i => c.next s i (s.iters.getD i [])

/-- The object after `__init__`, backtest.py:73-84; no groups: division by zero. -/
def Cpcv.init (c : Cpcv K) : Py State :=
  if c.nGroups = 0 then .error .zeroDivision else .ok ⟨List.replicate c.nGroups [], []⟩

/-- The object after a history of calls; backtest.py:86-102. -/
def Cpcv.run (c : Cpcv K) (ops : List Op) (s : State) : State := ops.foldl c.step s

/-- One path, backtest.py:110-115. -/
def Cpcv.path (c : Cpcv K) (lists : List (List ℕ)) (i : ℕ) : Py (List (List ℕ × ℕ)) := do
  let splits ← lists.mapM fun l => pyGet l i
  return ((List.range c.nGroups).map c.grp).zip splits

/-- `list(get_backtest_paths())`, backtest.py:104-115. -/
def Cpcv.paths (c : Cpcv K) (lists : List (List ℕ)) : Py (List (List (List ℕ × ℕ))) := do
  let m ← npMin (lists.map List.length)
  (List.range m).mapM (c.path lists)

end FinML.CV
