import Verif.Default.Model

/-!
# Model of `create_systematic_default_dataset` and `get_systematic_default_probs`,
financial_ml/features/systematic_default.py:185-191 and 242-264

A table is a list of rows labelled by date; a missing number is `none`.  A dict is a list of keys and
values with distinct keys.
-/

namespace FinML.Default

section Merge

variable {F K : Type}

/-- `left.merge(right, on='date')`: an inner join that keeps the order of the left rows, and for each of
them the order of the matching right rows; systematic_default.py:186-189. -/
def innerMerge {A B : Type} (left : List (ℤ × A)) (right : List (ℤ × B)) : List (ℤ × (A × B)) :=
  left.flatMap fun l => (right.filter fun r => decide (r.1 = l.1)).map fun r => (l.1, (l.2, r.2))

/-- A row of the joined table: the firm data and the three columns added to it;
systematic_default.py:186-190. -/
structure Joined (F K : Type) where
  /-- columns of `firm_data` -/
  firm : F
  /-- `treasury_yield` -/
  yield : K
  /-- `bonds_index` -/
  bonds : Option K
  /-- `equities_index` -/
  equities : Option K
  deriving DecidableEq

/-- `dropna(subset='treasury_yield')` on one row, systematic_default.py:190. -/
def keepYield (r : ℤ × (((F × Option K) × Option K) × Option K)) : Option (ℤ × Joined F K) :=
  r.2.1.1.2.map fun y => (r.1, ⟨r.2.1.1.1, y, r.2.1.2, r.2.2⟩)

/-- `create_systematic_default_dataset`, systematic_default.py:185-191. -/
def createDataset (firmData : List (ℤ × F)) (treasury bonds equities : List (ℤ × Option K)) :
    List (ℤ × Joined F K) :=
  (innerMerge (innerMerge (innerMerge firmData treasury) bonds) equities).filterMap keepYield

end Merge

/-- The entry of `firms_data` of one ticker, systematic_default.py:254-257. -/
structure FirmState where
  /-- `equity_value` -/
  equity : ℝ
  /-- `debt_value` -/
  debt : ℝ
  /-- `debt_maturity` -/
  maturity : ℝ
  /-- `risk_free_rate` -/
  riskFree : ℝ

/-- `d[key]` for a dict; systematic_default.py:254-257. -/
def dictGet {A : Type} (d : List (String × A)) (key : String) : Py A :=
  match d.find? fun p => p.1 = key with
  | some p => .ok p.2
  | none => .error .keyError

/-- A NaN probability makes every count NaN; this is not modelled further;
systematic_default.py:262. -/
def knownProb : Option ℝ → Py ℝ
  | some p => .ok p
  | none => .error .unmodelled

/-- One entry of `firm_models`, systematic_default.py:244-249, with the default `equity_ratio`. -/
noncomputable def firmModel (newton : (ℝ → Py (Option ℝ)) → ℝ → ℝ → ℕ → Py ℝ)
    (ols : List (List ℝ) → List ℝ → List ℝ) (interval marketRet : ℝ) (e : String × List FirmRow) :
    Py (String × FirmParams) := do
  let r ← createFirmModel newton ols e.2 interval marketRet (81 / 100)
  return (e.1, r.1)

/-- One entry of `default_probs`, systematic_default.py:253-259. -/
noncomputable def firmProb (newton : (ℝ → Py (Option ℝ)) → ℝ → ℝ → ℕ → Py ℝ)
    (firmsData : List (String × FirmState)) (marketRet : ℝ) (m : String × FirmParams) :
    Py (String × ℝ) := do
  let d ← dictGet firmsData m.1
  let o ← predictDefault newton m.2 d.equity d.debt d.maturity d.riskFree marketRet
  let p ← knownProb o
  return (m.1, p)

/-- `get_systematic_default_probs`, systematic_default.py:242-264: the probabilities of the counts, those of
the firms, and the parameters of the firms. -/
noncomputable def getSystematicDefaultProbs (newton : (ℝ → Py (Option ℝ)) → ℝ → ℝ → ℕ → Py ℝ)
    (ols : List (List ℝ) → List ℝ → List ℝ) (datasets : List (String × List FirmRow)) (interval : ℝ)
    (firmsData : List (String × FirmState)) (marketRet : ℝ) :
    Py (List ℝ × List (String × ℝ) × List (String × FirmParams)) := do
  let models ← datasets.mapM (firmModel newton ols interval marketRet)
  let probs ← models.mapM (firmProb newton firmsData marketRet)
  let v ← systematicDefaultProbs (probs.map Prod.snd)
  return (v, probs, models)

end FinML.Default
