import Verif.Py.Basic
import Mathlib.Analysis.SpecialFunctions.Log.Basic

/-!
# Fixed-window events, financial_ml/labeling/triple_barrier.py:134-185
-/

namespace FinML.Labels

/-- An event: the feature bar, START_TIME and END_TIME; triple_barrier.py:153-158. -/
structure Win where
  bar : ℤ
  start : ℤ
  stop : ℤ
  deriving DecidableEq, Repr

/-- `events[is_completed]`, triple_barrier.py:160-162; `bars.index[-1]` raises on no bars. -/
def dropPartial (index : List ℤ) (ws : List Win) : Py (List Win) := do
  let last ← pyLast index
  return ws.filter fun w => w.stop ≤ last

/-- `is_started` and the new START_TIME, triple_barrier.py:165-169. -/
def alignStart (index : List ℤ) (ws : List Win) : List Win :=
  (ws.filter fun w => searchLeft index w.start < index.length).map fun w =>
    { w with start := index.getD (searchLeft index w.start) 0 }

/-- The new END_TIME, triple_barrier.py:171-173. -/
def alignStop (index : List ℤ) (ws : List Win) : List Win :=
  ws.map fun w => { w with stop := index.getD (min (searchLeft index w.stop) (index.length - 1)) 0 }

/-- `get_fixed_window_events` without the returns, triple_barrier.py:153-173.  The bar index must be
strictly increasing (documented at :143); other indices are not modelled. -/
def fixedWindows (index : List ℤ) (window gap : ℤ) (drop align : Bool) : Py (List Win) := do
  if ¬ index.Pairwise (· < ·) then throw .unmodelled
  let ws := index.map fun t => ⟨t, t + gap, t + window⟩
  let ws1 ← if drop then dropPartial index ws else pure ws
  return if align then alignStop index (alignStart index ws1) else ws1

/-- A bar: time, open and close; triple_barrier.py:177-178. -/
structure PBar where
  time : ℤ
  op : ℝ
  close : ℝ

/-- One row of `rets`, triple_barrier.py:176-179: the close-to-close log return `c` (NaN on the first
bar) and the open-to-close log return `oc`. -/
structure RetRow where
  time : ℤ
  c : Option ℝ
  oc : ℝ

/-- `rets`, triple_barrier.py:176-179, with the log close of the bar before. -/
noncomputable def retRows (prev : Option ℝ) : List PBar → List RetRow
  | [] => []
  | b :: bs =>
    ⟨b.time, prev.map fun p => Real.log b.close - p, Real.log (b.close / b.op)⟩ ::
      retRows (some (Real.log b.close)) bs

/-- `_ret_in_period`, triple_barrier.py:149-151: `sum` skips NaN; `iloc[0]` raises on an empty
slice. -/
noncomputable def retInPeriod (rets : List RetRow) (start stop : ℤ) : Py ℝ :=
  match rets.filter fun r => start ≤ r.time ∧ r.time ≤ stop with
  | [] => .error .indexError
  | r :: rs => .ok (((r :: rs).filterMap RetRow.c).sum + r.oc)

open Classical in
/-- `get_fixed_window_events` with returns, triple_barrier.py:134-185.  Prices must be positive (the
logarithms would be NaN or infinite), and there must be at least one event (`DataFrame.apply` on an
empty frame returns a frame, not a series): the other cases are not modelled. -/
noncomputable def fixedWindowReturns (bars : List PBar) (window gap : ℤ) (drop align : Bool) :
    Py (List (Win × ℝ)) := do
  let ws ← fixedWindows (bars.map PBar.time) window gap drop align
  if ws = [] ∨ ¬ ∀ b ∈ bars, 0 < b.op ∧ 0 < b.close then throw .unmodelled
  else ws.mapM fun w => do
    let r ← retInPeriod (retRows none bars) w.start w.stop
    return (w, r)

end FinML.Labels
