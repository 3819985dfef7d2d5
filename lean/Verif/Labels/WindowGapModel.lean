import Verif.Labels.WindowModel
import Mathlib.Data.List.ReduceOption

/-! # Returns of fixed-window events with missing prices (triple_barrier.py:149-183); NaN is `none`. -/

namespace FinML.Labels

/-- A bar whose prices may be missing; triple_barrier.py:177-178. -/
structure PBarM where
  time : ℤ
  op : Option ℝ
  close : Option ℝ

/-- One row of `rets`, triple_barrier.py:176-179. -/
structure RetRowM where
  time : ℤ
  c : Option ℝ
  oc : Option ℝ

/-- `np.log(close/open)`, NaN if one of them is; triple_barrier.py:178. -/
noncomputable def openCloseM (b : PBarM) : Option ℝ := b.close.bind fun y => b.op.map fun x => Real.log (y / x)

/-- `rets`, triple_barrier.py:176-179, with the close of the bar before. -/
noncomputable def retRowsM (prev : Option ℝ) : List PBarM → List RetRowM
  | [] => []
  | b :: bs => ⟨b.time, b.close.bind fun y => prev.map fun p => Real.log y - Real.log p, openCloseM b⟩ :: retRowsM b.close bs

/-- `_ret_in_period`, triple_barrier.py:149-151: `sum` skips NaN, and the NaN of `oc` stays. -/
noncomputable def retInPeriodM (rets : List RetRowM) (start stop : ℤ) : Py (Option ℝ) :=
  match rets.filter fun r => start ≤ r.time ∧ r.time ≤ stop with
  | [] => .error .indexError
  | r :: rs => .ok (r.oc.map fun o => ((r :: rs).filterMap RetRowM.c).sum + o)

open Classical in
/-- `get_fixed_window_events` with returns, triple_barrier.py:134-185; restrictions as for `fixedWindowReturns`. -/
noncomputable def fixedWindowReturnsM (bars : List PBarM) (window gap : ℤ) (drop align : Bool) :
    Py (List (Win × Option ℝ)) := do
  let ws ← fixedWindows (bars.map PBarM.time) window gap drop align
  if ws = [] ∨ ¬ ∀ b ∈ bars, (∀ x, b.op = some x → 0 < x) ∧ ∀ x, b.close = some x → 0 < x then throw .unmodelled
  else ws.mapM fun w => do
    let r ← retInPeriodM (retRowsM none bars) w.start w.stop
    return (w, r)

end FinML.Labels
