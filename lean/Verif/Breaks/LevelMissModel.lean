import Verif.Breaks.GapModel

/-! # The CUSUM test on levels for values with gaps (structural_breaks.py:30-46); NaN is `none` or `FExt.nan`. -/

namespace FinML.Breaks

open FinML.Options

/-- Sum of floats, NaN if one is; structural_breaks.py:43. -/
noncomputable def sumM (l : List (Option ℝ)) : Option ℝ := l.foldr (fun a b => a.bind fun x => b.map fun y => x + y) (some 0)

/-- `sigma`, structural_breaks.py:41-43: `np.cumsum` does not skip NaN. -/
noncomputable def levelSigmaM (y : List (Option ℝ)) : List (Option ℝ) :=
  let sq := (diffM y).map fun d => d.map fun x => x ^ 2
  (List.range sq.length).map fun i => (sumM (sq.take (i + 1))).map fun s => √(1 / ((i : ℝ) + 2 - 1) * s)

/-- One entry of `res`, structural_breaks.py:44. -/
noncomputable def levelStatM (y yn sigma : Option ℝ) (c : ℝ) : FExt :=
  match y, yn, sigma with
  | some a, some b, some s => FExt.div (.fin (a - b)) (s * c)
  | _, _, _ => .nan

/-- `levels_cusum_stats`, structural_breaks.py:30-46. -/
noncomputable def levelsCusumStatsM (y : List (Option ℝ)) (n : ℕ) : Py (Option (List FExt × List (Option ℝ))) :=
  if y.length < 2 then .ok none
  else do
    let yn ← pyGet y n
    let res := ((y.drop (n + 1)).zip ((levelSigmaM y).drop n)).mapIdx fun j x =>
      levelStatM x.1 yn x.2 (√((n : ℝ) + j + 2 - (n + 1)))
    return some (res, res.map pvalue)

end FinML.Breaks
