import Verif.Stats.Model

/-! # Durbin-Watson statistic of residuals with missing values (stats.py:12-13); NaN is `none`. -/

namespace FinML.Stats

/-- `np.sum` of values some of which may be NaN: one NaN makes the sum NaN; stats.py:13. -/
noncomputable def npSum (l : List (Option ℝ)) : Option ℝ :=
  l.foldl (fun s x => s.bind fun a => x.map fun b => a + b) (some 0)

/-- `durbin_watson_stat`, stats.py:12-13, as `durbinWatson`: `np.sum(np.diff(e)**2) / np.sum(e**2)` where NaN spreads through
every operation. -/
noncomputable def durbinWatsonM (e : List (Option ℝ)) : Option ℝ :=
  let diffs := List.zipWith (fun a b => a.bind fun x => b.map fun y => y - x) e e.tail
  (npSum (diffs.map fun o => o.map (· ^ 2))).bind fun num =>
    (npSum (e.map fun o => o.map (· ^ 2))).bind fun den => fdiv num den

end FinML.Stats
