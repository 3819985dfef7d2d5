import Verif.Metrics.DdProps

/-! # Drawdowns and times under water when values are appended (C226) -/

namespace FinML.Metrics

set_option linter.unusedSectionVars false

variable {K : Type} [Field K] [LinearOrder K] [IsStrictOrderedRing K]

theorem blocks_append (a b : Ser K) : ∀ (t : ℤ) (h : K) (acc : List K), acc ≠ [] →
    ∃ init u k v more post, v ≠ [] ∧ blocksFrom t h acc a = init ++ [(u, k, v)] ∧
      blocksFrom t h acc (a ++ b) = init ++ (u, k, v ++ more) :: post := by
  induction a with
  | nil =>
    intro t h acc hacc
    have key : ∀ (c : Ser K) (acc : List K), ∃ more post, blocksFrom t h acc c = (t, h, acc ++ more) :: post := by
      intro c
      induction c with
      | nil => exact fun acc => ⟨[], [], by simp [blocksFrom]⟩
      | cons y c ih =>
        intro acc
        obtain ⟨u, x⟩ := y
        by_cases hx : h < x
        · exact ⟨[], blocksFrom u x [x] c, by rw [blocksFrom, if_pos hx, List.append_nil]⟩
        · obtain ⟨more, post, hmp⟩ := ih (acc ++ [x])
          exact ⟨x :: more, post, by rw [blocksFrom, if_neg hx, hmp]; simp⟩
    obtain ⟨more, post, hmp⟩ := key b acc
    exact ⟨[], t, h, acc, more, post, hacc, rfl, hmp⟩
  | cons y a ih =>
    intro t h acc hacc
    obtain ⟨u, x⟩ := y
    rw [List.cons_append, blocksFrom, blocksFrom]
    by_cases hx : h < x
    · obtain ⟨init, u', k, v, more, post, h0, h1, h2⟩ := ih u x [x] (by simp)
      rw [if_pos hx, if_pos hx, h1, h2]
      exact ⟨(t, h, acc) :: init, u', k, v, more, post, h0, rfl, rfl⟩
    · rw [if_neg hx, if_neg hx]
      exact ih t h (acc ++ [x]) (by simp)

/-- The rows of `df1` after more values: all but the last are as before, the last one can only get lower. -/
theorem hwmRows_append (a b : Ser K) : hwmRows a = [] ∨ ∃ init r r' post, hwmRows a = init ++ [r] ∧
    hwmRows (a ++ b) = init ++ r' :: post ∧ r'.time = r.time ∧ r'.hwm = r.hwm ∧ r'.low ≤ r.low := by
  cases a with
  | nil => exact .inl rfl
  | cons y a =>
    obtain ⟨t, x⟩ := y
    rw [List.cons_append, hwmRows_eq, hwmRows_eq]
    obtain ⟨init, u, k, v, more, post, h0, h1, h2⟩ := blocks_append a b t x [x] (by simp)
    rw [h1, h2]
    simp only [List.filterMap_append, List.filter_append]
    obtain ⟨w, ws, rfl⟩ := List.exists_cons_of_ne_nil h0
    obtain ⟨m, hm⟩ : ∃ m, groupMin (w :: ws) = some m := ⟨_, rfl⟩
    obtain ⟨m', hm'⟩ : ∃ m', groupMin (w :: ws ++ more) = some m' := ⟨_, rfl⟩
    have hle : m' ≤ m := ((groupMin_isLeast _ _).1 hm').2
      (List.mem_append_left _ ((groupMin_isLeast _ _).1 hm).1)
    generalize hI : (init.filterMap fun b : ℤ × K × List K =>
      (groupMin b.2.2).map fun m => (⟨b.1, b.2.1, m⟩ : HwmRow K)).filter (fun r => decide (r.low < r.hwm)) = I
    simp only [List.filterMap_cons, hm, hm', Option.map_some, List.filterMap_nil, List.filter_cons, List.filter_nil]
    generalize hP : (post.filterMap fun b : ℤ × K × List K =>
      (groupMin b.2.2).map fun m => (⟨b.1, b.2.1, m⟩ : HwmRow K)).filter (fun r => decide (r.low < r.hwm)) = P
    by_cases hlow : m < k
    · refine .inr ⟨I, ⟨u, k, m⟩, ⟨u, k, m'⟩, P, by simp [hlow], ?_, rfl, rfl, hle⟩
      rw [if_pos (by simpa using lt_of_le_of_lt hle hlow)]
    · rcases List.eq_nil_or_concat I with rfl | ⟨I', r, rfl⟩
      · left
        simp [hlow]
      · right
        refine ⟨I', r, r, if decide (m' < k) = true then ⟨u, k, m'⟩ :: P else P, by simp [hlow], ?_, rfl, rfl, le_rfl⟩
        simp

/-- C226.  Values appended to the series leave every reported drawdown but the last as it is; the last one
keeps its time and can only get deeper (relative drawdowns for positive values). -/
theorem C226_drawdowns (a b : Ser K) (dollars : Bool) (hpos : dollars = false → ∀ p ∈ a, 0 < p.2) :
    drawdowns a dollars = [] ∨ ∃ (init : List (ℤ × Option K)) (t : ℤ) (d d' : K) (post : List (ℤ × Option K)),
      drawdowns a dollars = init ++ [(t, some d)] ∧
      drawdowns (a ++ b) dollars = init ++ (t, some d') :: post ∧ d ≤ d' := by
  unfold drawdowns
  rcases hwmRows_append a b with h | ⟨init, r, r', post, h1, h2, h3, h4, h5⟩
  · exact .inl (by rw [h]; rfl)
  right
  rw [h1, h2]
  simp only [List.map_append, List.map_cons, List.map_nil, h3, h4]
  cases dollars with
  | true => exact ⟨_, r.time, r.hwm - r.low, r.hwm - r'.low, _, rfl, rfl, by linarith⟩
  | false =>
    have hr : 0 < r.hwm := by
      obtain ⟨pre, run, pst, hrun, -⟩ := (mem_hwmRows a r.time r.hwm r.low).1 (by rw [h1]; simp)
      exact hpos rfl (r.time, r.hwm) (by rw [hrun.eq]; simp)
    simp only [Bool.false_eq_true, if_false]
    have hd : ∀ v : K, (fdiv v r.hwm).map (fun q => 1 - q) = some (1 - v / r.hwm) := by
      intro v
      unfold fdiv
      rw [if_neg hr.ne']
      rfl
    rw [hd, hd]
    refine ⟨_, r.time, 1 - r.low / r.hwm, 1 - r'.low / r.hwm, _, rfl, rfl, ?_⟩
    have := div_le_div_of_nonneg_right h5 hr.le
    linarith

/-- C226.  Times under water that have been reported do not change. -/
theorem C226_under_water (a b : Ser K) : timeUnderWater a <+: timeUnderWater (a ++ b) := by
  unfold timeUnderWater
  rcases hwmRows_append a b with h | ⟨init, r, r', post, h1, h2, h3, -, -⟩
  · rw [h]
    exact List.nil_prefix
  rw [h1, h2]
  simp only [List.map_append, List.map_cons, List.map_nil, h3]
  generalize init.map HwmRow.time = ts
  generalize post.map HwmRow.time = us
  generalize r.time = t
  induction ts with
  | nil => simp
  | cons u ts ih =>
    cases ts with
    | nil =>
      cases us with
      | nil => simp
      | cons v us => simp
    | cons w ts =>
      simp only [List.cons_append, List.dropLast_cons_cons, List.tail_cons, List.zipWith_cons_cons] at ih ⊢
      rw [List.cons_prefix_cons]
      exact ⟨rfl, ih⟩

/-- A fall of 1, then a new high; the appended values deepen the second fall and end it. -/
example : drawdowns [(0, 3), (1, 2), (2, 4), (3, 3)] true = [(0, some (1 : ℚ)), (2, some 1)] ∧
    drawdowns [(0, 3), (1, 2), (2, 4), (3, 3), (4, 1), (5, 5)] true = [(0, some (1 : ℚ)), (2, some 3)] := by
  decide +kernel

end FinML.Metrics
