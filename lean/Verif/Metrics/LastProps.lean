import Verif.Metrics.AppendProps

/-! # The last data point of drawdowns and times under water (C261)

The documentation says "The last data point will be ignored" (metrics.py:98). -/

namespace FinML.Metrics

set_option linter.unusedSectionVars false

variable {K : Type} [Field K] [LinearOrder K] [IsStrictOrderedRing K]

/-- The documented claim: the result is the same with and without the last data point. -/
def LastIgnored : Prop := ∀ (s : Ser ℚ) (p : ℤ × ℚ) (dollars : Bool),
  ((s ++ [p]).map Prod.fst).Pairwise (· < ·) → ddAndTuw (s ++ [p]) dollars = ddAndTuw s dollars

/-- C261.  A fall at the last data point is reported. -/
theorem C261_last_counterexample : ¬ LastIgnored := by
  intro h
  have := h [(0, 3), (1, 2)] (2, 1) true (by decide)
  revert this
  decide +kernel

theorem blocks_run (t : ℤ) (h : K) : ∀ (run : Ser K) (acc : List K), (∀ p ∈ run, p.2 ≤ h) →
    blocksFrom t h acc run = [(t, h, acc ++ run.map Prod.snd)]
  | [], acc, _ => by simp [blocksFrom]
  | (u, x) :: run, acc, hr => by
    rw [blocksFrom, if_neg (not_lt.2 (hr (u, x) (by simp))), blocks_run t h run _ fun p hp => hr p (by simp [hp])]
    simp

theorem blocks_pre (t : ℤ) (h : K) (rest : Ser K) : ∀ (pre : Ser K) (u : ℤ) (k : K) (acc : List K),
    k < h → (∀ p ∈ pre, p.2 < h) →
    ∃ init, ∀ rest, blocksFrom u k acc (pre ++ (t, h) :: rest) = init ++ blocksFrom t h [h] rest
  | [], u, k, acc, hk, _ => ⟨[(u, k, acc)], fun rest => by rw [List.nil_append, blocksFrom, if_pos hk]; rfl⟩
  | (v, x) :: pre, u, k, acc, hk, hp => by
    have hp' : ∀ p ∈ pre, p.2 < h := fun p hpp => hp p (by simp [hpp])
    by_cases hx : k < x
    · obtain ⟨init, hi⟩ := blocks_pre t h rest pre v x [x] (hp (v, x) (by simp)) hp'
      exact ⟨(u, k, acc) :: init, fun rest => by rw [List.cons_append, blocksFrom, if_pos hx, hi]; rfl⟩
    · obtain ⟨init, hi⟩ := blocks_pre t h rest pre u k (acc ++ [x]) hk hp'
      exact ⟨init, fun rest => by rw [List.cons_append, blocksFrom, if_neg hx, hi]⟩

/-- The rows after the last high. -/
theorem hwmRows_last (pre : Ser K) (t : ℤ) (h : K) (hpre : ∀ p ∈ pre, p.2 < h) :
    ∃ init, ∀ rest, hwmRows (pre ++ (t, h) :: rest) = init ++
      ((blocksFrom t h [h] rest).filterMap fun b : ℤ × K × List K =>
        (groupMin b.2.2).map fun m => (⟨b.1, b.2.1, m⟩ : HwmRow K)).filter (fun r => decide (r.low < r.hwm)) := by
  cases pre with
  | nil => exact ⟨[], fun rest => by rw [List.nil_append, hwmRows_eq, List.nil_append]⟩
  | cons y pre =>
    obtain ⟨u, x⟩ := y
    obtain ⟨init, hi⟩ := blocks_pre t h [] pre u x [x] (hpre (u, x) (by simp)) fun p hp => hpre p (by simp [hp])
    refine ⟨(init.filterMap fun b : ℤ × K × List K =>
      (groupMin b.2.2).map fun m => (⟨b.1, b.2.1, m⟩ : HwmRow K)).filter (fun r => decide (r.low < r.hwm)), fun rest => ?_⟩
    rw [List.cons_append, hwmRows_eq, hi, List.filterMap_append, List.filter_append]

/-- C261 (partial).  What holds instead: with `run` the values since the last new high `h`, another value changes
nothing exactly if it is no lower than the lowest of them.  A lower last value deepens or adds a drawdown. -/
theorem C261_last_partial (s pre run : Ser K) (t : ℤ) (h : K) (hr : HighRun s pre t h run []) (u : ℤ) (v : K) :
    ((∃ y ∈ (t, h) :: run, y.2 ≤ v) → ∀ dollars, ddAndTuw (s ++ [(u, v)]) dollars = ddAndTuw s dollars) ∧
    ((∀ y ∈ (t, h) :: run, v < y.2) → drawdowns (s ++ [(u, v)]) true ≠ drawdowns s true ∧
      ∃ init, drawdowns (s ++ [(u, v)]) true = init ++ [(t, some (h - v))]) := by
  have hs : s = pre ++ (t, h) :: run := by rw [hr.eq, List.append_nil]
  have hs' : s ++ [(u, v)] = pre ++ (t, h) :: (run ++ [(u, v)]) := by rw [hs]; simp
  obtain ⟨init, hi⟩ := hwmRows_last pre t h hr.before
  obtain ⟨m, hm⟩ : ∃ m, groupMin (h :: run.map Prod.snd) = some m := ⟨_, rfl⟩
  have hl := (groupMin_isLeast _ _).1 hm
  have hold : hwmRows s = init ++ if m < h then [⟨t, h, m⟩] else [] := by
    rw [hs, hi, blocks_run t h run [h] hr.under]
    simp only [List.singleton_append, List.filterMap_cons, hm, Option.map_some, List.filterMap_nil, List.filter_cons,
      List.filter_nil, decide_eq_true_eq]
  have hvals : ∀ y : K, y ∈ h :: run.map Prod.snd ↔ ∃ p ∈ (t, h) :: run, p.2 = y := by
    intro y
    simp [eq_comm]
  have happ : v ≤ h → ∀ m', groupMin (h :: (run ++ [(u, v)]).map Prod.snd) = some m' →
      hwmRows (s ++ [(u, v)]) = init ++ if m' < h then [⟨t, h, m'⟩] else [] := by
    intro hv m' hm'
    rw [hs', hi, blocks_run t h _ [h] (by
      intro p hp
      rcases List.mem_append.1 hp with hp | hp
      · exact hr.under p hp
      · rw [List.mem_singleton.1 hp]; exact hv)]
    simp only [List.singleton_append, List.filterMap_cons, hm', Option.map_some, List.filterMap_nil, List.filter_cons,
      List.filter_nil, decide_eq_true_eq]
  constructor
  · rintro ⟨y, hy, hyv⟩ dollars
    have hmv : m ≤ v := le_trans (hl.2 ((hvals y.2).2 ⟨y, hy, rfl⟩)) hyv
    have key : hwmRows (s ++ [(u, v)]) = hwmRows s := by
      by_cases hv : v ≤ h
      · rw [hold]
        refine happ hv m ((groupMin_isLeast _ _).2 ⟨?_, ?_⟩)
        · have := hl.1
          simp only [List.map_append, Set.mem_ofPred_eq] at this ⊢
          rw [← List.cons_append]
          exact List.mem_append_left _ this
        · intro z hz
          simp only [List.map_append, Set.mem_ofPred_eq] at hz
          rw [← List.cons_append] at hz
          rcases List.mem_append.1 hz with hz | hz
          · exact hl.2 hz
          · rw [show z = v by simpa using hz]; exact hmv
      · have hb : blocksFrom t h [h] (run ++ [(u, v)]) = [(t, h, h :: run.map Prod.snd), (u, v, [v])] := by
          have aux : ∀ (run : Ser K) (acc : List K), (∀ p ∈ run, p.2 ≤ h) →
              blocksFrom t h acc (run ++ [(u, v)]) = [(t, h, acc ++ run.map Prod.snd), (u, v, [v])] := by
            intro run
            induction run with
            | nil => intro acc _; simp [blocksFrom, not_le.1 hv]
            | cons z run ih =>
              intro acc hz
              obtain ⟨w, x⟩ := z
              rw [List.cons_append, blocksFrom, if_neg (not_lt.2 (hz (w, x) (by simp))),
                ih _ fun p hp => hz p (by simp [hp])]
              simp
          rw [aux run [h] hr.under]
          rfl
        have hg : groupMin [v] = some v := (groupMin_isLeast _ _).2 ⟨by simp, fun z hz => by
          rw [show z = v by simpa using hz]⟩
        rw [hold, hs', hi, hb]
        simp only [List.filterMap_cons, hm, hg, Option.map_some, List.filterMap_nil, List.filter_cons,
          List.filter_nil, decide_eq_true_eq, lt_irrefl, if_false]
    unfold ddAndTuw drawdowns timeUnderWater
    rw [key]
  · intro hlow
    have hvh : v < h := hlow (t, h) (by simp)
    have hnew := happ hvh.le v ((groupMin_isLeast _ _).2 ⟨by simp, fun z hz => by
      simp only [List.map_append, Set.mem_ofPred_eq] at hz
      rw [← List.cons_append] at hz
      rcases List.mem_append.1 hz with hz | hz
      · obtain ⟨p, hp, rfl⟩ := (hvals z).1 hz
        exact (hlow p hp).le
      · rw [show z = v by simpa using hz]⟩)
    rw [if_pos hvh] at hnew
    have hvm : v < m := by
      obtain ⟨p, hp, e⟩ := (hvals m).1 hl.1
      rw [← e]; exact hlow p hp
    unfold drawdowns
    rw [hnew, hold]
    simp only [if_true]
    refine ⟨fun he => ?_, init.map fun r => (r.time, some (r.hwm - r.low)), by simp⟩
    rw [List.map_append, List.map_append] at he
    have he := List.append_cancel_left he
    by_cases hmh : m < h
    · rw [if_pos hmh] at he
      simp only [List.map_cons, List.map_nil, List.cons.injEq, Prod.mk.injEq, Option.some.injEq, and_true, true_and] at he
      linarith
    · rw [if_neg hmh] at he
      simp at he

/-- The high 3 at time 1 followed by 2 and 5/2: a last value of 2 changes nothing, one of 1 deepens the fall. -/
example : HighRun [(0, 1), (1, 3), (2, 2), (3, 5 / 2)] [(0, 1)] 1 (3 : ℚ) [(2, 2), (3, 5 / 2)] [] ∧
    drawdowns [(0, 1), (1, 3), (2, 2), (3, 5 / 2)] true = [(1, some (1 : ℚ))] ∧
    drawdowns [(0, 1), (1, 3), (2, 2), (3, 5 / 2), (4, 2)] true = [(1, some (1 : ℚ))] ∧
    drawdowns [(0, 1), (1, 3), (2, 2), (3, 5 / 2), (4, 1)] true = [(1, some (2 : ℚ))] := by
  refine ⟨⟨rfl, ?_, ?_, ?_⟩, ?_⟩
  · simp
  · simp; norm_num
  · simp
  · decide +kernel

end FinML.Metrics
