import Verif.Stats.RepeatProps

/-! # Property C322: repeated trials and the deflated Sharpe ratio -/

namespace FinML.Metrics

open FinML.Stats (repeated moment_repeated repeated_length)

/-- Every trial `k` times over. -/
def copies {α : Type} (k : ℕ) (l : List α) : List α := (List.replicate k l).flatten

/-- The full claim: counting every trial twice never raises the deflated Sharpe ratio of a trial. -/
def RepeatedTrials : Prop :=
  ∀ (ax : Axis) (m m' : List (List ℝ)) (r c r' c' : ℕ), Rect m r c → Rect m' r' c' →
    lines m' ax = copies 2 (lines m ax) → ∀ (j : ℕ) (v v' : ℝ),
    (deflatedSharpe m ax).1[j]? = some (some v) → (deflatedSharpe m' ax).1[j]? = some (some v') → v' ≤ v

theorem map_copies {α β : Type} (f : α → β) (k : ℕ) (l : List α) : (copies k l).map f = copies k (l.map f) := by
  unfold copies
  rw [List.map_flatten, List.map_replicate]

theorem allSome_map (l : List ℝ) : allSome (l.map some) = some l := (allSome_eq _ _).2 rfl

theorem benchmark_eq {m : List (List ℝ)} {ax : Axis} {b : ℝ} (h : deflatedBenchmark m ax = some b) :
    ∃ srs, sharpeRatio m ax = srs.map some ∧ 2 ≤ srs.length ∧ b = npStd srs * expectedMax srs.length := by
  unfold deflatedBenchmark at h
  cases hs : allSome (sharpeRatio m ax) with
  | none => rw [hs] at h; cases h
  | some srs =>
    rw [hs] at h
    simp only [Option.bind_eq_bind, Option.bind_some] at h
    by_cases hl : srs.length ≤ 1
    · rw [if_pos hl] at h; cases h
    · rw [if_neg hl, Option.some.injEq] at h
      exact ⟨srs, (allSome_eq _ _).1 hs, by omega, h.symm⟩

/-- C322.  Counting every trial `k` times never lowers the benchmark; more than once, it raises a positive one. -/
theorem C322_benchmark (ax : Axis) (m m' : List (List ℝ)) (k : ℕ) (hk : 0 < k)
    (hl : lines m' ax = copies k (lines m ax)) (b : ℝ) (hb : (deflatedSharpe m ax).2 = some b) :
    ∃ b', (deflatedSharpe m' ax).2 = some b' ∧ b ≤ b' ∧ (1 < k → 0 < b → b < b') := by
  have hb1 : deflatedBenchmark m ax = some b := hb
  obtain ⟨srs, h1, h2, rfl⟩ := benchmark_eq hb1
  have h1' : sharpeRatio m' ax = (repeated k srs).map some := by
    unfold sharpeRatio at h1 ⊢
    rw [hl, map_copies, h1]
    unfold copies repeated
    rw [List.map_flatten, List.map_replicate]
  have hstd : npStd (repeated k srs) = npStd srs := by unfold npStd; rw [moment_repeated k hk]
  have hlen : (repeated k srs).length = k * srs.length := repeated_length k srs
  have hle : srs.length ≤ k * srs.length := Nat.le_mul_of_pos_left _ hk
  have h0 : 0 ≤ npStd srs := Real.sqrt_nonneg _
  obtain ⟨hpos, hmono⟩ := expectedMax_pos_strictMono
  refine ⟨npStd srs * expectedMax (k * srs.length), ?_, ?_, ?_⟩
  · show deflatedBenchmark m' ax = _
    unfold deflatedBenchmark
    rw [h1', allSome_map]
    simp only [Option.bind_eq_bind, Option.bind_some]
    rw [if_neg (by omega), hstd, hlen]
  · apply mul_le_mul_of_nonneg_left _ h0
    rcases hle.eq_or_lt with h | h
    · rw [← h]
    · exact (hmono _ _ h2 h).le
  · intro hk1 hp
    apply mul_lt_mul_of_pos_left (hmono _ _ h2 (by nlinarith))
    exact pos_of_mul_pos_left hp (hpos _ h2).le

theorem cdfQuot_mono {a b r u v : ℝ} (hab : a ≤ b) (hu : cdfQuot a r = some u) (hv : cdfQuot b r = some v) : u ≤ v := by
  unfold cdfQuot at hu hv
  split_ifs at hu hv with h1 h2 h3 h4 h5 h6 h7 h8 <;>
    simp only [Option.some.injEq] at hu hv <;> subst hu <;> subst hv
  all_goals first
    | exact le_refl _
    | exact zero_le_one
    | (exfalso; linarith)
    | exact normCdf_strictMono.monotone (div_le_div_of_nonneg_right hab (Real.sqrt_nonneg _))

theorem psrLine_anti {l : List ℝ} {b b' u v : ℝ} {T : ℕ} (hb : b ≤ b') (hu : psrLine l b T = some u)
    (hv : psrLine l b' T = some v) : v ≤ u := by
  unfold psrLine at hu hv
  cases h1 : sharpe l with
  | none => rw [h1] at hu; cases hu
  | some sr =>
    cases h2 : skew l with
    | none => rw [h1, h2] at hu; cases hu
    | some s =>
      cases h3 : kurtosis l with
      | none => rw [h1, h2, h3] at hu; cases hu
      | some k =>
        rw [h1, h2, h3] at hu hv
        simp only [Option.bind_eq_bind, Option.bind_some] at hu hv
        exact cdfQuot_mono (mul_le_mul_of_nonneg_right (by linarith) (Real.sqrt_nonneg _)) hv hu

theorem copies_getElem? {α : Type} (k : ℕ) (hk : 0 < k) (l : List α) (j : ℕ) (hj : j < l.length) :
    (copies k l)[j]? = l[j]? := by
  obtain ⟨k, rfl⟩ : ∃ n, k = n + 1 := ⟨k - 1, by omega⟩
  unfold copies
  rw [List.replicate_succ, List.flatten_cons, List.getElem?_append_left hj]

/-- C322 (partial).  With one row per trial, counting every trial `k` times never raises the deflated Sharpe ratio of a
trial.  Missing: one column per trial, where it fails, see `C322_trials_counterexample`. -/
theorem C322_trials_partial (m : List (List ℝ)) (k : ℕ) (hk : 0 < k) (j : ℕ) (v v' : ℝ)
    (hv : (deflatedSharpe m .cols).1[j]? = some (some v))
    (hv' : (deflatedSharpe (copies k m) .cols).1[j]? = some (some v')) : v' ≤ v := by
  have hbd : ∀ m : List (List ℝ), ∀ v : ℝ, (deflatedSharpe m .cols).1[j]? = some (some v) →
      ∃ b l, (deflatedSharpe m .cols).2 = some b ∧ m[j]? = some l ∧ psrLine l b (numObs m .cols) = some v := by
    intro m v hv
    unfold deflatedSharpe at hv ⊢
    cases hb : deflatedBenchmark m .cols with
    | none =>
      rw [hb] at hv
      simp only [Option.elim, List.getElem?_map, Option.map_eq_some_iff] at hv
      obtain ⟨_, _, h⟩ := hv
      cases h
    | some b =>
      rw [hb] at hv
      simp only [Option.elim, psr, lines, List.getElem?_map, Option.map_eq_some_iff] at hv
      obtain ⟨l, h1, h2⟩ := hv
      exact ⟨b, l, rfl, h1, h2⟩
  obtain ⟨b, l, e1, e2, e3⟩ := hbd m v hv
  obtain ⟨b', l', f1, f2, f3⟩ := hbd _ v' hv'
  have hj : j < m.length := (List.getElem?_eq_some_iff.1 e2).1
  rw [copies_getElem? k hk m j hj, e2, Option.some.injEq] at f2
  subst f2
  obtain ⟨b'', g1, g2, -⟩ := C322_benchmark .cols m (copies k m) k hk rfl b e1
  rw [f1, Option.some.injEq] at g1
  subst g1
  have hobs : numObs (copies k m) .cols = numObs m .cols := by
    unfold numObs
    obtain ⟨k, rfl⟩ : ∃ n, k = n + 1 := ⟨k - 1, by omega⟩
    cases m with
    | nil => cases hj
    | cons a m => simp [copies, List.replicate_succ]
  rw [hobs] at f3
  exact psrLine_anti g2 e3 f3

theorem line_zero_two : sharpe [0, 2] = some 1 ∧ skew [0, 2] = some 0 ∧ kurtosis [0, 2] = some (-2) := by
  have h1 : npAvg [0, 2] = 1 := by norm_num [npAvg]
  have h2 : moment 2 [0, 2] = 1 := by unfold moment; rw [h1]; norm_num [npAvg]
  have h3 : moment 3 [0, 2] = 0 := by unfold moment; rw [h1]; norm_num [npAvg]
  have h4 : moment 4 [0, 2] = 1 := by unfold moment; rw [h1]; norm_num [npAvg]
  have h5 : npStd [0, 2] = 1 := by unfold npStd; rw [h2]; norm_num
  refine ⟨?_, ?_, ?_⟩
  · unfold sharpe fdiv; rw [h1, h5]; norm_num
  · unfold skew fdiv; rw [h3, h5]; norm_num
  · unfold kurtosis fdiv; rw [h4, h2]; norm_num

theorem psrLine_zero_two (T : ℕ) : psrLine [0, 2] 0 T = some (normCdf (√((T : ℝ) - 1) * 2)) := by
  obtain ⟨h1, h2, h3⟩ := line_zero_two
  unfold psrLine
  rw [h1, h2, h3]
  simp only [Option.bind_eq_bind, Option.bind_some]
  unfold cdfQuot psrRadicand
  rw [if_neg (by norm_num), if_neg (by norm_num)]
  congr 2
  rw [show (1 - 0 * 1 + (-2 - 1) / 4 * 1 ^ 2 : ℝ) = (1 / 2) ^ 2 by norm_num, Real.sqrt_sq (by norm_num)]
  ring

/-- C322 (refuted).  Two columns of the returns 0 and 2: counted twice, the number of observations of each trial is taken to
be twice as large, and the deflated Sharpe ratio rises. -/
theorem C322_trials_counterexample : ¬ RepeatedTrials := by
  intro h
  have hstd : ∀ n : ℕ, npStd (List.replicate n (1 : ℝ)) = 0 := by
    intro n
    have : ¬ NonConst (List.replicate n (1 : ℝ)) := by
      rintro ⟨x, hx, y, hy, hne⟩
      exact hne ((List.eq_of_mem_replicate hx).trans (List.eq_of_mem_replicate hy).symm)
    rw [← npStd_pos_iff] at this
    exact le_antisymm (not_lt.1 this) (Real.sqrt_nonneg _)
  have hval : ∀ (m : List (List ℝ)) (n : ℕ), 2 ≤ n → lines m .rows = List.replicate n [0, 2] →
      (deflatedSharpe m .rows).1[0]? = some (some (normCdf (√((numObs m .rows : ℝ) - 1) * 2))) := by
    intro m n hn hl
    have hb : deflatedBenchmark m .rows = some 0 := by
      unfold deflatedBenchmark sharpeRatio
      rw [hl, List.map_replicate, line_zero_two.1, ← List.map_replicate, allSome_map]
      simp only [Option.bind_eq_bind, Option.bind_some]
      rw [if_neg (by rw [List.length_replicate]; omega), hstd, zero_mul]
    unfold deflatedSharpe
    rw [hb]
    simp only [Option.elim, psr]
    rw [hl, List.map_replicate, psrLine_zero_two, List.getElem?_replicate, if_pos (by omega)]
  have h1 := hval [[0, 0], [2, 2]] 2 (le_refl _) (by simp [lines, List.range_succ])
  have h2 := hval [[0, 0, 0, 0], [2, 2, 2, 2]] 4 (by norm_num) (by simp [lines, List.range_succ])
  have := h .rows [[0, 0], [2, 2]] [[0, 0, 0, 0], [2, 2, 2, 2]] 2 2 2 4 ⟨rfl, by norm_num, by simp⟩
    ⟨rfl, by norm_num, by simp⟩ (by simp [lines, copies, List.range_succ]) 0 _ _ h1 h2
  have hlt : √((numObs [[0, 0], [2, 2]] .rows : ℝ) - 1) * 2 < √((numObs [[0, 0, 0, 0], [2, 2, 2, 2]] .rows : ℝ) - 1) * 2 := by
    apply mul_lt_mul_of_pos_right _ two_pos
    apply Real.sqrt_lt_sqrt <;> norm_num [numObs]
  exact absurd this (not_le.2 (normCdf_strictMono hlt))

/-- Two trials as rows meet the hypotheses: their benchmark is positive and rises when they are counted twice. -/
example : ∃ b b', (deflatedSharpe [[-1, 1], [1, 3]] .cols).2 = some b ∧
    (deflatedSharpe (copies 2 [[-1, 1], [1, 3]]) .cols).2 = some b' ∧ b < b' := by
  have hs : sharpeRatio [[-1, 1], [1, 3]] .cols = [0, 2].map some := by
    obtain ⟨h1, -, -, -, h5⟩ := moments_one_three
    have e1 : sharpe [1, 3] = some 2 := by unfold sharpe fdiv; rw [h1, h5]; norm_num
    simp [sharpeRatio, lines, line_pm_one.2.1, e1]
  obtain ⟨b, h1, -, h3, h4, -⟩ := C140_deflated _ _ _ hs (by simp)
  obtain ⟨b', g1, -, g3⟩ := C322_benchmark .cols _ (copies 2 [[-1, 1], [1, 3]]) 2 two_pos rfl b h1
  refine ⟨b, b', h1, g1, g3 (by norm_num) (lt_of_le_of_ne h3 ?_)⟩
  intro h0
  exact h4.1 h0.symm ⟨0, by simp, 2, by simp, by norm_num⟩

end FinML.Metrics
