import Verif.Metrics.SharpeProps

/-! # C232: the probabilistic Sharpe ratio and a constant gain; edge cases of C98 and C140 -/

namespace FinML.Metrics

/-- C98, zero under the root: the quotient is infinite, so the result is 1 below the observed ratio, 0 above
it, and no number at it. -/
theorem C98_zero_radicand (l : List ℝ) (h : NonConst l) (sr s k : ℝ) (h1 : sharpe l = some sr)
    (h2 : skew l = some s) (h3 : kurtosis l = some k)
    (hrad : 1 - s * sr + (k - 1) / 4 * sr ^ 2 = 0) (b : ℝ) :
    (b < sr → psr1 l b = some 1) ∧ (sr < b → psr1 l b = some 0) ∧ (b = sr → psr1 l b = none) := by
  have hn := nonConst_length h
  have hn' : (0 : ℝ) < √((l.length : ℝ) - 1) := by
    apply Real.sqrt_pos.2
    have : (2 : ℝ) ≤ (l.length : ℝ) := by exact_mod_cast hn
    linarith
  unfold psr1 psrLine
  rw [h1, h2, h3]
  simp only [Option.bind_eq_bind, Option.bind_some]
  unfold cdfQuot psrRadicand
  rw [hrad, if_neg (lt_irrefl _), if_pos rfl]
  refine ⟨?_, ?_, ?_⟩
  · intro hb
    rw [if_pos (mul_pos (by linarith) hn')]
  · intro hb
    have : (sr - b) * √((l.length : ℝ) - 1) < 0 := mul_neg_of_neg_of_pos (by linarith) hn'
    rw [if_neg (not_lt.2 this.le), if_pos this]
  · rintro rfl
    simp

theorem gain_stats (l : List ℝ) (hl : l ≠ []) (c : ℝ) :
    npAvg (l.map fun x => x + c) = npAvg l + c ∧ npStd (l.map fun x => x + c) = npStd l ∧
    skew (l.map fun x => x + c) = skew l ∧ kurtosis (l.map fun x => x + c) = kurtosis l := by
  have e : (l.map fun x => x + c) = l.map fun x => 1 * x + c := by simp
  have hm : ∀ k, moment k (l.map fun x => x + c) = moment k l := by
    intro k
    rw [e, moment_affine]
    simp
  have hs : npStd (l.map fun x => x + c) = npStd l := by unfold npStd; rw [hm]
  refine ⟨by rw [e, npAvg_map_affine l hl, one_mul], hs, ?_, ?_⟩
  · unfold skew; rw [hm, hs]
  · unfold kurtosis; rw [hm, hm]

/-- Returns of -1 and 1, raised until the number under the root is 0. -/
example : ∃ sr s k : ℝ, NonConst ([-1, 1].map fun x => x + 2 / √3) ∧
    sharpe ([-1, 1].map fun x => x + 2 / √3) = some sr ∧ skew ([-1, 1].map fun x => x + 2 / √3) = some s ∧
    kurtosis ([-1, 1].map fun x => x + 2 / √3) = some k ∧ 1 - s * sr + (k - 1) / 4 * sr ^ 2 = 0 := by
  obtain ⟨hnc, h1, h2, h3⟩ := line_pm_one
  obtain ⟨g1, g2, g3, g4⟩ := gain_stats [-1, 1] (by simp) (2 / √3)
  have hstd : npStd [-1, 1] = 1 := by
    unfold npStd moment
    norm_num [npAvg]
  refine ⟨2 / √3, 0, -2, ?_, ?_, by rw [g3, h2], by rw [g4, h3], ?_⟩
  · exact ⟨-1 + 2 / √3, by simp, 1 + 2 / √3, by simp, by intro h; linarith⟩
  · unfold sharpe fdiv
    rw [g1, g2, hstd]
    norm_num [npAvg]
  · rw [div_pow, Real.sq_sqrt (by norm_num)]
    norm_num

/-- C140: the formula of the benchmark for `n` trials: the deviation of their ratios times
`(1 - γ)·Φ⁻¹(1 - 1/n) + γ·Φ⁻¹(1 - 1/(n·e))`, with `γ` the Euler-Mascheroni constant. -/
theorem C140_formula (m : List (List ℝ)) (ax : Axis) (srs : List ℝ)
    (hs : sharpeRatio m ax = srs.map some) (hn : 2 ≤ srs.length) :
    ∃ x y : ℝ, normCdf x = 1 - 1 / (srs.length : ℝ) ∧
      normCdf y = 1 - 1 / ((srs.length : ℝ) * Real.exp 1) ∧
      (deflatedSharpe m ax).2 = some (√((srs.map fun r => (r - srs.sum / srs.length) ^ 2).sum / srs.length) *
        ((1 - Real.eulerMascheroniConstant) * x + Real.eulerMascheroniConstant * y)) := by
  have hn' : (2 : ℝ) ≤ (srs.length : ℝ) := by exact_mod_cast hn
  have hall : ∀ l : List ℝ, allSome (l.map some) = some l := by
    intro l
    induction l with
    | nil => rfl
    | cons a l ih => simp [allSome, ih]
  have he : 1 < Real.exp 1 := by
    have := Real.add_one_lt_exp (one_ne_zero)
    linarith
  have e1 : 1 / (srs.length : ℝ) * Real.exp (-1) = 1 / ((srs.length : ℝ) * Real.exp 1) := by
    rw [Real.exp_neg]
    field_simp
  have hlt : 1 / (srs.length : ℝ) ≤ 1 / 2 := one_div_le_one_div_of_le (by norm_num) hn'
  have hpos : 0 < 1 / (srs.length : ℝ) := by positivity
  have hpos2 : 0 < 1 / ((srs.length : ℝ) * Real.exp 1) := by positivity
  have hlt2 : 1 / ((srs.length : ℝ) * Real.exp 1) < 1 / 2 := by
    apply one_div_lt_one_div_of_lt (by norm_num)
    nlinarith
  refine ⟨normPpf (1 - 1 / (srs.length : ℝ)), normPpf (1 - 1 / (srs.length : ℝ) * Real.exp (-1)),
    normCdf_normPpf (by linarith) (by linarith), ?_, ?_⟩
  · rw [e1]
    exact normCdf_normPpf (by linarith) (by linarith)
  · show deflatedBenchmark m ax = _
    unfold deflatedBenchmark
    rw [hs, hall]
    simp only [Option.bind_eq_bind, Option.bind_some]
    rw [if_neg (by omega)]
    unfold npStd expectedMax moment npAvg
    rw [List.length_map]

/-- Two trials with ratios 0 and 2 (see `line_pm_one` and `moments_one_three`). -/
example : sharpeRatio [[-1, 1], [1, 3]] .cols = [0, 2].map some := by
  obtain ⟨h1, -, -, -, h5⟩ := moments_one_three
  have e1 : sharpe [1, 3] = some 2 := by unfold sharpe fdiv; rw [h1, h5]; norm_num
  simp [sharpeRatio, lines, line_pm_one.2.1, e1]

/-- C232, full claim: adding the same gain to every return does not lower the probability that the Sharpe
ratio is positive. -/
def GainHelps : Prop := ∀ (l : List ℝ) (c v : ℝ), NonConst l → 0 ≤ c → psr1 l 0 = some v →
  ∃ v', psr1 (l.map fun x => x + c) 0 = some v' ∧ v ≤ v'

/-- C232, counterexample: the returns -1 and 1 have probability 1/2; after a gain of 2 each, 1 and 3 have
none. -/
theorem C232_gain_counterexample : ¬ GainHelps := by
  intro h
  obtain ⟨hnc, h1, h2, h3⟩ := line_pm_one
  have hv : psr1 [-1, 1] 0 = some (1 / 2) := by
    unfold psr1 psrLine
    rw [h1, h2, h3]
    simp only [Option.bind_eq_bind, Option.bind_some]
    unfold cdfQuot psrRadicand
    norm_num [normCdf_zero]
  obtain ⟨v', hv', -⟩ := h [-1, 1] 2 (1 / 2) hnc (by norm_num) hv
  have e : ([-1, 1] : List ℝ).map (fun x => x + 2) = [1, 3] := by norm_num
  rw [e] at hv'
  obtain ⟨m1, m2, m3, m4, m5⟩ := moments_one_three
  have e1 : sharpe [1, 3] = some 2 := by unfold sharpe fdiv; rw [m1, m5]; norm_num
  have e2 : skew [1, 3] = some 0 := by unfold skew fdiv; rw [m3, m5]; norm_num
  have e3 : kurtosis [1, 3] = some (-2) := by unfold kurtosis fdiv; rw [m4, m2]; norm_num
  unfold psr1 psrLine at hv'
  rw [e1, e2, e3] at hv'
  simp only [Option.bind_eq_bind, Option.bind_some] at hv'
  unfold cdfQuot at hv'
  rw [if_pos (by unfold psrRadicand; norm_num)] at hv'
  simp at hv'

/-- The quotient grows with the ratio while `s·t ≤ 2`. -/
theorem quot_mono {s c a b : ℝ} (hab : a < b) (ha : s * a ≤ 2) (hb : s * b ≤ 2)
    (hra : 0 < 1 - s * a + c * a ^ 2) (hrb : 0 < 1 - s * b + c * b ^ 2) :
    a / √(1 - s * a + c * a ^ 2) ≤ b / √(1 - s * b + c * b ^ 2) := by
  have hA := Real.sqrt_pos.2 hra
  have hB := Real.sqrt_pos.2 hrb
  have hA2 := Real.sq_sqrt hra.le
  have hB2 := Real.sq_sqrt hrb.le
  have key : b ^ 2 * (1 - s * a + c * a ^ 2) - a ^ 2 * (1 - s * b + c * b ^ 2) =
      (b - a) * (a + b - s * a * b) := by ring
  rw [div_le_div_iff₀ hA hB]
  generalize √(1 - s * a + c * a ^ 2) = A at *
  generalize √(1 - s * b + c * b ^ 2) = B at *
  rcases le_or_gt 0 a with h0 | h0
  · have h1 : 0 ≤ a + b - s * a * b := by nlinarith
    apply le_of_sq_le_sq _ (by nlinarith)
    have : 0 ≤ (b - a) * (a + b - s * a * b) := mul_nonneg (by linarith) h1
    rw [mul_pow, mul_pow, hA2, hB2]
    linarith
  · rcases le_or_gt 0 b with h2 | h2
    · nlinarith [mul_nonneg h2 hA.le, mul_neg_of_neg_of_pos h0 hB]
    · have h1 : a + b - s * a * b ≤ 0 := by nlinarith
      have h3 : (b - a) * (a + b - s * a * b) ≤ 0 := mul_nonpos_of_nonneg_of_nonpos (by linarith) h1
      have h4 : (-b * A) ^ 2 ≤ (-a * B) ^ 2 := by
        rw [mul_pow, mul_pow, hA2, hB2, neg_sq, neg_sq]
        linarith
      have := le_of_sq_le_sq h4 (by nlinarith)
      linarith

/-- C232, what holds: a gain leaves skewness and kurtosis unchanged and raises the ratio by `c/σ`; if the
numbers under the root are positive before and after, and skewness times ratio is at most 2 before and after,
the probability does not fall (missing: ratios for which it is not defined, or so high that a positive skew
counts against them). -/
theorem C232_gain_partial (l : List ℝ) (h : NonConst l) (c : ℝ) (hc : 0 ≤ c) :
    ∃ sr s k : ℝ, sharpe l = some sr ∧ skew l = some s ∧ kurtosis l = some k ∧
      (∃ σ : ℝ, 0 < σ ∧ σ ^ 2 = (l.map fun x => (x - l.sum / l.length) ^ 2).sum / l.length ∧
        sharpe (l.map fun x => x + c) = some (sr + c / σ) ∧
        skew (l.map fun x => x + c) = some s ∧ kurtosis (l.map fun x => x + c) = some k ∧
        (0 < 1 - s * sr + (k - 1) / 4 * sr ^ 2 →
          0 < 1 - s * (sr + c / σ) + (k - 1) / 4 * (sr + c / σ) ^ 2 →
          s * sr ≤ 2 → s * (sr + c / σ) ≤ 2 →
          ∃ v v', psr1 l 0 = some v ∧ psr1 (l.map fun x => x + c) 0 = some v' ∧ v ≤ v')) := by
  obtain ⟨sr, s, k, h1, h2, h3⟩ := stats_defined l h
  have hl : l ≠ [] := by
    rintro rfl
    obtain ⟨x, hx, -⟩ := h
    simp at hx
  obtain ⟨g1, g2, g3, g4⟩ := gain_stats l hl c
  have hσ := (npStd_pos_iff l).2 h
  have hsr := ((C97_defined l).2 sr h1)
  have hsr' : sharpe (l.map fun x => x + c) = some (sr + c / npStd l) := by
    unfold sharpe fdiv
    rw [g1, g2, if_neg hσ.ne', ← hsr.1]
    congr 1
    field_simp
  refine ⟨sr, s, k, h1, h2, h3, npStd l, hσ, hsr.2, hsr', by rw [g3, h2], by rw [g4, h3], ?_⟩
  intro r1 r2 q1 q2
  rcases hc.eq_or_lt with hc0 | hc0
  · have e0 : (l.map fun x => x + c) = l := by rw [← hc0]; simp
    rw [e0]
    have : psr1 l 0 = some (normCdf ((sr - 0) * √((l.length : ℝ) - 1) / √(psrRadicand sr s k))) := by
      unfold psr1 psrLine
      rw [h1, h2, h3]
      simp only [Option.bind_eq_bind, Option.bind_some]
      unfold cdfQuot
      rw [if_neg (not_lt.2 (show 0 ≤ psrRadicand sr s k from r1.le)),
        if_neg (show psrRadicand sr s k ≠ 0 from r1.ne')]
    exact ⟨_, _, this, this, le_rfl⟩
  refine ⟨normCdf ((sr - 0) * √((l.length : ℝ) - 1) / √(psrRadicand sr s k)),
    normCdf ((sr + c / npStd l - 0) * √((l.length : ℝ) - 1) / √(psrRadicand (sr + c / npStd l) s k)), ?_, ?_, ?_⟩
  · unfold psr1 psrLine
    rw [h1, h2, h3]
    simp only [Option.bind_eq_bind, Option.bind_some]
    unfold cdfQuot
    rw [if_neg (not_lt.2 (show 0 ≤ psrRadicand sr s k from r1.le)),
      if_neg (show psrRadicand sr s k ≠ 0 from r1.ne')]
  · unfold psr1 psrLine
    rw [hsr', g3, g4, h2, h3, List.length_map]
    simp only [Option.bind_eq_bind, Option.bind_some]
    unfold cdfQuot
    rw [if_neg (not_lt.2 (show 0 ≤ psrRadicand (sr + c / npStd l) s k from r2.le)),
      if_neg (show psrRadicand (sr + c / npStd l) s k ≠ 0 from r2.ne')]
  · apply normCdf_strictMono.monotone
    have hlt : sr < sr + c / npStd l := by
      have := div_pos hc0 hσ
      linarith
    have := mul_le_mul_of_nonneg_right (quot_mono hlt q1 q2 r1 r2) (Real.sqrt_nonneg ((l.length : ℝ) - 1))
    unfold psrRadicand
    rw [sub_zero, sub_zero, mul_div_right_comm, mul_div_right_comm]
    exact this

/-- Returns of -1 and 1 with a gain of 1 each: the number under the root falls from 1 to 1/4. -/
example : ∃ v v', psr1 [-1, 1] 0 = some v ∧ psr1 ([-1, 1].map fun x => x + 1) 0 = some v' ∧ v ≤ v' := by
  obtain ⟨hnc, h1, h2, h3⟩ := line_pm_one
  obtain ⟨sr, s, k, e1, e2, e3, σ, hσ, hσ2, -, -, -, hh⟩ := C232_gain_partial [-1, 1] hnc 1 (by norm_num)
  rw [h1] at e1
  rw [h2] at e2
  rw [h3] at e3
  obtain rfl := Option.some.inj e1
  obtain rfl := Option.some.inj e2
  obtain rfl := Option.some.inj e3
  have hs1 : σ = 1 := by
    have : σ ^ 2 = 1 := by rw [hσ2]; norm_num
    nlinarith
  subst hs1
  exact hh (by norm_num) (by norm_num) (by norm_num) (by norm_num)

end FinML.Metrics
