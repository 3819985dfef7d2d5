import Verif.Risk.Props

/-! # Strategy risk: units, the meaning of one half, and the sample size (C207, C208, C209) -/

namespace FinML.Risk

/-! ## C207 -/

theorem powHalf_scale {c x : ℝ} (hc : 0 < c) : powHalf (c ^ 2 * x) = (powHalf x).map fun r => c * r := by
  unfold powHalf
  have : c ^ 2 * x < 0 ↔ x < 0 := by
    constructor
    · intro h
      by_contra hx
      exact absurd h (not_lt.2 (mul_nonneg (sq_nonneg _) (not_lt.1 hx)))
    · intro h
      exact mul_neg_of_pos_of_neg (by positivity) h
  by_cases hx : x < 0
  · rw [if_pos (this.2 hx), if_pos hx]; rfl
  · rw [if_neg (mt this.1 hx), if_neg hx, Real.sqrt_mul (sq_nonneg c), Real.sqrt_sq hc.le]; rfl

theorem pyDiv_scale {c a b : ℝ} (hc : c ≠ 0) : pyDiv (c * a) (c * b) = pyDiv a b := by
  unfold pyDiv
  by_cases hb : b = 0
  · rw [if_pos hb, if_pos (by rw [hb, mul_zero])]
  · rw [if_neg hb, if_neg (mul_ne_zero hc hb), mul_div_mul_left _ _ hc]

/-- C207.  Sharpe ratio, required precision and required frequency do not depend on the currency of the
profit and the loss, nor on leverage. -/
theorem C207_currency {c : ℝ} (hc : 0 < c) (x p freq profit loss : ℝ) :
    strategySharpe p freq (c * profit) (c * loss) = strategySharpe p freq profit loss ∧
    requiredPrecision x freq (c * profit) (c * loss) = requiredPrecision x freq profit loss ∧
    requiredFreq x p (c * profit) (c * loss) = requiredFreq x p profit loss := by
  have hS : ∀ freq, strategySharpe p freq (c * profit) (c * loss) = strategySharpe p freq profit loss := by
    intro freq
    unfold strategySharpe
    have e1 : (c * profit - c * loss) * p + c * loss = c * ((profit - loss) * p + loss) := by ring
    have e2 : ∀ r, (c * profit - c * loss) * r = c * ((profit - loss) * r) := fun r => by ring
    simp only [e1]
    simp only [e2, pyDiv_scale hc.ne']
  refine ⟨hS freq, ?_, ?_⟩
  · unfold requiredPrecision
    have e1 : ((2 * freq * (c * loss) - x ^ 2 * (c * profit - c * loss)) * (c * profit - c * loss)) ^ 2 -
        4 * ((freq + x ^ 2) * (c * profit - c * loss) ^ 2) * (freq * (c * loss) ^ 2) =
        (c ^ 2) ^ 2 * (((2 * freq * loss - x ^ 2 * (profit - loss)) * (profit - loss)) ^ 2 -
          4 * ((freq + x ^ 2) * (profit - loss) ^ 2) * (freq * loss ^ 2)) := by ring
    simp only [e1, powHalf_scale (show 0 < c ^ 2 by positivity)]
    cases powHalf (((2 * freq * loss - x ^ 2 * (profit - loss)) * (profit - loss)) ^ 2 -
          4 * ((freq + x ^ 2) * (profit - loss) ^ 2) * (freq * loss ^ 2)) with
    | error e => rfl
    | ok r =>
      simp only [Except.map, py_bind_ok]
      rw [← pyDiv_scale (c := c ^ 2) (a := _ + r) (by positivity)]
      congr 1 <;> ring
  · unfold requiredFreq
    have e1 : (x * (c * profit - c * loss)) ^ 2 * p * (1 - p) =
        c ^ 2 * ((x * (profit - loss)) ^ 2 * p * (1 - p)) := by ring
    have e2 : ((c * profit - c * loss) * p + c * loss) ^ 2 = c ^ 2 * ((profit - loss) * p + loss) ^ 2 := by ring
    simp only [e1, e2, pyDiv_scale (show c ^ 2 ≠ 0 by positivity), hS]

theorem meanOpt_scale (c : ℝ) (l : List ℝ) : meanOpt (l.map fun r => c * r) = (meanOpt l).map fun m => c * m := by
  unfold meanOpt
  by_cases h : l = []
  · rw [if_pos h, if_pos (by rw [h]; rfl)]; rfl
  · rw [if_neg h, if_neg (by simpa using h), List.length_map, List.sum_map_mul_left]
    simp [mul_div_assoc]

/-- C207.  Nor does the probability of failure depend on the currency of the returns. -/
theorem C207_failure {c : ℝ} (hc : 0 < c) (returns : List ℝ) (freq target : ℝ) :
    probabilityOfFailure (returns.map fun r => c * r) freq target = probabilityOfFailure returns freq target := by
  unfold probabilityOfFailure
  have e1 : (returns.map fun r => c * r).filter (fun r => 0 < r) =
      (returns.filter fun r => 0 < r).map fun r => c * r := by
    rw [List.filter_map]
    congr 1
    apply List.filter_congr
    intro r _
    simp [hc]
  have e2 : (returns.map fun r => c * r).filter (fun r => r ≤ 0) =
      (returns.filter fun r => r ≤ 0).map fun r => c * r := by
    rw [List.filter_map]
    congr 1
    apply List.filter_congr
    intro r _
    have : c * r ≤ 0 ↔ r ≤ 0 := by
      constructor
      · intro h
        by_contra hr
        exact absurd h (not_le.2 (mul_pos hc (not_le.1 hr)))
      · exact mul_nonpos_of_nonneg_of_nonpos hc.le
    simp [this]
  simp only [e1, e2, List.length_map, meanOpt_scale]
  cases meanOpt (returns.filter fun r => 0 < r) with
  | none => rfl
  | some up =>
    cases meanOpt (returns.filter fun r => r ≤ 0) with
    | none => rfl
    | some down =>
      simp only [Option.map_some, Option.bind_some]
      rw [(C207_currency hc target 0 freq up down).2.1]

/-- C207.  The unit of time: with bets counted per `s²` years and ratios scaled by `s`, precision and failure
probability are the same, and the required number of bets scales by `s²`. -/
theorem C207_time {s : ℝ} (hs : 0 < s) (target freq p profit loss : ℝ) (returns : List ℝ) :
    requiredPrecision (s * target) (s ^ 2 * freq) profit loss = requiredPrecision target freq profit loss ∧
    probabilityOfFailure returns (s ^ 2 * freq) (s * target) = probabilityOfFailure returns freq target ∧
    strategySharpe p (s ^ 2 * freq) profit loss = (strategySharpe p freq profit loss).map fun x => s * x := by
  have hP : ∀ profit loss, requiredPrecision (s * target) (s ^ 2 * freq) profit loss =
      requiredPrecision target freq profit loss := by
    intro profit loss
    unfold requiredPrecision
    have e1 : ((2 * (s ^ 2 * freq) * loss - (s * target) ^ 2 * (profit - loss)) * (profit - loss)) ^ 2 -
        4 * ((s ^ 2 * freq + (s * target) ^ 2) * (profit - loss) ^ 2) * (s ^ 2 * freq * loss ^ 2) =
        (s ^ 2) ^ 2 * (((2 * freq * loss - target ^ 2 * (profit - loss)) * (profit - loss)) ^ 2 -
          4 * ((freq + target ^ 2) * (profit - loss) ^ 2) * (freq * loss ^ 2)) := by ring
    simp only [e1, powHalf_scale (show 0 < s ^ 2 by positivity)]
    cases powHalf (((2 * freq * loss - target ^ 2 * (profit - loss)) * (profit - loss)) ^ 2 -
          4 * ((freq + target ^ 2) * (profit - loss) ^ 2) * (freq * loss ^ 2)) with
    | error e => rfl
    | ok r =>
      simp only [Except.map, py_bind_ok]
      rw [← pyDiv_scale (c := s ^ 2) (a := _ + r) (by positivity)]
      congr 1 <;> ring
  refine ⟨hP profit loss, ?_, ?_⟩
  · unfold probabilityOfFailure
    simp only [hP]
  · unfold strategySharpe
    simp only [powHalf_scale hs]
    cases powHalf (p * (1 - p)) with
    | error e => rfl
    | ok r =>
      simp only [py_bind_ok]
      cases pyDiv ((profit - loss) * p + loss) ((profit - loss) * r) with
      | error e => rfl
      | ok q =>
        simp only [py_bind_ok]
        cases powHalf freq with
        | error e => rfl
        | ok f =>
          simp only [Except.map, py_bind_ok, py_pure]
          congr 1
          ring

/-! ## C208 -/

/-- C208.  The probability of failure is below one half exactly if the strategy with the observed share of
gains, mean gain and mean loss beats the target, and one half exactly if it meets it. -/
theorem C208_half (returns : List ℝ) (freq target x : ℝ) (hf : 0 < freq) (ht : 0 ≤ target)
    (hgain : ∃ r ∈ returns, 0 < r) (hloss : ∃ r ∈ returns, r < 0)
    (h : probabilityOfFailure returns freq target = .ok (some x)) :
    ∃ p up down : ℝ,
      p = ((returns.filter fun r => 0 < r).length : ℝ) / (returns.length : ℝ) ∧
      up = (returns.filter fun r => 0 < r).sum / ((returns.filter fun r => 0 < r).length : ℝ) ∧
      down = (returns.filter fun r => r ≤ 0).sum / ((returns.filter fun r => r ≤ 0).length : ℝ) ∧
      (x < 1 / 2 ↔ target < betSharpe p freq up down) ∧ (x = 1 / 2 ↔ betSharpe p freq up down = target) := by
  obtain ⟨p, up, down, hp0, hp1, hd, hu, e1, e2, e3, hfail⟩ := C102_failure_formula returns hgain hloss
  refine ⟨p, up, down, e1, e2, e3, ?_⟩
  obtain ⟨th, h1, h2⟩ := hfail freq target hf
  rw [h] at h2
  simp only [Except.ok.injEq, Option.some.injEq] at h2
  obtain ⟨th', k1, k2, k3, -, -, k4, -⟩ := C100_required_precision target freq up down hf hd hu
  rw [h1] at k1
  simp only [Except.ok.injEq] at k1
  subst k1
  have k5 := k4 ht
  have hpp : 0 < p * (1 - p) := mul_pos hp0 (by linarith)
  have hmono : ∀ a b : ℝ, 0 < a → a < b → b < 1 → betSharpe a freq up down < betSharpe b freq up down := by
    intro a b ha hab hb
    obtain ⟨u, v, hu', hv', huv⟩ := C102_sharpe_increasing a b freq up down ha hab hb hf hd hu
    rw [C102_bets a freq up down ha (hab.trans hb) hf.le (hd.trans hu)] at hu'
    rw [C102_bets b freq up down (ha.trans hab) hb hf.le (hd.trans hu)] at hv'
    simp only [Except.ok.injEq] at hu' hv'
    rw [hu', hv']
    exact huv
  rw [h2, ← k5, ← normCdf_zero, normCdf_strictMono.lt_iff_lt, normCdf_strictMono.injective.eq_iff]
  rcases lt_trichotomy th p with hlt | rfl | hgt
  · have := hmono th p k2 hlt hp1
    have hneg : (th - p) / (p * (1 - p)) < 0 := div_neg_of_neg_of_pos (by linarith) hpp
    exact ⟨⟨fun _ => this, fun _ => hneg⟩, ⟨fun e => absurd e hneg.ne, fun e => absurd e this.ne'⟩⟩
  · simp
  · have := hmono p th hp0 hgt k3
    have hposi : 0 < (th - p) / (p * (1 - p)) := div_pos (by linarith) hpp
    exact ⟨⟨fun e => absurd e (lt_asymm hposi), fun e => absurd e (lt_asymm this)⟩,
      ⟨fun e => absurd e hposi.ne', fun e => absurd e this.ne⟩⟩

/-- Two gains of 1 against one loss of 1 beat a Sharpe ratio of 0. -/
example : ∃ x, probabilityOfFailure [1, 1, -1] 1 0 = .ok (some x) ∧ x < 1 / 2 := by
  have hg : ∃ r ∈ ([1, 1, -1] : List ℝ), 0 < r := ⟨1, by simp, by norm_num⟩
  have hl : ∃ r ∈ ([1, 1, -1] : List ℝ), r < 0 := ⟨-1, by simp, by norm_num⟩
  obtain ⟨x, hx, -⟩ := (C102_failure_partial [1, 1, -1] hg hl).1 1 0 (by norm_num)
  obtain ⟨p, up, down, rfl, rfl, rfl, h1, -⟩ := C208_half _ _ _ _ (by norm_num) le_rfl hg hl hx
  refine ⟨x, hx, h1.2 ?_⟩
  have f1 : ([1, 1, -1] : List ℝ).filter (fun r => 0 < r) = [1, 1] := by norm_num [List.filter]
  have f2 : ([1, 1, -1] : List ℝ).filter (fun r => r ≤ 0) = [-1] := by norm_num [List.filter]
  rw [f1, f2]
  unfold betSharpe
  norm_num

/-! ## C209 -/

/-- C209, full claim: the deviation used is that of the share of gains among `n` returns. -/
def SamplingError : Prop := ∀ (returns : List ℝ) (freq target : ℝ), 0 < freq → (∃ r ∈ returns, 0 < r) →
  (∃ r ∈ returns, r < 0) → ∀ p up down th x : ℝ,
    p = ((returns.filter fun r => 0 < r).length : ℝ) / (returns.length : ℝ) →
    up = (returns.filter fun r => 0 < r).sum / ((returns.filter fun r => 0 < r).length : ℝ) →
    down = (returns.filter fun r => r ≤ 0).sum / ((returns.filter fun r => r ≤ 0).length : ℝ) →
    requiredPrecision target freq up down = .ok th →
    probabilityOfFailure returns freq target = .ok (some x) →
    x = normCdf ((th - p) / √(p * (1 - p) / (returns.length : ℝ)))

/-- C209, counterexample: one gain and one loss; the deviation used is 1/4, that of the share is
`√(1/8)`. -/
theorem C209_sample_counterexample : ¬ SamplingError := by
  intro hc
  have hg : ∃ r ∈ ([1, -1] : List ℝ), 0 < r := ⟨1, by simp, by norm_num⟩
  have hl : ∃ r ∈ ([1, -1] : List ℝ), r < 0 := ⟨-1, by simp, by norm_num⟩
  obtain ⟨p, up, down, hp0, hp1, hd, hu, e1, e2, e3, hfail⟩ := C102_failure_formula [1, -1] hg hl
  obtain ⟨th, h1, h2⟩ := hfail 1 1 (by norm_num)
  have h3 := hc [1, -1] 1 1 (by norm_num) hg hl p up down th _ e1 e2 e3 h1 h2
  have f1 : ([1, -1] : List ℝ).filter (fun r => 0 < r) = [1] := by norm_num [List.filter]
  have f2 : ([1, -1] : List ℝ).filter (fun r => r ≤ 0) = [-1] := by norm_num [List.filter]
  rw [f1] at e1 e2
  rw [f2] at e3
  norm_num at e1 e2 e3
  subst e1 e2 e3
  obtain ⟨th', k1, k2, k3, -, k4, -⟩ := C100_required_precision 1 1 1 (-1) (by norm_num) (by norm_num) (by norm_num)
  rw [h1] at k1
  simp only [Except.ok.injEq] at k1
  subst k1
  have hne : th - 1 / 2 ≠ 0 := by
    intro h0
    have : th = 1 / 2 := by linarith
    rw [this] at k4
    unfold betSharpe at k4
    norm_num at k4
  have h4 := normCdf_strictMono.injective h3
  rw [div_eq_div_iff (by norm_num) (Real.sqrt_pos.2 (by norm_num)).ne'] at h4
  have h5 := mul_left_cancel₀ hne h4
  have h6 := congrArg (fun z => z ^ 2) h5
  beta_reduce at h6
  rw [Real.sq_sqrt (by norm_num)] at h6
  norm_num at h6

theorem meanOpt_twice (l : List ℝ) : meanOpt (l ++ l) = meanOpt l := by
  unfold meanOpt
  by_cases h : l = []
  · simp [h]
  · have hl : (l.length : ℝ) ≠ 0 := by simpa using h
    rw [if_neg h, if_neg (by simpa using h), List.sum_append, List.length_append, Nat.cast_add]
    congr 1
    field_simp

/-- C209, what holds: the probability of failure does not depend on the number of observations (the same
returns twice have the same one); it is on the same side of one half as the one with the sampling error, and
if `n p (1 - p) ≥ 1` it is not further from one half (missing: the size of the sample). -/
theorem C209_sample_partial (returns : List ℝ) (freq target : ℝ) :
    probabilityOfFailure (returns ++ returns) freq target = probabilityOfFailure returns freq target ∧
    (0 < freq → (∃ r ∈ returns, 0 < r) → (∃ r ∈ returns, r < 0) →
      ∃ p up down th x : ℝ, 0 < p ∧ p < 1 ∧
        p = ((returns.filter fun r => 0 < r).length : ℝ) / (returns.length : ℝ) ∧
        up = (returns.filter fun r => 0 < r).sum / ((returns.filter fun r => 0 < r).length : ℝ) ∧
        down = (returns.filter fun r => r ≤ 0).sum / ((returns.filter fun r => r ≤ 0).length : ℝ) ∧
        requiredPrecision target freq up down = .ok th ∧
        probabilityOfFailure returns freq target = .ok (some x) ∧
        (x < 1 / 2 ↔ normCdf ((th - p) / √(p * (1 - p) / (returns.length : ℝ))) < 1 / 2) ∧
        (1 ≤ (returns.length : ℝ) * (p * (1 - p)) →
          (th ≤ p → normCdf ((th - p) / √(p * (1 - p) / (returns.length : ℝ))) ≤ x) ∧
          (p ≤ th → x ≤ normCdf ((th - p) / √(p * (1 - p) / (returns.length : ℝ)))))) := by
  constructor
  · unfold probabilityOfFailure
    simp only [List.filter_append, meanOpt_twice, List.length_append]
    by_cases h : returns.length = 0
    · simp [h]
    · have hr : (returns.length : ℝ) ≠ 0 := by exact_mod_cast h
      have e : (((returns.filter fun r => 0 < r).length + (returns.filter fun r => 0 < r).length : ℕ) : ℝ) /
          ((returns.length + returns.length : ℕ) : ℝ) =
          ((returns.filter fun r => 0 < r).length : ℝ) / (returns.length : ℝ) := by
        push_cast
        field_simp
      rw [if_neg h, if_neg (by omega), e]
  · intro hf hgain hloss
    obtain ⟨p, up, down, hp0, hp1, hd, hu, e1, e2, e3, hfail⟩ := C102_failure_formula returns hgain hloss
    obtain ⟨th, h1, h2⟩ := hfail freq target hf
    have hpp : 0 < p * (1 - p) := mul_pos hp0 (by linarith)
    have hn : 0 < (returns.length : ℝ) := by
      obtain ⟨r, hr, -⟩ := hgain
      exact_mod_cast List.length_pos_of_mem hr
    have hsd : 0 < √(p * (1 - p) / (returns.length : ℝ)) := Real.sqrt_pos.2 (div_pos hpp hn)
    refine ⟨p, up, down, th, _, hp0, hp1, e1, e2, e3, h1, h2, ?_, ?_⟩
    · rw [← normCdf_zero, normCdf_strictMono.lt_iff_lt, normCdf_strictMono.lt_iff_lt, div_lt_iff₀ hpp,
        div_lt_iff₀ hsd, zero_mul, zero_mul]
    · intro hbig
      have hle : √(p * (1 - p) / (returns.length : ℝ)) ≤ p * (1 - p) := by
        rw [Real.sqrt_le_left hpp.le, div_le_iff₀ hn]
        nlinarith
      constructor
      · intro hth
        apply normCdf_strictMono.monotone
        rw [div_le_div_iff₀ hsd hpp]
        nlinarith
      · intro hth
        apply normCdf_strictMono.monotone
        rw [div_le_div_iff₀ hpp hsd]
        nlinarith

end FinML.Risk
