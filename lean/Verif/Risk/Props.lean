import Verif.Risk.Model
import Verif.Py.Lemmas
import Mathlib.Tactic.Linarith
import Mathlib.Tactic.FieldSimp
import Mathlib.Tactic.Ring
import Mathlib.Tactic.NormNum
import Mathlib.Tactic.LinearCombination
import Mathlib.Algebra.Order.BigOperators.Group.List

/-! # Strategy risk (C100, C101, C102) -/

set_option linter.unusedSectionVars false

namespace FinML.Risk

/-- The Sharpe ratio of `freq` bets a year that gain `profit` with probability `p` and `loss`
otherwise: the mean over the deviation of one bet, times the root of the frequency. -/
noncomputable def betSharpe (p freq profit loss : ℝ) : ℝ :=
  (p * profit + (1 - p) * loss) /
    √(p * (profit - (p * profit + (1 - p) * loss)) ^ 2
      + (1 - p) * (loss - (p * profit + (1 - p) * loss)) ^ 2) * √freq

/-- The code computes that ratio. -/
theorem strategySharpe_eq (p freq profit loss : ℝ) (hp0 : 0 < p) (hp1 : p < 1) (hf : 0 ≤ freq)
    (hd : loss < profit) :
    strategySharpe p freq profit loss
      = .ok (((profit - loss) * p + loss) / ((profit - loss) * √(p * (1 - p))) * √freq) := by
  have h1 : 0 < p * (1 - p) := mul_pos hp0 (by linarith)
  have h2 : (profit - loss) * √(p * (1 - p)) ≠ 0 :=
    mul_ne_zero (by linarith [hd] : (0:ℝ) < profit - loss).ne' (Real.sqrt_pos.2 h1).ne'
  unfold strategySharpe powHalf pyDiv
  rw [if_neg (not_lt.2 h1.le), if_neg (not_lt.2 hf)]
  simp only [py_bind_ok, py_pure]
  rw [if_neg h2]
  rfl

/-- C102: the Sharpe ratio of the code is that of the bets. -/
theorem C102_bets (p freq profit loss : ℝ) (hp0 : 0 < p) (hp1 : p < 1) (hf : 0 ≤ freq)
    (hd : loss < profit) : strategySharpe p freq profit loss = .ok (betSharpe p freq profit loss) := by
  rw [strategySharpe_eq p freq profit loss hp0 hp1 hf hd]
  unfold betSharpe
  have e : p * (profit - (p * profit + (1 - p) * loss)) ^ 2
      + (1 - p) * (loss - (p * profit + (1 - p) * loss)) ^ 2 = (profit - loss) ^ 2 * (p * (1 - p)) := by
    ring
  rw [e, Real.sqrt_mul (sq_nonneg _), Real.sqrt_sq (by linarith)]
  congr 3
  ring

/-- The ratio in terms of the odds. -/
theorem ratio_odds (p profit loss : ℝ) (hp0 : 0 < p) (hp1 : p < 1) (hd : loss < profit) :
    ((profit - loss) * p + loss) / ((profit - loss) * √(p * (1 - p)))
      = (profit * √(p / (1 - p)) + loss * √((1 - p) / p)) / (profit - loss) := by
  have hq : 0 < 1 - p := by linarith
  have hd' : profit - loss ≠ 0 := by intro h; linarith
  obtain ⟨x, hx, hx2⟩ : ∃ x : ℝ, 0 < x ∧ x ^ 2 = p := ⟨√p, Real.sqrt_pos.2 hp0, Real.sq_sqrt hp0.le⟩
  obtain ⟨y, hy, hy2⟩ : ∃ y : ℝ, 0 < y ∧ y ^ 2 = 1 - p := ⟨√(1 - p), Real.sqrt_pos.2 hq, Real.sq_sqrt hq.le⟩
  have e1 : √(p * (1 - p)) = x * y := by
    rw [← hy2, ← hx2, ← mul_pow, Real.sqrt_sq (by positivity)]
  have e2 : √(p / (1 - p)) = x / y := by
    rw [← hy2, ← hx2, ← div_pow, Real.sqrt_sq (by positivity)]
  have e3 : √((1 - p) / p) = y / x := by
    rw [← hy2, ← hx2, ← div_pow, Real.sqrt_sq (by positivity)]
  rw [e1, e2, e3]
  field_simp
  have : y ^ 2 = 1 - x ^ 2 := by rw [hy2, hx2]
  rw [this, ← hx2]
  ring

theorem ratio_strictMono (p q profit loss : ℝ) (hp0 : 0 < p) (hpq : p < q) (hq1 : q < 1)
    (hl : loss < 0) (hpr : 0 < profit) :
    ((profit - loss) * p + loss) / ((profit - loss) * √(p * (1 - p)))
      < ((profit - loss) * q + loss) / ((profit - loss) * √(q * (1 - q))) := by
  rw [ratio_odds p _ _ hp0 (hpq.trans hq1) (by linarith), ratio_odds q _ _ (hp0.trans hpq) hq1 (by linarith)]
  apply div_lt_div_of_pos_right _ (by linarith)
  have h1 : p / (1 - p) < q / (1 - q) := by
    rw [div_lt_div_iff₀ (by linarith) (by linarith)]; nlinarith
  have h2 : (1 - q) / q < (1 - p) / p := by
    rw [div_lt_div_iff₀ (by linarith) (by linarith)]; nlinarith
  have h3 : √(p / (1 - p)) < √(q / (1 - q)) :=
    Real.sqrt_lt_sqrt (div_nonneg hp0.le (by linarith)) h1
  have h4 : √((1 - q) / q) < √((1 - p) / p) :=
    Real.sqrt_lt_sqrt (div_nonneg (by linarith) (by linarith)) h2
  have h5 := mul_lt_mul_of_pos_left h3 hpr
  have h6 := mul_lt_mul_of_neg_left h4 hl
  linarith

/-- The required precision: its range and the equation it satisfies. -/
theorem requiredPrecision_spec (target freq profit loss : ℝ) (hf : 0 < freq) (hl : loss < 0)
    (hpr : 0 < profit) :
    ∃ p : ℝ, requiredPrecision target freq profit loss = .ok p ∧ 0 < p ∧ p < 1 ∧
      0 ≤ (profit - loss) * p + loss ∧
      freq * ((profit - loss) * p + loss) ^ 2 = target ^ 2 * (profit - loss) ^ 2 * (p * (1 - p)) := by
  set Δ := profit - loss with hΔ
  have hΔpos : 0 < Δ := by rw [hΔ]; linarith
  set a := (freq + target ^ 2) * Δ ^ 2 with ha
  set b := (2 * freq * loss - target ^ 2 * Δ) * Δ with hb
  set c := freq * loss ^ 2 with hc
  have hapos : 0 < a := by rw [ha]; positivity
  have hlp : loss * profit < 0 := mul_neg_of_neg_of_pos hl hpr
  set E := target ^ 2 * Δ ^ 2 - 4 * freq * (loss * profit) with hE
  have hEpos : 0 < E := by
    have h1 : 0 ≤ target ^ 2 * Δ ^ 2 := by positivity
    have h2 : freq * (loss * profit) < 0 := mul_neg_of_pos_of_neg hf hlp
    rw [hE]; linarith
  have hprofit : profit = Δ + loss := by rw [hΔ]; ring
  have hdisc : b ^ 2 - 4 * a * c = (Δ * |target|) ^ 2 * E := by
    rw [mul_pow Δ, sq_abs, hE, ha, hb, hc, hprofit]; ring
  have hdisc0 : 0 ≤ b ^ 2 - 4 * a * c := by rw [hdisc]; positivity
  have hroot : √(b ^ 2 - 4 * a * c) = Δ * |target| * √E := by
    rw [hdisc, Real.sqrt_mul (sq_nonneg _), Real.sqrt_sq (by positivity)]
  have hD : |target| * Δ < √E := by
    rw [Real.lt_sqrt (by positivity), mul_pow, sq_abs, hE]
    have h2 : freq * (loss * profit) < 0 := mul_neg_of_pos_of_neg hf hlp
    linarith
  have hok : requiredPrecision target freq profit loss = .ok ((-b + √(b ^ 2 - 4 * a * c)) / (2 * a)) := by
    unfold requiredPrecision powHalf pyDiv
    simp only [← hΔ, ← ha, ← hb, ← hc]
    rw [if_neg (not_lt.2 hdisc0)]
    simp only [py_bind_ok]
    rw [if_neg (by positivity)]
  set p := (-b + √(b ^ 2 - 4 * a * c)) / (2 * a) with hp
  have hquad : a * p ^ 2 + b * p + c = 0 := by
    have h1 : 2 * a * p + b = √(b ^ 2 - 4 * a * c) := by rw [hp]; field_simp; ring
    have h2 : (2 * a * p + b) ^ 2 = b ^ 2 - 4 * a * c := by rw [h1, Real.sq_sqrt hdisc0]
    have h3 : 4 * a * (a * p ^ 2 + b * p + c) = 0 := by linear_combination h2
    rcases mul_eq_zero.1 h3 with h4 | h4
    · exfalso; linarith
    · exact h4
  have heq : freq * (Δ * p + loss) ^ 2 = target ^ 2 * Δ ^ 2 * (p * (1 - p)) := by
    rw [ha, hb, hc] at hquad
    linear_combination hquad
  have hnum : Δ * p + loss = |target| * (|target| * (profit + loss) + √E) / (2 * (freq + target ^ 2)) := by
    have hft : freq + target ^ 2 ≠ 0 := by positivity
    have e : |target| * (|target| * (profit + loss) + √E) = target ^ 2 * (profit + loss) + |target| * √E := by
      rw [← sq_abs target]; ring
    rw [e, hp, hroot, ha, hb, hprofit]
    field_simp
    ring
  have hbr : 0 < |target| * (profit + loss) + √E := by
    have h1 : -(|target| * Δ) ≤ |target| * (profit + loss) := by
      rw [← mul_neg]
      apply mul_le_mul_of_nonneg_left _ (abs_nonneg _)
      rw [hΔ]; linarith
    linarith
  have hnn : 0 ≤ Δ * p + loss := by
    rw [hnum]
    apply div_nonneg (mul_nonneg (abs_nonneg _) hbr.le) (by positivity)
  have hp0 : 0 < p := by
    by_contra hc'
    have : Δ * p ≤ 0 := mul_nonpos_of_nonneg_of_nonpos hΔpos.le (not_lt.1 hc')
    linarith
  refine ⟨p, hok, hp0, ?_, hnn, heq⟩
  by_cases ht : target = 0
  · have : Δ * p + loss = 0 := by rw [hnum, ht]; simp
    by_contra hc'
    have : Δ * 1 ≤ Δ * p := mul_le_mul_of_nonneg_left (not_lt.1 hc') hΔpos.le
    rw [hprofit] at hpr
    linarith
  · by_contra hc'
    have h1 : p * (1 - p) ≤ 0 := mul_nonpos_of_nonneg_of_nonpos hp0.le (by linarith [not_lt.1 hc'])
    have h2 : 0 < target ^ 2 * Δ ^ 2 := by positivity
    have h3 : target ^ 2 * Δ ^ 2 * (p * (1 - p)) ≤ 0 := mul_nonpos_of_nonneg_of_nonpos h2.le h1
    have h4 : 0 < Δ * p + loss := by
      have : Δ * 1 ≤ Δ * p := mul_le_mul_of_nonneg_left (not_lt.1 hc') hΔpos.le
      rw [hprofit] at hpr
      linarith
    have h5 : 0 < freq * (Δ * p + loss) ^ 2 := by positivity
    linarith

/-- From the equation to the ratio. -/
theorem sharpe_of_eq {p freq profit loss target : ℝ} (hp0 : 0 < p) (hp1 : p < 1) (hf : 0 ≤ freq)
    (hd : loss < profit)
    (heq : freq * ((profit - loss) * p + loss) ^ 2 = target ^ 2 * (profit - loss) ^ 2 * (p * (1 - p))) :
    (0 ≤ (profit - loss) * p + loss →
      ((profit - loss) * p + loss) / ((profit - loss) * √(p * (1 - p))) * √freq = |target|) ∧
    ((profit - loss) * p + loss ≤ 0 →
      ((profit - loss) * p + loss) / ((profit - loss) * √(p * (1 - p))) * √freq = -|target|) := by
  set Δ := profit - loss with hΔ
  have hΔpos : 0 < Δ := by rw [hΔ]; linarith
  have hpp : 0 < p * (1 - p) := mul_pos hp0 (by linarith)
  have hsq : 0 < √(p * (1 - p)) := Real.sqrt_pos.2 hpp
  have key : (Δ * p + loss) ^ 2 * √freq ^ 2 = (|target| * (Δ * √(p * (1 - p)))) ^ 2 := by
    rw [Real.sq_sqrt hf, mul_pow, mul_pow, Real.sq_sqrt hpp.le, sq_abs]
    linear_combination heq
  rw [← mul_pow] at key
  constructor
  · intro h
    have h1 : (Δ * p + loss) * √freq = |target| * (Δ * √(p * (1 - p))) :=
      (pow_left_inj₀ (mul_nonneg h (Real.sqrt_nonneg _)) (by positivity) two_ne_zero).1 key
    rw [div_mul_eq_mul_div, h1]
    field_simp
  · intro h
    have h1 : -(Δ * p + loss) * √freq = |target| * (Δ * √(p * (1 - p))) := by
      apply (pow_left_inj₀ (mul_nonneg (by linarith) (Real.sqrt_nonneg _)) (by positivity) two_ne_zero).1
      rw [← key]; ring
    rw [div_mul_eq_mul_div]
    have h2 : (Δ * p + loss) * √freq = -(|target| * (Δ * √(p * (1 - p)))) := by linarith
    rw [h2]
    field_simp

/-- C100: the required precision is a probability strictly between 0 and 1 and has the target Sharpe
ratio, for every target that is not negative.  A negative target is treated as its absolute value. -/
theorem C100_required_precision (target freq profit loss : ℝ) (hf : 0 < freq) (hl : loss < 0)
    (hpr : 0 < profit) :
    ∃ p : ℝ, requiredPrecision target freq profit loss = .ok p ∧ 0 < p ∧ p < 1 ∧
      strategySharpe p freq profit loss = .ok |target| ∧ betSharpe p freq profit loss = |target| ∧
      (0 ≤ target → betSharpe p freq profit loss = target) ∧
      (∀ p' : ℝ, 0 < p' → p' < 1 → betSharpe p' freq profit loss = |target| → p' = p) := by
  obtain ⟨p, h1, h2, h3, h4, h5⟩ := requiredPrecision_spec target freq profit loss hf hl hpr
  have hd : loss < profit := by linarith
  have hS : strategySharpe p freq profit loss = .ok |target| := by
    rw [strategySharpe_eq p freq profit loss h2 h3 hf.le hd]
    congr 1
    exact (sharpe_of_eq h2 h3 hf.le hd h5).1 h4
  have hB := C102_bets p freq profit loss h2 h3 hf.le hd
  have hB' : betSharpe p freq profit loss = |target| := by
    rw [hB] at hS
    simpa using hS
  refine ⟨p, h1, h2, h3, hS, hB', fun h => by rw [hB', abs_of_nonneg h], ?_⟩
  intro p' hp0 hp1 he
  have key : ∀ x y : ℝ, 0 < x → x < y → y < 1 →
      betSharpe x freq profit loss < betSharpe y freq profit loss := by
    intro x y hx hxy hy
    have e1 := C102_bets x freq profit loss hx (hxy.trans hy) hf.le hd
    have e2 := C102_bets y freq profit loss (hx.trans hxy) hy hf.le hd
    rw [strategySharpe_eq x freq profit loss hx (hxy.trans hy) hf.le hd] at e1
    rw [strategySharpe_eq y freq profit loss (hx.trans hxy) hy hf.le hd] at e2
    simp only [Except.ok.injEq] at e1 e2
    rw [← e1, ← e2]
    exact mul_lt_mul_of_pos_right (ratio_strictMono x y profit loss hx hxy hy hl hpr) (Real.sqrt_pos.2 hf)
  rcases lt_trichotomy p' p with h | h | h
  · have := key p' p hp0 h h3; rw [he, hB'] at this; exact absurd this (lt_irrefl _)
  · exact h
  · have := key p p' h2 h hp1; rw [he, hB'] at this; exact absurd this (lt_irrefl _)

/-- C102: the Sharpe ratio increases strictly with the precision. -/
theorem C102_sharpe_increasing (p q freq profit loss : ℝ) (hp0 : 0 < p) (hpq : p < q) (hq1 : q < 1)
    (hf : 0 < freq) (hl : loss < 0) (hpr : 0 < profit) :
    ∃ x y : ℝ, strategySharpe p freq profit loss = .ok x ∧ strategySharpe q freq profit loss = .ok y ∧
      x < y := by
  have hd : loss < profit := by linarith
  exact ⟨_, _, strategySharpe_eq p freq profit loss hp0 (hpq.trans hq1) hf.le hd,
    strategySharpe_eq q freq profit loss (hp0.trans hpq) hq1 hf.le hd,
    mul_lt_mul_of_pos_right (ratio_strictMono p q profit loss hp0 hpq hq1 hl hpr) (Real.sqrt_pos.2 hf)⟩

/-- C102: the required precision increases strictly with the target from 0 on, and decreases strictly
with the frequency for a positive target. -/
theorem C102_precision_monotone (profit loss : ℝ) (hl : loss < 0) (hpr : 0 < profit) :
    (∀ (freq t u p q : ℝ), 0 < freq → 0 ≤ t → t < u → requiredPrecision t freq profit loss = .ok p →
      requiredPrecision u freq profit loss = .ok q → p < q) ∧
    (∀ (t f g p q : ℝ), 0 < f → f < g → 0 < t → requiredPrecision t f profit loss = .ok p →
      requiredPrecision t g profit loss = .ok q → q < p) := by
  have hd : loss < profit := by linarith
  have mono : ∀ x y : ℝ, 0 < x → x < 1 → 0 < y → y < 1 →
      ((profit - loss) * x + loss) / ((profit - loss) * √(x * (1 - x)))
        < ((profit - loss) * y + loss) / ((profit - loss) * √(y * (1 - y))) → x < y := by
    intro x y hx0 hx1 hy0 hy1 h
    rcases lt_trichotomy x y with h1 | h1 | h1
    · exact h1
    · subst h1; exact absurd h (lt_irrefl _)
    · exact absurd h (lt_asymm (ratio_strictMono y x profit loss hy0 h1 hx1 hl hpr))
  constructor
  · intro freq t u p q hf ht htu hp hq
    obtain ⟨p', h1, h2, h3, h4, h5⟩ := requiredPrecision_spec t freq profit loss hf hl hpr
    obtain ⟨q', k1, k2, k3, k4, k5⟩ := requiredPrecision_spec u freq profit loss hf hl hpr
    rw [hp] at h1; rw [hq] at k1
    simp only [Except.ok.injEq] at h1 k1
    subst h1; subst k1
    have e1 := (sharpe_of_eq h2 h3 hf.le hd h5).1 h4
    have e2 := (sharpe_of_eq k2 k3 hf.le hd k5).1 k4
    rw [abs_of_nonneg ht] at e1
    rw [abs_of_nonneg (ht.trans htu.le)] at e2
    apply mono p q h2 h3 k2 k3
    have hsf : 0 < √freq := Real.sqrt_pos.2 hf
    rw [← mul_lt_mul_iff_left₀ hsf, e1, e2]
    exact htu
  · intro t f g p q hf hfg ht hp hq
    have hg : 0 < g := hf.trans hfg
    obtain ⟨p', h1, h2, h3, h4, h5⟩ := requiredPrecision_spec t f profit loss hf hl hpr
    obtain ⟨q', k1, k2, k3, k4, k5⟩ := requiredPrecision_spec t g profit loss hg hl hpr
    rw [hp] at h1; rw [hq] at k1
    simp only [Except.ok.injEq] at h1 k1
    subst h1; subst k1
    have e1 := (sharpe_of_eq h2 h3 hf.le hd h5).1 h4
    have e2 := (sharpe_of_eq k2 k3 hg.le hd k5).1 k4
    rw [abs_of_pos ht] at e1 e2
    apply mono q p k2 k3 h2 h3
    have hsf : 0 < √f := Real.sqrt_pos.2 hf
    have hsg : 0 < √g := Real.sqrt_pos.2 hg
    have hlt : √f < √g := Real.sqrt_lt_sqrt hf.le hfg
    rw [← eq_div_iff hsf.ne'] at e1
    rw [← eq_div_iff hsg.ne'] at e2
    rw [e1, e2]
    exact div_lt_div_of_pos_left ht hsf hlt

example : requiredPrecision 0 52 1 (-1) = .ok (1 / 2) := by
  unfold requiredPrecision powHalf pyDiv
  norm_num

/-! ## C101 -/

/-- C101: away from break-even, a frequency is returned exactly if the target and the mean of a bet have
the same sign (or the target is 0), and then it has the target Sharpe ratio; the closeness tolerance
also lets targets below `10⁻⁸` in size pass with the wrong sign. -/
theorem C101_required_freq (target p profit loss : ℝ) (hp0 : 0 < p) (hp1 : p < 1) (hd : loss < profit)
    (hbe : (profit - loss) * p + loss ≠ 0) :
    ∃ r : Option ℝ, requiredFreq target p profit loss = .ok r ∧
      (0 ≤ target * (p * profit + (1 - p) * loss) →
        ∃ f : ℝ, r = some f ∧ 0 ≤ f ∧ betSharpe p f profit loss = target) ∧
      (target * (p * profit + (1 - p) * loss) < 0 →
        (1 / 10 ^ 8 ≤ |target| → r = none) ∧
        ∀ f : ℝ, r = some f → |target| < 1 / 10 ^ 8 ∧ betSharpe p f profit loss = -target) := by
  have hmean : (profit - loss) * p + loss = p * profit + (1 - p) * loss := by ring
  set Δ := profit - loss with hΔ
  have hΔpos : 0 < Δ := by rw [hΔ]; linarith
  set μ := Δ * p + loss with hμ
  have hμ2 : 0 < μ ^ 2 := by positivity
  set f := (target * Δ) ^ 2 * p * (1 - p) / μ ^ 2 with hf
  have hf0 : 0 ≤ f := by
    rw [hf]
    apply div_nonneg _ hμ2.le
    have : 0 < 1 - p := by linarith
    positivity
  have heq : f * μ ^ 2 = target ^ 2 * Δ ^ 2 * (p * (1 - p)) := by
    rw [hf]; field_simp
  have hS := strategySharpe_eq p f profit loss hp0 hp1 hf0 hd
  have hB := C102_bets p f profit loss hp0 hp1 hf0 hd
  have hval := sharpe_of_eq (target := target) hp0 hp1 hf0 hd heq
  rw [← hΔ, ← hμ] at hS hval
  set S := μ / (Δ * √(p * (1 - p))) * √f with hSdef
  have hBS : betSharpe p f profit loss = S := by
    rw [hB] at hS
    simpa using hS
  have hreq : requiredFreq target p profit loss = .ok (by classical exact if IsClose S target then some f else none) := by
    unfold requiredFreq pyDiv
    rw [← hΔ, ← hμ, if_neg hμ2.ne']
    simp only [py_bind_ok]
    rw [← hf, hS]
    rfl
  refine ⟨_, hreq, ?_, ?_⟩
  · intro hsign
    rw [← hmean] at hsign
    have hSt : S = target := by
      rcases lt_or_gt_of_ne hbe with hneg | hpos
      · have ht : target ≤ 0 := by
          by_contra hc
          linarith [mul_neg_of_pos_of_neg (not_le.1 hc) hneg]
        rw [hval.2 hneg.le, abs_of_nonpos ht]; ring
      · have ht : 0 ≤ target := by
          by_contra hc
          linarith [mul_neg_of_neg_of_pos (not_le.1 hc) hpos]
        rw [hval.1 hpos.le, abs_of_nonneg ht]
    refine ⟨f, ?_, hf0, by rw [hBS, hSt]⟩
    rw [if_pos]
    unfold IsClose
    rw [hSt]
    simp
    positivity
  · intro hsign
    rw [← hmean] at hsign
    have hSt : S = -target := by
      rcases lt_or_gt_of_ne hbe with hneg | hpos
      · have ht : 0 ≤ target := by
          by_contra hc
          linarith [mul_pos_of_neg_of_neg (not_le.1 hc) hneg]
        rw [hval.2 hneg.le, abs_of_nonneg ht]
      · have ht : target ≤ 0 := by
          by_contra hc
          linarith [mul_pos (not_le.1 hc) hpos]
        rw [hval.1 hpos.le, abs_of_nonpos ht]
    have habs : |S - target| = 2 * |target| := by
      rw [hSt]
      have : -target - target = -(2 * target) := by ring
      rw [this, abs_neg, abs_mul]; norm_num
    constructor
    · intro hbig
      rw [if_neg]
      unfold IsClose
      rw [habs]
      push Not
      have : (0 : ℝ) < 1 / 10 ^ 8 := by norm_num
      nlinarith
    · intro f' hf'
      split_ifs at hf' with hc
      simp only [Option.some.injEq] at hf'
      unfold IsClose at hc
      rw [habs] at hc
      refine ⟨?_, by rw [← hf', hBS, hSt]⟩
      by_contra hbig
      push Not at hbig
      have : (0 : ℝ) < 1 / 10 ^ 8 := by norm_num
      nlinarith

/-- C101: at break-even the code divides by zero. -/
theorem C101_break_even (target p profit loss : ℝ) (hbe : (profit - loss) * p + loss = 0) :
    requiredFreq target p profit loss = .error .zeroDivision := by
  unfold requiredFreq pyDiv
  rw [hbe]
  norm_num
  try rfl

/-- A case: precision 0.6, gains and losses of 1. -/
example : ((1 : ℝ) - (-1)) * 0.6 + (-1) ≠ 0 ∧ (0 : ℝ) ≤ 2 * (0.6 * 1 + (1 - 0.6) * (-1)) := by norm_num

/-! ## C102: probability of failure -/

/-- C102: with `p` the share of gains, `up` the mean gain and `down` the mean of the rest, the failure
probability is the normal probability, with mean `p` and deviation `p(1-p)`, that the precision is
below the one required. -/
theorem C102_failure_formula (returns : List ℝ)
    (hgain : ∃ r ∈ returns, 0 < r) (hloss : ∃ r ∈ returns, r < 0) :
    ∃ p up down : ℝ, 0 < p ∧ p < 1 ∧ down < 0 ∧ 0 < up ∧
      (p = ((returns.filter fun r => 0 < r).length : ℝ) / (returns.length : ℝ)) ∧
      (up = (returns.filter fun r => 0 < r).sum / ((returns.filter fun r => 0 < r).length : ℝ)) ∧
      (down = (returns.filter fun r => r ≤ 0).sum / ((returns.filter fun r => r ≤ 0).length : ℝ)) ∧
      (∀ (freq target : ℝ), 0 < freq → ∃ thresh : ℝ, requiredPrecision target freq up down = .ok thresh ∧
        probabilityOfFailure returns freq target = .ok (some (normCdf ((thresh - p) / (p * (1 - p)))))) := by
  set pos := returns.filter fun r => 0 < r with hpos
  set neg := returns.filter fun r => r ≤ 0 with hneg
  obtain ⟨g, hg, hg0⟩ := hgain
  obtain ⟨l, hl, hl0⟩ := hloss
  have hgm : g ∈ pos := List.mem_filter.2 ⟨hg, by simpa using hg0⟩
  have hlm : l ∈ neg := List.mem_filter.2 ⟨hl, by simpa using hl0.le⟩
  have hpn : pos ≠ [] := fun h => by rw [h] at hgm; simp at hgm
  have hnn : neg ≠ [] := fun h => by rw [h] at hlm; simp at hlm
  have hplen : 0 < pos.length := List.length_pos_iff.2 hpn
  have hnlen : 0 < neg.length := List.length_pos_iff.2 hnn
  have hsum : pos.length + neg.length = returns.length := by
    have := List.length_eq_length_filter_add (l := returns) (fun r => decide (0 < r))
    rw [this, hpos, hneg]
    congr 2
    apply List.filter_congr
    intro x _
    rw [← decide_not]
    exact decide_eq_decide.2 not_lt.symm
  have hpl : (0 : ℝ) < (pos.length : ℝ) := by exact_mod_cast hplen
  have hnl : (0 : ℝ) < (neg.length : ℝ) := by exact_mod_cast hnlen
  have hrl : (returns.length : ℝ) = (pos.length : ℝ) + (neg.length : ℝ) := by exact_mod_cast hsum.symm
  have hup : 0 < pos.sum := by
    apply lt_of_lt_of_le hg0
    exact List.single_le_sum (fun x hx => by
      have := (List.mem_filter.1 hx).2; simp at this; exact this.le) g hgm
  have hdown : neg.sum < 0 := by
    have h1 := List.single_le_sum (l := neg.map fun x => -x) (by
      intro y hy
      obtain ⟨x, hx, rfl⟩ := List.mem_map.1 hy
      have := (List.mem_filter.1 hx).2; simp at this; linarith) (-l) (List.mem_map.2 ⟨l, hlm, rfl⟩)
    have h2 : ∀ l : List ℝ, (l.map fun x => -x).sum = -l.sum := by
      intro l
      induction l with
      | nil => simp
      | cons a l ih => simp [ih]; ring
    rw [h2] at h1
    linarith
  set p := (pos.length : ℝ) / (returns.length : ℝ) with hp
  have hp0 : 0 < p := by rw [hp, hrl]; positivity
  have hp1 : p < 1 := by rw [hp, hrl, div_lt_one (by linarith)]; linarith
  have hu0 : 0 < pos.sum / (pos.length : ℝ) := div_pos hup hpl
  have hd0 : neg.sum / (neg.length : ℝ) < 0 := div_neg_of_neg_of_pos hdown hnl
  refine ⟨p, pos.sum / (pos.length : ℝ), neg.sum / (neg.length : ℝ), hp0, hp1, hd0, hu0, rfl, rfl, rfl, ?_⟩
  intro freq target hf
  obtain ⟨t, ht, -⟩ := requiredPrecision_spec target freq _ _ hf hd0 hu0
  refine ⟨t, ht, ?_⟩
  unfold probabilityOfFailure
  rw [if_neg (by omega)]
  simp only [← hpos, ← hneg, meanOpt, if_neg hpn, if_neg hnn, Option.bind_some, ht, Except.toOption, cdfAt]
  rw [if_pos (mul_pos hp0 (by linarith))]

/-- The full claim of C102 about the failure probability. -/
def FailureClaim : Prop := ∀ (returns : List ℝ) (freq t u : ℝ), 0 < freq → (∃ r ∈ returns, 0 < r) →
  (∃ r ∈ returns, r < 0) → t < u →
  ∃ x y : ℝ, probabilityOfFailure returns freq t = .ok (some x) ∧
    probabilityOfFailure returns freq u = .ok (some y) ∧ 0 < x ∧ y < 1 ∧ x < y

/-- The targets -1 and 1 have the same failure probability. -/
theorem C102_failure_counterexample : ¬ FailureClaim := by
  intro hc
  obtain ⟨x, y, hx, hy, -, -, hlt⟩ := hc [1, -1] 1 (-1) 1 (by norm_num) ⟨1, by simp, by norm_num⟩
    ⟨-1, by simp, by norm_num⟩ (by norm_num)
  have : ∀ up down : ℝ, requiredPrecision (-1) 1 up down = requiredPrecision 1 1 up down := by
    intro up down
    unfold requiredPrecision
    simp
  have he : probabilityOfFailure [1, -1] 1 (-1) = probabilityOfFailure [1, -1] 1 1 := by
    unfold probabilityOfFailure
    simp only [this]
  rw [he, hy] at hx
  simp only [Except.ok.injEq, Option.some.injEq] at hx
  rw [hx] at hlt
  exact lt_irrefl _ hlt

/-- C102 (partial): with a gain and a loss in the sample the failure probability lies strictly between 0
and 1; it increases strictly with the target from 0 on, and decreases strictly with the frequency for
a positive target.  Missing: negative targets, which are treated as their absolute value. -/
theorem C102_failure_partial (returns : List ℝ) (hgain : ∃ r ∈ returns, 0 < r)
    (hloss : ∃ r ∈ returns, r < 0) :
    (∀ freq target : ℝ, 0 < freq → ∃ x : ℝ, probabilityOfFailure returns freq target = .ok (some x) ∧
      0 < x ∧ x < 1 ∧ probabilityOfFailure returns freq (-target) = .ok (some x)) ∧
    (∀ freq t u x y : ℝ, 0 < freq → 0 ≤ t → t < u → probabilityOfFailure returns freq t = .ok (some x) →
      probabilityOfFailure returns freq u = .ok (some y) → x < y) ∧
    (∀ t f g x y : ℝ, 0 < f → f < g → 0 < t → probabilityOfFailure returns f t = .ok (some x) →
      probabilityOfFailure returns g t = .ok (some y) → y < x) := by
  obtain ⟨p, up, down, hp0, hp1, hd, hu, -, -, -, hfail⟩ := C102_failure_formula returns hgain hloss
  have hpp : 0 < p * (1 - p) := mul_pos hp0 (by linarith)
  have hmono := C102_precision_monotone up down hd hu
  have hlt : ∀ a b : ℝ, a < b → normCdf ((a - p) / (p * (1 - p))) < normCdf ((b - p) / (p * (1 - p))) := by
    intro a b hab
    apply normCdf_strictMono
    apply div_lt_div_of_pos_right _ hpp
    linarith
  refine ⟨?_, ?_, ?_⟩
  · intro freq target hf
    obtain ⟨th, h1, h2⟩ := hfail freq target hf
    obtain ⟨th', h1', h2'⟩ := hfail freq (-target) hf
    refine ⟨_, h2, normCdf_pos _, normCdf_lt_one _, ?_⟩
    rw [h2']
    have : requiredPrecision (-target) freq up down = requiredPrecision target freq up down := by
      unfold requiredPrecision
      simp
    rw [this, h1] at h1'
    simp only [Except.ok.injEq] at h1'
    rw [h1']
  · intro freq t u x y hf ht htu hx hy
    obtain ⟨a, h1, h2⟩ := hfail freq t hf
    obtain ⟨b, k1, k2⟩ := hfail freq u hf
    rw [hx] at h2; rw [hy] at k2
    simp only [Except.ok.injEq, Option.some.injEq] at h2 k2
    rw [h2, k2]
    exact hlt a b (hmono.1 freq t u a b hf ht htu h1 k1)
  · intro t f g x y hf hfg ht hx hy
    obtain ⟨a, h1, h2⟩ := hfail f t hf
    obtain ⟨b, k1, k2⟩ := hfail g t (hf.trans hfg)
    rw [hx] at h2; rw [hy] at k2
    simp only [Except.ok.injEq, Option.some.injEq] at h2 k2
    rw [h2, k2]
    exact hlt b a (hmono.2 t f g a b hf hfg ht h1 k1)

end FinML.Risk
