import Verif.Metrics.SharpeModel
import Mathlib.Tactic.Linarith
import Mathlib.Tactic.FieldSimp
import Mathlib.Tactic.Ring
import Mathlib.Tactic.NormNum
import Mathlib.Algebra.Order.BigOperators.Group.List
import Mathlib.Algebra.BigOperators.Ring.List
import Mathlib.Topology.Order.IntermediateValue

/-! # Sharpe ratios (C97, C98, C99, C140) -/

set_option linter.unusedSectionVars false

namespace FinML.Metrics

open Filter Topology

/-! ## Moments -/

/-- Some entries differ. -/
def NonConst (l : List ℝ) : Prop := ∃ x ∈ l, ∃ y ∈ l, x ≠ y

theorem npAvg_map_affine (l : List ℝ) (hl : l ≠ []) (a b : ℝ) :
    npAvg (l.map fun x => a * x + b) = a * npAvg l + b := by
  have h : ∀ l : List ℝ, (l.map fun x => a * x + b).sum = a * l.sum + b * (l.length : ℝ) := by
    intro l
    induction l with
    | nil => simp
    | cons x l ih => simp only [List.map_cons, List.sum_cons, ih, List.length_cons]; push_cast; ring
  have hn : (l.length : ℝ) ≠ 0 := by
    have : l.length ≠ 0 := fun h => hl (List.eq_nil_of_length_eq_zero h)
    exact_mod_cast this
  unfold npAvg
  rw [h, List.length_map]
  field_simp

theorem npAvg_scale (l : List ℝ) (a : ℝ) : npAvg (l.map fun x => a * x) = a * npAvg l := by
  by_cases hl : l = []
  · subst hl; simp [npAvg]
  · simpa using npAvg_map_affine l hl a 0

/-- Moments under an affine change. -/
theorem moment_affine (k : ℕ) (l : List ℝ) (a b : ℝ) :
    moment k (l.map fun x => a * x + b) = a ^ k * moment k l := by
  by_cases hl : l = []
  · subst hl; simp [moment, npAvg]
  unfold moment
  rw [npAvg_map_affine l hl, ← npAvg_scale (l.map fun x => (x - npAvg l) ^ k), List.map_map, List.map_map]
  congr 1
  apply List.map_congr_left
  intro x _
  simp only [Function.comp]
  rw [← mul_pow]; congr 1; ring

theorem npAvg_nonneg {l : List ℝ} (h : ∀ x ∈ l, 0 ≤ x) : 0 ≤ npAvg l :=
  div_nonneg (List.sum_nonneg h) (by positivity)

theorem moment_two_nonneg (l : List ℝ) : 0 ≤ moment 2 l := by
  apply npAvg_nonneg
  intro y hy
  obtain ⟨x, -, rfl⟩ := List.mem_map.1 hy
  positivity

theorem moment_two_pos_iff (l : List ℝ) : 0 < moment 2 l ↔ NonConst l := by
  constructor
  · intro h
    by_contra hc
    unfold NonConst at hc
    push Not at hc
    cases l with
    | nil => simp [moment, npAvg] at h
    | cons a l =>
      have hall : ∀ x ∈ a :: l, x = a := fun x hx => hc x hx a (by simp)
      have havg : npAvg (a :: l) = a := by
        unfold npAvg
        rw [List.eq_replicate_of_mem hall]
        simp only [List.sum_replicate, nsmul_eq_mul, List.length_replicate]
        have : (((a :: l).length : ℕ) : ℝ) ≠ 0 := by simp; positivity
        field_simp
      have : moment 2 (a :: l) = 0 := by
        unfold moment
        rw [havg]
        have h0 : ((a :: l).map fun x => (x - a) ^ 2).sum = 0 := by
          apply List.sum_eq_zero
          intro y hy
          obtain ⟨x, hx, rfl⟩ := List.mem_map.1 hy
          rw [hall x hx]; simp
        unfold npAvg
        rw [h0]; simp
      linarith
  · rintro ⟨x, hx, y, hy, hxy⟩
    by_contra hc
    have h0 : moment 2 l = 0 := le_antisymm (not_lt.1 hc) (moment_two_nonneg l)
    have hn : ((l.map fun x => (x - npAvg l) ^ 2).length : ℝ) ≠ 0 := by
      rw [List.length_map]
      have : l.length ≠ 0 := fun h => by
        rw [List.eq_nil_of_length_eq_zero h] at hx; simp at hx
      exact_mod_cast this
    have hs : (l.map fun x => (x - npAvg l) ^ 2).sum = 0 := by
      unfold moment at h0
      rw [npAvg, div_eq_zero_iff] at h0
      exact h0.resolve_right hn
    have hz : ∀ z ∈ l, z = npAvg l := by
      intro z hz
      have hle := List.single_le_sum (l := l.map fun x => (x - npAvg l) ^ 2)
        (by intro w hw; obtain ⟨v, -, rfl⟩ := List.mem_map.1 hw; positivity) _
        (List.mem_map.2 ⟨z, hz, rfl⟩)
      rw [hs] at hle
      have : (z - npAvg l) ^ 2 = 0 := le_antisymm hle (sq_nonneg _)
      have := pow_eq_zero_iff (two_ne_zero) |>.1 this
      linarith
    exact hxy (by rw [hz x hx, hz y hy])

theorem npStd_pos_iff (l : List ℝ) : 0 < npStd l ↔ NonConst l := by
  unfold npStd
  rw [Real.sqrt_pos, moment_two_pos_iff]

theorem npStd_affine (l : List ℝ) (a b : ℝ) : npStd (l.map fun x => a * x + b) = |a| * npStd l := by
  unfold npStd
  rw [moment_affine, Real.sqrt_mul (sq_nonneg a), Real.sqrt_sq_eq_abs]

/-! ## C97 -/

/-- C97: the Sharpe ratio is a number exactly for returns that are not constant, and then it is the mean
over the population deviation. -/
theorem C97_defined (l : List ℝ) :
    ((sharpe l).isSome ↔ NonConst l) ∧
    (∀ v : ℝ, sharpe l = some v → v * npStd l = npAvg l ∧
      npStd l ^ 2 = (l.map fun x => (x - l.sum / l.length) ^ 2).sum / l.length) := by
  unfold sharpe fdiv
  have h0 : 0 ≤ npStd l := Real.sqrt_nonneg _
  constructor
  · rw [← npStd_pos_iff]
    split_ifs with h
    · simp [h]
    · simpa using lt_of_le_of_ne h0 (Ne.symm h)
  · intro v hv
    split_ifs at hv with h
    simp only [Option.some.injEq] at hv
    refine ⟨by rw [← hv]; field_simp, ?_⟩
    unfold npStd
    rw [Real.sq_sqrt (moment_two_nonneg l)]
    unfold moment npAvg
    rw [List.length_map]

/-- C97: positive scaling leaves the Sharpe ratio unchanged, negation negates it, and so does every
negative factor. -/
theorem C97_scale (l : List ℝ) (c : ℝ) :
    (0 < c → sharpe (l.map fun x => c * x) = sharpe l) ∧
    (c < 0 → sharpe (l.map fun x => c * x) = (sharpe l).map fun v => -v) ∧
    sharpe (l.map fun x => -x) = (sharpe l).map fun v => -v := by
  have key : ∀ c : ℝ, c < 0 → sharpe (l.map fun x => c * x) = (sharpe l).map fun v => -v := by
    intro c hc
    have hs : npStd (l.map fun x => c * x) = |c| * npStd l := by simpa using npStd_affine l c 0
    unfold sharpe fdiv
    rw [hs, npAvg_scale, abs_of_neg hc]
    by_cases h : npStd l = 0
    · simp [h]
    · have hc' : c ≠ 0 := hc.ne
      rw [if_neg (mul_ne_zero (neg_ne_zero.2 hc') h), if_neg h]
      simp only [Option.map_some, Option.some.injEq]
      field_simp
  refine ⟨fun hc => ?_, key c, ?_⟩
  · have hs : npStd (l.map fun x => c * x) = |c| * npStd l := by simpa using npStd_affine l c 0
    unfold sharpe fdiv
    rw [hs, npAvg_scale, abs_of_pos hc]
    by_cases h : npStd l = 0
    · simp [h]
    · rw [if_neg (mul_ne_zero hc.ne' h), if_neg h]
      simp only [Option.some.injEq]
      field_simp
  · have := key (-1) (by norm_num)
    simpa using this

/-- C97: the information ratio is the Sharpe ratio of the excess returns, and a common shift of both
series does not change it. -/
theorem C97_information (rets bench : List ℝ) (c : ℝ) :
    informationRatio rets bench = sharpe (rets.zipWith (fun a b => a - b) bench) ∧
    informationRatio (rets.map fun x => x + c) (bench.map fun x => x + c) = informationRatio rets bench := by
  refine ⟨rfl, ?_⟩
  unfold informationRatio
  have : List.zipWith (fun a b => a - b) (rets.map fun x => x + c) (bench.map fun x => x + c)
      = List.zipWith (fun a b => a - b) rets bench := by
    rw [List.zipWith_map]
    congr 1
    funext a b
    ring
  simp only [this]

/-- C97: annualising over `a` and then `b` periods is annualising over `a*b`; over one it changes
nothing. -/
theorem C97_annualized (sr a b : ℝ) (ha : 0 ≤ a) :
    annualized (annualized sr a) b = annualized sr (a * b) ∧ annualized sr 1 = sr := by
  unfold annualized
  rw [Real.sqrt_mul ha]
  exact ⟨by ring, by simp⟩

example : sharpe [1, 3] = some 2 := by
  have h1 : npAvg [1, 3] = 2 := by norm_num [npAvg]
  have h2 : npStd [1, 3] = 1 := by
    unfold npStd moment
    rw [h1]
    norm_num [npAvg]
  unfold sharpe fdiv
  rw [h1, h2]; norm_num

/-! ## C98 -/

theorem avg_congr {l : List ℝ} {f g : ℝ → ℝ} (h : ∀ x ∈ l, f x = g x) : npAvg (l.map f) = npAvg (l.map g) := by
  rw [List.map_congr_left h]

theorem avg_add (l : List ℝ) (f g : ℝ → ℝ) :
    npAvg (l.map fun x => f x + g x) = npAvg (l.map f) + npAvg (l.map g) := by
  unfold npAvg
  rw [List.sum_map_add]
  simp only [List.length_map]
  rw [add_div]

theorem avg_mul (l : List ℝ) (c : ℝ) (f : ℝ → ℝ) : npAvg (l.map fun x => c * f x) = c * npAvg (l.map f) := by
  unfold npAvg
  rw [List.sum_map_mul_left]
  simp only [List.length_map]
  rw [mul_div_assoc]

theorem moment_one (l : List ℝ) : moment 1 l = 0 := by
  by_cases hl : l = []
  · subst hl; simp [moment, npAvg]
  unfold moment
  have := npAvg_map_affine l hl 1 (-npAvg l)
  simp only [pow_one]
  have e : (fun x => x - npAvg l) = fun x => 1 * x + -npAvg l := by funext x; ring
  rw [e, this]; ring

theorem moment_zero (l : List ℝ) (hl : l ≠ []) : moment 0 l = 1 := by
  unfold moment npAvg
  have hn : (l.length : ℝ) ≠ 0 := by
    have : l.length ≠ 0 := fun h => hl (List.eq_nil_of_length_eq_zero h)
    exact_mod_cast this
  simp [hn]

/-- The raw radicand is the mean of a square. -/
theorem raw_radicand (l : List ℝ) (h : NonConst l) (sr s k : ℝ) (hs : skew l = some s)
    (hk : kurtosis l = some k) :
    psrRadicand sr s (k + 3) = npAvg (l.map fun x =>
      ((x - npAvg l) / npStd l - sr / 2 * (((x - npAvg l) / npStd l) ^ 2 - 1)) ^ 2) := by
  have hpos := (npStd_pos_iff l).2 h
  have hl : l ≠ [] := by
    rintro rfl
    obtain ⟨x, hx, -⟩ := h
    simp at hx
  have hsq : npStd l ^ 2 = moment 2 l := Real.sq_sqrt (moment_two_nonneg l)
  have hm2 : 0 < moment 2 l := (moment_two_pos_iff l).2 h
  unfold skew fdiv at hs
  rw [if_neg (by positivity)] at hs
  simp only [Option.some.injEq] at hs
  unfold kurtosis fdiv at hk
  rw [if_neg (by positivity)] at hk
  simp only [Option.map_some, Option.some.injEq] at hk
  set σ := npStd l with hσ
  set μ := npAvg l with hμ
  have e : ∀ x : ℝ, ((x - μ) / σ - sr / 2 * (((x - μ) / σ) ^ 2 - 1)) ^ 2 =
      (sr ^ 2 / 4 / σ ^ 4) * (x - μ) ^ 4 + ((- sr / σ ^ 3) * (x - μ) ^ 3 +
        ((1 / σ ^ 2 - sr ^ 2 / 2 / σ ^ 2) * (x - μ) ^ 2 + ((sr / σ) * (x - μ) ^ 1 +
          (sr ^ 2 / 4) * (x - μ) ^ 0))) := by
    intro x; field_simp; ring
  rw [avg_congr fun x _ => e x, avg_add, avg_add, avg_add, avg_add, avg_mul, avg_mul, avg_mul, avg_mul,
    avg_mul]
  have m1 := moment_one l
  have m0 := moment_zero l hl
  unfold moment at m1 m0
  rw [← hμ] at m1 m0
  rw [m1, m0]
  have e2 : npAvg (l.map fun x => (x - μ) ^ 2) = σ ^ 2 := by rw [hsq]; rfl
  have e3 : npAvg (l.map fun x => (x - μ) ^ 3) = s * σ ^ 3 := by
    rw [← hs]; unfold moment; rw [← hμ]; field_simp
  have e4 : npAvg (l.map fun x => (x - μ) ^ 4) = (k + 3) * σ ^ 4 := by
    have : σ ^ 4 = moment 2 l ^ 2 := by rw [← hsq]; ring
    rw [← hk, this]; unfold moment at hm2 ⊢; rw [← hμ] at hm2 ⊢; field_simp; ring
  rw [e2, e3, e4]
  unfold psrRadicand
  field_simp
  ring

/-- The full claim of C98. -/
def PsrClaim : Prop := ∀ l : List ℝ, NonConst l → ∀ b : ℝ, ∃ v : ℝ, psr1 l b = some v ∧ 0 < v ∧ v < 1

theorem moments_one_three : npAvg [1, 3] = 2 ∧ moment 2 [1, 3] = 1 ∧ moment 3 [1, 3] = 0 ∧
    moment 4 [1, 3] = 1 ∧ npStd [1, 3] = 1 := by
  have h1 : npAvg [1, 3] = 2 := by norm_num [npAvg]
  refine ⟨h1, ?_, ?_, ?_, ?_⟩
  · unfold moment; rw [h1]; norm_num [npAvg]
  · unfold moment; rw [h1]; norm_num [npAvg]
  · unfold moment; rw [h1]; norm_num [npAvg]
  · unfold npStd moment; rw [h1]; norm_num [npAvg]

/-- Returns of 1 and 3: the number under the root is -2. -/
theorem C98_psr_counterexample : ¬ PsrClaim := by
  intro hc
  obtain ⟨v, hv, -⟩ := hc [1, 3] ⟨1, by simp, 3, by simp, by norm_num⟩ 0
  obtain ⟨h1, h2, h3, h4, h5⟩ := moments_one_three
  have e1 : sharpe [1, 3] = some 2 := by unfold sharpe fdiv; rw [h1, h5]; norm_num
  have e2 : skew [1, 3] = some 0 := by unfold skew fdiv; rw [h3, h5]; norm_num
  have e3 : kurtosis [1, 3] = some (-2) := by unfold kurtosis fdiv; rw [h4, h2]; norm_num
  unfold psr1 psrLine at hv
  rw [e1, e2, e3] at hv
  simp only [Option.bind_eq_bind, Option.bind_some] at hv
  unfold cdfQuot at hv
  rw [if_pos (by unfold psrRadicand; norm_num)] at hv
  simp at hv

/-- C98: with raw instead of excess kurtosis the number under the root would never be negative. -/
theorem C98_raw_kurtosis (l : List ℝ) (h : NonConst l) (sr s k : ℝ) (hs : skew l = some s)
    (hk : kurtosis l = some k) : 0 ≤ psrRadicand sr s (k + 3) := by
  rw [raw_radicand l h sr s k hs hk]
  apply npAvg_nonneg
  intro y hy
  obtain ⟨x, -, rfl⟩ := List.mem_map.1 hy
  positivity

theorem stats_defined (l : List ℝ) (h : NonConst l) :
    ∃ sr s k : ℝ, sharpe l = some sr ∧ skew l = some s ∧ kurtosis l = some k := by
  have hpos := (npStd_pos_iff l).2 h
  have hm2 : 0 < moment 2 l := (moment_two_pos_iff l).2 h
  unfold sharpe skew kurtosis fdiv
  rw [if_neg hpos.ne', if_neg (by positivity), if_neg (by positivity)]
  exact ⟨_, _, _, rfl, rfl, rfl⟩

theorem nonConst_length {l : List ℝ} (h : NonConst l) : 2 ≤ l.length := by
  obtain ⟨x, hx, y, hy, hxy⟩ := h
  rcases l with _ | ⟨a, _ | ⟨b, l⟩⟩
  · simp at hx
  · simp at hx hy; exact absurd (hx.trans hy.symm) hxy
  · simp

/-- C98 (partial): where the number under the root is positive, the result is a number strictly between
0 and 1, strictly decreasing in the benchmark, and 1/2 at the observed ratio.  It is positive in
particular if the skewness is 0 or of the sign opposite to the ratio and the ratio is less than
`2/√3`.  Missing: returns for which excess kurtosis makes it negative or zero. -/
theorem C98_psr_partial (l : List ℝ) (h : NonConst l) :
    ∃ sr s k : ℝ, sharpe l = some sr ∧ skew l = some s ∧ kurtosis l = some k ∧
      (s * sr ≤ 0 → sr ^ 2 < 4 / 3 → 0 < psrRadicand sr s k) ∧
      (0 < psrRadicand sr s k → ∃ f : ℝ → ℝ, (∀ b : ℝ, psr1 l b = some (f b)) ∧
        (∀ b : ℝ, 0 < f b ∧ f b < 1) ∧ StrictAnti f ∧ f sr = 1 / 2) ∧
      (psrRadicand sr s k < 0 → ∀ b : ℝ, psr1 l b = none) := by
  obtain ⟨sr, s, k, h1, h2, h3⟩ := stats_defined l h
  refine ⟨sr, s, k, h1, h2, h3, ?_, ?_, ?_⟩
  · intro hss hsr
    have h4 := C98_raw_kurtosis l h 0 s k h2 h3
    -- kurtosis is at least 1: take the limit of a large ratio
    have hk : 1 ≤ k + 3 := by
      by_contra hc
      push Not at hc
      -- choose x with s x ≥ 0 and a large square
      have hex : ∃ x : ℝ, 0 ≤ s * x ∧ x ^ 2 = 8 / (1 - (k + 3)) := by
        have hd : 0 ≤ 8 / (1 - (k + 3)) := div_nonneg (by norm_num) (by linarith)
        rcases le_total 0 s with hs' | hs'
        · exact ⟨√(8 / (1 - (k + 3))), mul_nonneg hs' (Real.sqrt_nonneg _), Real.sq_sqrt hd⟩
        · exact ⟨-√(8 / (1 - (k + 3))), mul_nonneg_of_nonpos_of_nonpos hs' (neg_nonpos.2 (Real.sqrt_nonneg _)), by
            rw [neg_sq, Real.sq_sqrt hd]⟩
      obtain ⟨x, hx1, hx2⟩ := hex
      have h5 := C98_raw_kurtosis l h x s k h2 h3
      unfold psrRadicand at h5
      rw [hx2] at h5
      have hne : 1 - (k + 3) ≠ 0 := by intro h0; linarith
      have e : (k + 3 - 1) / 4 * (8 / (1 - (k + 3))) = -2 := by
        rw [div_mul_div_comm, div_eq_iff (mul_ne_zero (by norm_num) hne)]; ring
      rw [e] at h5
      linarith
    unfold psrRadicand
    have h6 : (k - 1) / 4 * sr ^ 2 ≥ -3 / 4 * sr ^ 2 := by
      apply mul_le_mul_of_nonneg_right _ (sq_nonneg sr)
      linarith
    linarith
  · intro hrad
    have hn := nonConst_length h
    have hn' : (0 : ℝ) < √((l.length : ℝ) - 1) := by
      apply Real.sqrt_pos.2
      have : (2 : ℝ) ≤ (l.length : ℝ) := by exact_mod_cast hn
      linarith
    have hr : 0 < √(psrRadicand sr s k) := Real.sqrt_pos.2 hrad
    refine ⟨fun b => normCdf ((sr - b) * √((l.length : ℝ) - 1) / √(psrRadicand sr s k)), ?_, ?_, ?_, ?_⟩
    · intro b
      unfold psr1 psrLine
      rw [h1, h2, h3]
      simp only [Option.bind_eq_bind, Option.bind_some]
      unfold cdfQuot
      rw [if_neg (not_lt.2 hrad.le), if_neg hrad.ne']
    · intro b; exact ⟨normCdf_pos _, normCdf_lt_one _⟩
    · intro a b hab
      apply normCdf_strictMono
      apply div_lt_div_of_pos_right _ hr
      apply mul_lt_mul_of_pos_right _ hn'
      linarith
    · simp only [sub_self, zero_mul, zero_div, normCdf_zero]
  · intro hrad b
    unfold psr1 psrLine
    rw [h1, h2, h3]
    simp only [Option.bind_eq_bind, Option.bind_some]
    unfold cdfQuot
    rw [if_pos hrad]

/-- C98: the formula that is evaluated, for `n` returns with mean `μ` and deviation `σ`. -/
theorem C98_formula (l : List ℝ) (h : NonConst l) (b : ℝ) (T : ℕ) (n μ σ s k : ℝ)
    (hn : n = l.length) (hμ : μ = l.sum / n) (hσ : σ = √((l.map fun x => (x - μ) ^ 2).sum / n))
    (hs : s = (l.map fun x => (x - μ) ^ 3).sum / n / σ ^ 3)
    (hk : k = (l.map fun x => (x - μ) ^ 4).sum / n / σ ^ 4 - 3)
    (hrad : 0 < 1 - s * (μ / σ) + (k - 1) / 4 * (μ / σ) ^ 2) :
    psrLine l b T = some (normCdf ((μ / σ - b) * √((T : ℝ) - 1) /
      √(1 - s * (μ / σ) + (k - 1) / 4 * (μ / σ) ^ 2))) ∧
    psr1 l b = some (normCdf ((μ / σ - b) * √(n - 1) /
      √(1 - s * (μ / σ) + (k - 1) / 4 * (μ / σ) ^ 2))) := by
  have e1 : npAvg l = μ := by rw [hμ, hn]; rfl
  have em : ∀ j : ℕ, moment j l = (l.map fun x => (x - μ) ^ j).sum / n := by
    intro j
    unfold moment
    rw [e1, hn]
    unfold npAvg
    rw [List.length_map]
  have e2 : npStd l = σ := by unfold npStd; rw [em, hσ]
  have hpos := (npStd_pos_iff l).2 h
  rw [e2] at hpos
  have hsq : moment 2 l = σ ^ 2 := by rw [← e2]; exact (Real.sq_sqrt (moment_two_nonneg l)).symm
  have s1 : sharpe l = some (μ / σ) := by unfold sharpe fdiv; rw [e1, e2, if_neg hpos.ne']
  have s2 : skew l = some s := by
    unfold skew fdiv
    rw [e2, if_neg (by positivity), em, hs]
  have s3 : kurtosis l = some k := by
    unfold kurtosis fdiv
    rw [hsq, if_neg (by positivity), em, hk]
    simp only [Option.map_some, ← pow_mul]
  have key : ∀ T : ℕ, psrLine l b T = some (normCdf ((μ / σ - b) * √((T : ℝ) - 1) /
      √(1 - s * (μ / σ) + (k - 1) / 4 * (μ / σ) ^ 2))) := by
    intro T
    unfold psrLine
    rw [s1, s2, s3]
    simp only [Option.bind_eq_bind, Option.bind_some]
    unfold cdfQuot psrRadicand
    rw [if_neg (not_lt.2 hrad.le), if_neg hrad.ne']
  refine ⟨key T, ?_⟩
  unfold psr1
  rw [key, hn]

/-- A case of the last theorems: returns -1 and 1 have ratio 0 and a positive number under the root. -/
theorem line_pm_one : NonConst [-1, 1] ∧ sharpe [-1, 1] = some 0 ∧ skew [-1, 1] = some 0 ∧
    kurtosis [-1, 1] = some (-2) := by
  have h1 : npAvg [-1, 1] = 0 := by norm_num [npAvg]
  have h2 : moment 2 [-1, 1] = 1 := by unfold moment; rw [h1]; norm_num [npAvg]
  have h3 : moment 3 [-1, 1] = 0 := by unfold moment; rw [h1]; norm_num [npAvg]
  have h4 : moment 4 [-1, 1] = 1 := by unfold moment; rw [h1]; norm_num [npAvg]
  have h5 : npStd [-1, 1] = 1 := by unfold npStd; rw [h2]; norm_num
  refine ⟨⟨-1, by simp, 1, by simp, by norm_num⟩, ?_, ?_, ?_⟩
  · unfold sharpe fdiv; rw [h1, h5]; norm_num
  · unfold skew fdiv; rw [h3, h5]; norm_num
  · unfold kurtosis fdiv; rw [h4, h2]; norm_num

example : psr1 [-1, 1] 0 = some (1 / 2) := by
  obtain ⟨-, h1, h2, h3⟩ := line_pm_one
  unfold psr1 psrLine
  rw [h1, h2, h3]
  simp only [Option.bind_eq_bind, Option.bind_some]
  unfold cdfQuot psrRadicand
  norm_num [normCdf_zero]

/-! ## C99 -/

/-- A matrix of `r ≥ 1` rows of `c` entries. -/
def Rect (m : List (List ℝ)) (r c : ℕ) : Prop := m.length = r ∧ 0 < r ∧ ∀ l ∈ m, l.length = c

/-- The entries along an axis: for axis 0 column `j` has the entry of each row. -/
def IsLine (m : List (List ℝ)) (ax : Axis) (j : ℕ) (l : List ℝ) : Prop :=
  match ax with
  | .all => j = 0 ∧ l = m.flatten
  | .rows => ∃ r c, Rect m r c ∧ j < c ∧ l.length = r ∧ ∀ i : ℕ, i < r → ∃ row : List ℝ, m[i]? = some row ∧ l[i]? = row[j]?
  | .cols => m[j]? = some l

/-- The full claim of C99: the result for each line is that of its own observations. -/
def AxisClaim : Prop := ∀ (m : List (List ℝ)) (r c : ℕ) (ax : Axis) (b : ℝ) (j : ℕ) (l : List ℝ),
  Rect m r c → IsLine m ax j l → (psr m b ax)[j]? = some (psr1 l b)

/-- Two columns of two returns along axis 0: 4 observations are counted instead of 2. -/
theorem C99_axis_counterexample : ¬ AxisClaim := by
  intro hc
  have h := hc [[-1, -1], [1, 1]] 2 2 .rows (-1) 0 [-1, 1] ⟨rfl, by norm_num, by simp⟩
    ⟨2, 2, ⟨rfl, by norm_num, by simp⟩, by norm_num, rfl, by
      intro i hi
      rcases i with _ | _ | i
      · exact ⟨[-1, -1], rfl, rfl⟩
      · exact ⟨[1, 1], rfl, rfl⟩
      · omega⟩
  obtain ⟨-, h1, h2, h3⟩ := line_pm_one
  have hl : (psr [[-1, -1], [1, 1]] (-1) .rows)[0]? = some (psrLine [-1, 1] (-1) 4) := by
    simp [psr, lines, numObs, List.range_succ]
  rw [hl] at h
  simp only [Option.some.injEq] at h
  unfold psr1 psrLine at h
  rw [h1, h2, h3] at h
  simp only [Option.bind_eq_bind, Option.bind_some] at h
  unfold cdfQuot psrRadicand at h
  norm_num at h
  have := normCdf_strictMono.injective h
  have h4 : (1 : ℝ) < √3 := by
    rw [Real.lt_sqrt (by norm_num)]; norm_num
  linarith

theorem flatten_length {m : List (List ℝ)} {r c : ℕ} (h : Rect m r c) : m.flatten.length = r * c := by
  obtain ⟨h1, -, h3⟩ := h
  rw [List.length_flatten]
  have : m.map List.length = List.replicate r c := by
    rw [List.eq_replicate_iff]
    refine ⟨by simp [h1], ?_⟩
    intro b hb
    obtain ⟨l, hl, rfl⟩ := List.mem_map.1 hb
    exact h3 l hl
  rw [this]; simp

/-- C99 (partial): without axis and along axis 1 each line is judged on its own observations; along axis
0, each column of `r` observations is judged as if it had `r * c`.  So the claim holds there for a
single column.  Missing: axis 0 with several columns. -/
theorem C99_axis_partial (m : List (List ℝ)) (r c : ℕ) (b : ℝ) (j : ℕ) (l : List ℝ) (h : Rect m r c) :
    (IsLine m .all j l → (psr m b .all)[j]? = some (psr1 l b)) ∧
    (IsLine m .cols j l → (psr m b .cols)[j]? = some (psr1 l b)) ∧
    (IsLine m .rows j l → (psr m b .rows)[j]? = some (psrLine l b (r * c)) ∧
      l.length = r ∧ (c = 1 → (psr m b .rows)[j]? = some (psr1 l b))) := by
  refine ⟨?_, ?_, ?_⟩
  · rintro ⟨rfl, rfl⟩
    simp [psr, lines, numObs, psr1]
  · intro hl
    unfold IsLine at hl
    simp only at hl
    unfold psr lines
    rw [List.getElem?_map, hl]
    have hlen : (m.headD []).length = c := by
      cases m with
      | nil => simp at hl
      | cons a m => exact h.2.2 a (by simp)
    have hlc := h.2.2 l (List.mem_of_getElem? hl)
    simp only [Option.map_some, numObs, psr1, hlen, hlc]
  · intro hl
    unfold IsLine at hl
    simp only at hl
    obtain ⟨r', c', hr', hj, hlr, hent⟩ := hl
    have er : r' = r := by rw [← hr'.1, h.1]
    subst er
    have hlen : (m.headD []).length = c ∧ c' = c := by
      cases hm : m with
      | nil => rw [hm] at h; have := h.1; have h2 := h.2.1; simp at this; omega
      | cons a m' =>
        have ha : a ∈ m := by rw [hm]; simp
        exact ⟨h.2.2 a ha, by rw [← hr'.2.2 a ha, h.2.2 a ha]⟩
    obtain ⟨hlen, rfl⟩ := hlen
    have hcol : (m.map fun row => row.getD j 0) = l := by
      apply List.ext_getElem?
      intro i
      rw [List.getElem?_map]
      rcases Nat.lt_or_ge i r' with hi | hi
      · obtain ⟨row, h1, h2⟩ := hent i hi
        rw [h1, h2]
        have hjr : j < row.length := by rw [hr'.2.2 row (List.mem_of_getElem? h1)]; exact hj
        simp [List.getElem?_eq_getElem hjr]
      · rw [List.getElem?_eq_none (by rw [h.1]; exact hi), List.getElem?_eq_none (by rw [hlr]; exact hi)]
        rfl
    have hval : (psr m b .rows)[j]? = some (psrLine l b (r' * c')) := by
      unfold psr lines
      simp only [List.map_map, List.getElem?_map, hlen]
      rw [List.getElem?_range hj]
      simp only [Option.map_some, Function.comp, numObs, hcol, flatten_length h]
    refine ⟨hval, hlr, ?_⟩
    rintro rfl
    rw [hval, mul_one, ← hlr]; rfl

/-! ## C140: the deflated Sharpe ratio -/

/-- The quantile is what it should be. -/
theorem normCdf_normPpf {q : ℝ} (h0 : 0 < q) (h1 : q < 1) : normCdf (normPpf q) = q := by
  apply Function.invFun_eq
  have hb : ∃ a, normCdf a < q := ((normCdf_tendsto_atBot).eventually (gt_mem_nhds h0)).exists
  have ht : ∃ b, q < normCdf b := ((normCdf_tendsto_atTop).eventually (lt_mem_nhds h1)).exists
  obtain ⟨a, ha⟩ := hb
  obtain ⟨b, hb⟩ := ht
  have := mem_range_of_exists_le_of_exists_ge normCdf_continuous ⟨a, ha.le⟩ ⟨b, hb.le⟩
  exact this

theorem normPpf_lt {p q : ℝ} (h0 : 0 < p) (hpq : p < q) (h1 : q < 1) : normPpf p < normPpf q := by
  rw [← normCdf_strictMono.lt_iff_lt, normCdf_normPpf h0 (hpq.trans h1), normCdf_normPpf (h0.trans hpq) h1]
  exact hpq

theorem normPpf_half : normPpf (1 / 2) = 0 := by
  apply normCdf_strictMono.injective
  rw [normCdf_normPpf (by norm_num) (by norm_num), normCdf_zero]

theorem gamma_bounds : 0 < Real.eulerMascheroniConstant ∧ Real.eulerMascheroniConstant < 1 := by
  have h1 := Real.one_half_lt_eulerMascheroniConstant
  have h2 := Real.eulerMascheroniConstant_lt_two_thirds
  constructor <;> linarith

theorem exp_neg_one_bounds : 0 < Real.exp (-1) ∧ Real.exp (-1) < 1 :=
  ⟨Real.exp_pos _, by rw [Real.exp_lt_one_iff]; norm_num⟩

/-- The expected maximum of `n ≥ 2` trials is positive and increases with `n`. -/
theorem expectedMax_pos_strictMono : (∀ n : ℕ, 2 ≤ n → 0 < expectedMax n) ∧
    ∀ n m : ℕ, 2 ≤ n → n < m → expectedMax n < expectedMax m := by
  obtain ⟨g0, g1⟩ := gamma_bounds
  obtain ⟨e0, e1⟩ := exp_neg_one_bounds
  have hmono : ∀ n m : ℕ, 2 ≤ n → n < m → expectedMax n < expectedMax m := by
    intro n m hn hnm
    have hn' : (2 : ℝ) ≤ (n : ℝ) := by exact_mod_cast hn
    have hnm' : (n : ℝ) < (m : ℝ) := by exact_mod_cast hnm
    have i1 : (1 : ℝ) / (m : ℝ) < 1 / (n : ℝ) := one_div_lt_one_div_of_lt (by linarith) hnm'
    have i2 : (1 : ℝ) / (n : ℝ) ≤ 1 / 2 := one_div_le_one_div_of_le (by norm_num) hn'
    have i3 : (0 : ℝ) < 1 / (m : ℝ) := one_div_pos.2 (by linarith)
    unfold expectedMax
    have j1 : normPpf (1 - 1 / (n : ℝ)) < normPpf (1 - 1 / (m : ℝ)) :=
      normPpf_lt (by linarith) (by linarith) (by linarith)
    have j2 : normPpf (1 - 1 / (n : ℝ) * Real.exp (-1)) < normPpf (1 - 1 / (m : ℝ) * Real.exp (-1)) := by
      have k1 : 1 / (m : ℝ) * Real.exp (-1) < 1 / (n : ℝ) * Real.exp (-1) := mul_lt_mul_of_pos_right i1 e0
      have k2 : 0 < 1 / (m : ℝ) * Real.exp (-1) := mul_pos i3 e0
      have k3 : 1 / (n : ℝ) * Real.exp (-1) ≤ 1 / 2 * 1 :=
        mul_le_mul i2 e1.le e0.le (by norm_num)
      exact normPpf_lt (by linarith) (by linarith) (by linarith)
    have l1 := mul_lt_mul_of_pos_left j1 (sub_pos.2 g1)
    have l2 := mul_lt_mul_of_pos_left j2 g0
    linarith
  refine ⟨?_, hmono⟩
  have h2 : 0 < expectedMax 2 := by
    unfold expectedMax
    have e : (1 : ℝ) - 1 / ((2 : ℕ) : ℝ) = 1 / 2 := by norm_num
    rw [e, normPpf_half]
    have : normPpf (1 / 2) < normPpf (1 - 1 / ((2 : ℕ) : ℝ) * Real.exp (-1)) := by
      apply normPpf_lt (by norm_num)
      · push_cast; linarith
      · push_cast; linarith
    rw [normPpf_half] at this
    have := mul_pos g0 this
    linarith
  intro n hn
  rcases Nat.eq_or_lt_of_le hn with rfl | hn
  · exact h2
  · exact h2.trans (hmono 2 n (le_refl _) hn)

theorem allSome_eq {α : Type} (l : List (Option α)) (r : List α) :
    allSome l = some r ↔ l = r.map some := by
  induction l generalizing r with
  | nil => cases r <;> simp [allSome]
  | cons a l ih =>
    cases a with
    | none => cases r <;> simp [allSome]
    | some a =>
      simp only [allSome, Option.map_eq_some_iff]
      constructor
      · rintro ⟨r', h, rfl⟩
        rw [(ih r').1 h]; rfl
      · intro h
        cases r with
        | nil => simp at h
        | cons b r =>
          simp only [List.map_cons, List.cons.injEq, Option.some.injEq] at h
          exact ⟨r, (ih r).2 h.2, by rw [h.1]⟩

/-- C140: for at least two trials with Sharpe ratios `srs` the deflated Sharpe ratio is the
probabilistic one against the benchmark `std(srs)` times the expected maximum of as many standard
normals.  The benchmark is not negative, it is 0 exactly if all trials have the same ratio, and for the
same dispersion it grows with the number of trials. -/
theorem C140_deflated (m : List (List ℝ)) (ax : Axis) (srs : List ℝ)
    (hs : sharpeRatio m ax = srs.map some) (hn : 2 ≤ srs.length) :
    ∃ b : ℝ, (deflatedSharpe m ax).2 = some b ∧ (deflatedSharpe m ax).1 = psr m b ax ∧
      0 ≤ b ∧ (b = 0 ↔ ¬ NonConst srs) ∧
      (∀ (m' : List (List ℝ)) (ax' : Axis) (srs' : List ℝ) (b' : ℝ), sharpeRatio m' ax' = srs'.map some →
        npStd srs' = npStd srs → NonConst srs → srs.length < srs'.length →
        (deflatedSharpe m' ax').2 = some b' → b < b') := by
  have hval : ∀ (m : List (List ℝ)) (ax : Axis) (srs : List ℝ), sharpeRatio m ax = srs.map some →
      2 ≤ srs.length → deflatedBenchmark m ax = some (npStd srs * expectedMax srs.length) := by
    intro m ax srs hs hn
    unfold deflatedBenchmark
    rw [(allSome_eq _ _).2 hs]
    simp only [Option.bind_eq_bind, Option.bind_some]
    rw [if_neg (by omega)]
  obtain ⟨hpos, hmono⟩ := expectedMax_pos_strictMono
  have h0 : 0 ≤ npStd srs := Real.sqrt_nonneg _
  refine ⟨_, hval m ax srs hs hn, ?_, mul_nonneg h0 (hpos _ hn).le, ?_, ?_⟩
  · unfold deflatedSharpe
    rw [hval m ax srs hs hn]; rfl
  · rw [mul_eq_zero, or_iff_left (hpos _ hn).ne', ← npStd_pos_iff]
    constructor
    · intro h; rw [h]; exact lt_irrefl _
    · intro h; exact le_antisymm (not_lt.1 h) h0
  · intro m' ax' srs' b' hs' he hnc hlt hb'
    have : (deflatedSharpe m' ax').2 = deflatedBenchmark m' ax' := rfl
    rw [this, hval m' ax' srs' hs' (by omega)] at hb'
    simp only [Option.some.injEq] at hb'
    rw [← hb', he]
    exact mul_lt_mul_of_pos_left (hmono _ _ hn hlt) ((npStd_pos_iff srs).2 hnc)

/-- C140: with one trial, or a trial of constant returns, there is no deflated ratio. -/
theorem C140_missing (m : List (List ℝ)) (ax : Axis)
    (h : (lines m ax).length ≤ 1 ∨ ∃ l ∈ lines m ax, ¬ NonConst l) :
    (deflatedSharpe m ax).2 = none ∧ ∀ v ∈ (deflatedSharpe m ax).1, v = none := by
  have hb : deflatedBenchmark m ax = none := by
    unfold deflatedBenchmark
    cases hs : allSome (sharpeRatio m ax) with
    | none => rfl
    | some srs =>
      have hs' := (allSome_eq _ _).1 hs
      simp only [Option.bind_eq_bind, Option.bind_some]
      rcases h with h | ⟨l, hl, hc⟩
      · have := congrArg List.length hs'
        simp [sharpeRatio] at this
        rw [if_pos (by omega)]
      · exfalso
        have : sharpe l ∈ sharpeRatio m ax := List.mem_map.2 ⟨l, hl, rfl⟩
        rw [hs'] at this
        obtain ⟨v, -, hv⟩ := List.mem_map.1 this
        exact hc ((C97_defined l).1.1 (by rw [← hv]; rfl))
  unfold deflatedSharpe
  rw [hb]
  refine ⟨rfl, ?_⟩
  intro v hv
  simp at hv
  exact hv.2

/-- Two trials with ratios 0 and 2. -/
example : sharpeRatio [[-1, 1], [1, 3]] .cols = [0, 2].map some := by
  obtain ⟨-, h1, -⟩ := line_pm_one
  obtain ⟨a1, -, -, -, a5⟩ := moments_one_three
  have e1 : sharpe [1, 3] = some 2 := by unfold sharpe fdiv; rw [a1, a5]; norm_num
  simp [sharpeRatio, lines, h1, e1]

end FinML.Metrics
