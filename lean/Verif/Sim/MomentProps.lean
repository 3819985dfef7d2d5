import Verif.Sim.Props
import Mathlib.Probability.Distributions.Gaussian.Real
import Mathlib.Probability.Independence.InfinitePi
import Mathlib.Probability.Independence.Integration
import Mathlib.Probability.Moments.Variance
import Mathlib.Analysis.SpecialFunctions.Complex.LogBounds
import Mathlib.Algebra.Field.GeomSum
import Mathlib.Analysis.SpecificLimits.Normed

/-! # Means and variances of the simulated processes (C264) -/

namespace FinML.Sim

open MeasureTheory ProbabilityTheory Filter Topology

variable {Ω : Type} [MeasurableSpace Ω] {μ : Measure Ω}

/-- Independent shocks with mean 0 and variance 1, such as the standard normal ones drawn by the code. -/
structure Shocks (μ : Measure Ω) (z : ℕ → Ω → ℝ) : Prop where
  indep : iIndepFun z μ
  sq : ∀ i, MemLp (z i) 2 μ
  mean : ∀ i, ∫ ω, z i ω ∂μ = 0
  var : ∀ i, ∫ ω, z i ω ^ 2 ∂μ = 1

/-- Independent standard normal numbers exist. -/
theorem shocks_normal : Shocks (Measure.infinitePi fun _ : ℕ => gaussianReal 0 1) fun i ω => ω i := by
  have hlaw : ∀ i : ℕ, (Measure.infinitePi fun _ : ℕ => gaussianReal 0 1).map (fun ω => ω i) = gaussianReal 0 1 :=
    fun i => (measurePreserving_eval_infinitePi (fun _ : ℕ => gaussianReal 0 1) i).map_eq
  have hm : ∀ i : ℕ, Measurable fun ω : ℕ → ℝ => ω i := fun i => measurable_pi_apply i
  have h2 : ∀ i : ℕ, MemLp (fun ω : ℕ → ℝ => ω i) 2 (Measure.infinitePi fun _ : ℕ => gaussianReal 0 1) := by
    intro i
    have h := memLp_id_gaussianReal (μ := 0) (v := 1) 2
    rw [← hlaw i] at h
    exact (memLp_map_measure_iff (by fun_prop) (hm i).aemeasurable).1 h
  refine ⟨iIndepFun_infinitePi (X := fun _ x => x) (by fun_prop), h2, fun i => ?_, fun i => ?_⟩
  · have := integral_map (μ := Measure.infinitePi fun _ : ℕ => gaussianReal 0 1) (hm i).aemeasurable
      (f := fun x : ℝ => x) (by fun_prop)
    rw [← this, hlaw, integral_id_gaussianReal]
  · have := integral_map (μ := Measure.infinitePi fun _ : ℕ => gaussianReal 0 1) (hm i).aemeasurable
      (f := fun x : ℝ => x ^ 2) (by fun_prop)
    rw [← this, hlaw]
    have hv := variance_id_gaussianReal (μ := 0) (v := 1)
    rw [variance_of_integral_eq_zero (by fun_prop) (by simp)] at hv
    simpa using hv

section gbm

variable {z : ℕ → Ω → ℝ}

theorem Shocks.prob (h : Shocks μ z) : IsProbabilityMeasure μ := h.indep.isProbabilityMeasure

theorem Shocks.integrable (h : Shocks μ z) (i : ℕ) : Integrable (z i) μ :=
  have := h.prob
  (h.sq i).integrable (by norm_num)

/-- Products over the steps have the product of the expectations. -/
theorem Shocks.prod (h : Shocks μ z) (n : ℕ) (f : ℝ → ℝ) (hf : Measurable f) :
    ∫ ω, ∏ k ∈ Finset.range n, f (z k ω) ∂μ = ∏ k ∈ Finset.range n, ∫ ω, f (z k ω) ∂μ := by
  have hi : iIndepFun (fun k : Fin n => z k) μ := h.indep.precomp Fin.val_injective
  have := hi.integral_fun_prod_comp (f := fun _ => f) (fun i => (h.sq i).aestronglyMeasurable.aemeasurable)
    fun _ => hf.aestronglyMeasurable
  simp only [Finset.prod_range]
  exact this

theorem Shocks.affine (h : Shocks μ z) (a b : ℝ) (i : ℕ) : ∫ ω, (a + b * z i ω) ∂μ = a := by
  have := h.prob
  rw [integral_add (integrable_const _) ((h.integrable i).const_mul b), integral_const_mul, h.mean]
  simp

theorem Shocks.affine_sq (h : Shocks μ z) (a b : ℝ) (i : ℕ) : ∫ ω, (a + b * z i ω) ^ 2 ∂μ = a ^ 2 + b ^ 2 := by
  have := h.prob
  have e : (fun ω => (a + b * z i ω) ^ 2) = fun ω => (a ^ 2 + (2 * a * b) * z i ω) + b ^ 2 * z i ω ^ 2 := by
    funext ω; ring
  have hs : Integrable (fun ω => z i ω ^ 2) μ := (h.sq i).integrable_sq
  have hl : Integrable (fun ω => a ^ 2 + (2 * a * b) * z i ω) μ :=
    (integrable_const _).add ((h.integrable i).const_mul _)
  rw [e, integral_add hl (hs.const_mul _), h.affine,
    integral_const_mul, h.var, mul_one]

/-- C264.  The `i`-th value of a simulated geometric Brownian motion has expectation `s0 (1 + drift dt)^i` and
second moment `s0² ((1 + drift dt)² + volatility² dt)^i`. -/
theorem C264_gbm (h : Shocks μ z) (s0 drift vol dt : ℝ) (hdt : 0 ≤ dt) (n i : ℕ) (hi : i < n) :
    ∃ v : Ω → ℝ, (∀ ω, ∃ l, genGeometricBrownian (fun k => z k ω) s0 drift vol n dt = .ok l ∧ l[i]? = some (v ω)) ∧
      ∫ ω, v ω ∂μ = s0 * (1 + drift * dt) ^ (i + 1) ∧
      ∫ ω, v ω ^ 2 ∂μ = s0 ^ 2 * ((1 + drift * dt) ^ 2 + vol ^ 2 * dt) ^ (i + 1) := by
  refine ⟨fun ω => s0 * ∏ k ∈ Finset.range (i + 1), (1 + (drift * dt + vol * √dt * z k ω)), fun ω => ?_, ?_, ?_⟩
  · obtain ⟨l, h1, -, h3⟩ := C122_product (fun k => z k ω) s0 drift vol n dt hdt
    exact ⟨l, h1, h3 i hi⟩
  · rw [integral_const_mul, h.prod (i + 1) (fun x => 1 + (drift * dt + vol * √dt * x)) (by fun_prop)]
    congr 1
    rw [Finset.prod_congr rfl (g := fun _ => 1 + drift * dt), Finset.prod_const, Finset.card_range]
    intro k _
    rw [← h.affine (1 + drift * dt) (vol * √dt) k]
    congr 1; funext ω; ring
  · have e : (fun ω => (s0 * ∏ k ∈ Finset.range (i + 1), (1 + (drift * dt + vol * √dt * z k ω))) ^ 2) =
        fun ω => s0 ^ 2 * ∏ k ∈ Finset.range (i + 1), (1 + (drift * dt + vol * √dt * z k ω)) ^ 2 := by
      funext ω; rw [mul_pow, Finset.prod_pow]
    rw [e, integral_const_mul, h.prod (i + 1) (fun x => (1 + (drift * dt + vol * √dt * x)) ^ 2) (by fun_prop)]
    congr 1
    rw [Finset.prod_congr rfl (g := fun _ => (1 + drift * dt) ^ 2 + vol ^ 2 * dt), Finset.prod_const,
      Finset.card_range]
    intro k _
    have := h.affine_sq (1 + drift * dt) (vol * √dt) k
    rw [mul_pow, Real.sq_sqrt hdt] at this
    rw [← this]
    congr 1; funext ω; ring

/-- C264.  The time `T` simulated in ever more steps: expectation and second moment of the last value tend to
those of a geometric Brownian motion, `s0 exp(drift T)` and `s0² exp((2 drift + volatility²) T)`. -/
theorem C264_gbm_limit (h : Shocks μ z) (s0 drift vol T : ℝ) (hT : 0 ≤ T) (v : ℕ → Ω → ℝ)
    (hv : ∀ n ω, ∃ l, genGeometricBrownian (fun k => z k ω) s0 drift vol (n + 1) (T / ((n + 1 : ℕ) : ℝ)) = .ok l ∧
      l[n]? = some (v n ω)) :
    Tendsto (fun n => ∫ ω, v n ω ∂μ) atTop (𝓝 (s0 * Real.exp (drift * T))) ∧
    Tendsto (fun n => ∫ ω, v n ω ^ 2 ∂μ) atTop (𝓝 (s0 ^ 2 * Real.exp ((2 * drift + vol ^ 2) * T))) := by
  have key : ∀ n, ∫ ω, v n ω ∂μ = s0 * (1 + drift * (T / ((n + 1 : ℕ) : ℝ))) ^ (n + 1) ∧
      ∫ ω, v n ω ^ 2 ∂μ = s0 ^ 2 * ((1 + drift * (T / ((n + 1 : ℕ) : ℝ))) ^ 2 + vol ^ 2 * (T / ((n + 1 : ℕ) : ℝ))) ^ (n + 1) := by
    intro n
    obtain ⟨w, h1, h2, h3⟩ := C264_gbm h s0 drift vol (T / ((n + 1 : ℕ) : ℝ)) (by positivity) (n + 1) n (by omega)
    have : v n = w := by
      funext ω
      obtain ⟨l, e1, e2⟩ := hv n ω
      obtain ⟨l', e1', e2'⟩ := h1 ω
      rw [e1] at e1'
      cases e1'
      rw [e2] at e2'
      exact Option.some.inj e2'
    rw [this]
    exact ⟨h2, h3⟩
  have hinv : Tendsto (fun n : ℕ => T * (1 / (n : ℝ))) atTop (𝓝 (T * 0)) :=
    tendsto_const_nhds.mul tendsto_one_div_atTop_nhds_zero_nat
  constructor
  · simp only [fun n => (key n).1]
    refine Tendsto.const_mul s0 ?_
    have := Real.tendsto_one_add_pow_exp_of_tendsto (g := fun n : ℕ => drift * (T / (n : ℝ))) (t := drift * T) (by
      refine tendsto_const_nhds.congr' ?_
      filter_upwards [eventually_ne_atTop 0] with n hn
      have : (n : ℝ) ≠ 0 := by exact_mod_cast hn
      field_simp)
    exact this.comp (tendsto_add_atTop_nat 1)
  · simp only [fun n => (key n).2]
    refine Tendsto.const_mul (s0 ^ 2) ?_
    have := Real.tendsto_one_add_pow_exp_of_tendsto
      (g := fun n : ℕ => (1 + drift * (T / (n : ℝ))) ^ 2 + vol ^ 2 * (T / (n : ℝ)) - 1)
      (t := (2 * drift + vol ^ 2) * T) (by
      have hl : Tendsto (fun n : ℕ => (2 * drift + vol ^ 2) * T + drift ^ 2 * T * (T * (1 / (n : ℝ)))) atTop
          (𝓝 ((2 * drift + vol ^ 2) * T + drift ^ 2 * T * (T * 0))) := tendsto_const_nhds.add (hinv.const_mul _)
      rw [mul_zero, mul_zero, add_zero] at hl
      refine hl.congr' ?_
      filter_upwards [eventually_ne_atTop 0] with n hn
      have : (n : ℝ) ≠ 0 := by exact_mod_cast hn
      field_simp
      ring)
    have h' := this.comp (tendsto_add_atTop_nat 1)
    refine h'.congr fun n => ?_
    simp only [Function.comp]
    congr 1
    ring

end gbm

section ou

variable {z : ℕ → Ω → ℝ}

/-- C264.  The `t`-th value of a simulated Ornstein-Uhlenbeck process that takes its shocks from a stream has
expectation `forecast + phi^t (seed - forecast)` and variance `sigma² (1 - phi^(2t)) / (1 - phi²)`. -/
theorem C264_ou (h : Shocks μ z) (first : ℕ → ℝ) (f hl sigma p0 : ℝ) (hh : 0 < hl) (n t : ℕ) (ht : 1 ≤ t) (htn : t ≤ n) :
    ∃ (v : Ω → ℝ) (phi : ℝ), 0 < phi ∧ phi < 1 ∧ phi ^ hl = 1 / 2 ∧
      (∀ ω, ∃ l, genDiscreteOu first f hl sigma p0 n (.stream fun k => z k ω) = .ok l ∧ l[t - 1]? = some (v ω)) ∧
      ∫ ω, v ω ∂μ = f + phi ^ t * (p0 - f) ∧
      variance v μ = sigma ^ 2 * ((1 - phi ^ (2 * t)) / (1 - phi ^ 2)) := by
  have := h.prob
  have e : (-1 / hl) * hl = -1 := by field_simp
  set phi : ℝ := (2 : ℝ) ^ (-1 / hl) with hphi
  have p1 : 0 < phi := by positivity
  have p2 : phi < 1 := Real.rpow_lt_one_of_one_lt_of_neg (by norm_num) (div_neg_of_neg_of_pos (by norm_num) hh)
  have p3 : phi ^ hl = 1 / 2 := by rw [hphi, ← Real.rpow_mul (by norm_num), e, Real.rpow_neg_one]; norm_num
  have hval : ∀ ω, ∃ l, genDiscreteOu first f hl sigma p0 n (.stream fun k => z k ω) = .ok l ∧
      l[t - 1]? = some (f + phi ^ t * (p0 - f) + ∑ s ∈ Finset.range t, (sigma * phi ^ (t - 1 - s)) * z s ω) := by
    intro ω
    obtain ⟨l, phi', h1, -, q1, q2, -, h3⟩ := C123_deviation first f hl sigma p0 n (.stream fun k => z k ω) hh.ne'
    obtain ⟨p, e1, e2⟩ := h3 t ht htn
    have hpp : phi' = phi := by
      have hne : hl ≠ 0 := hh.ne'
      have : (phi' ^ hl) ^ (1 / hl) = (phi ^ hl) ^ (1 / hl) := by rw [q2, p3]
      rwa [← Real.rpow_mul q1.le, ← Real.rpow_mul p1.le, mul_one_div_cancel hne, Real.rpow_one, Real.rpow_one] at this
    rw [hpp] at e2
    refine ⟨l, h1, ?_⟩
    rw [e1]
    congr 1
    have : ∑ s ∈ Finset.Icc 1 t, phi ^ (t - s) * RandomState.draw first (.stream fun k => z k ω) (s - 1) =
        ∑ s ∈ Finset.range t, phi ^ (t - 1 - s) * z s ω := by
      rw [show Finset.Icc 1 t = Finset.Ico 1 (t + 1) by ext; simp, Finset.sum_Ico_eq_sum_range, Nat.add_sub_cancel]
      refine Finset.sum_congr rfl fun s _ => ?_
      rw [show t - (1 + s) = t - 1 - s by omega, show 1 + s - 1 = s by omega]
      rfl
    rw [this] at e2
    have e3 : p = f + phi ^ t * (p0 - f) + sigma * ∑ s ∈ Finset.range t, phi ^ (t - 1 - s) * z s ω := by linarith
    rw [e3, Finset.mul_sum]
    congr 1
    exact Finset.sum_congr rfl fun s _ => by ring
  refine ⟨_, phi, p1, p2, p3, hval, ?_, ?_⟩
  · rw [integral_add (integrable_const _) (integrable_finsetSum _ fun s _ => (h.integrable s).const_mul _),
      integral_finsetSum _ fun s _ => (h.integrable s).const_mul _]
    simp only [integral_const_mul, h.mean, mul_zero, Finset.sum_const_zero]
    simp
  · have hm : ∀ s, MemLp (fun ω => sigma * phi ^ (t - 1 - s) * z s ω) 2 μ := fun s => (h.sq s).const_mul _
    have e1 : (fun ω => f + phi ^ t * (p0 - f) + ∑ s ∈ Finset.range t, (sigma * phi ^ (t - 1 - s)) * z s ω) =
        fun ω => (∑ s ∈ Finset.range t, fun ω => (sigma * phi ^ (t - 1 - s)) * z s ω) ω + (f + phi ^ t * (p0 - f)) := by
      funext ω; rw [Finset.sum_apply]; ring
    rw [e1, variance_add_const (by
      exact (memLp_finsetSum' _ fun s _ => hm s).aestronglyMeasurable), IndepFun.variance_sum (fun s _ => hm s) (by
      intro i _ j _ hij
      exact (h.indep.indepFun hij).comp (measurable_const_mul (sigma * phi ^ (t - 1 - i)))
        (measurable_const_mul (sigma * phi ^ (t - 1 - j))))]
    have hv1 : ∀ s, variance (z s) μ = 1 := by
      intro s
      rw [variance_of_integral_eq_zero (h.sq s).aestronglyMeasurable.aemeasurable (h.mean s)]
      simpa using h.var s
    have e2 : ∀ s ∈ Finset.range t, variance (fun ω => sigma * phi ^ (t - 1 - s) * z s ω) μ =
        sigma ^ 2 * (phi ^ 2) ^ (t - 1 - s) := by
      intro s _
      rw [variance_const_mul, hv1]
      ring
    rw [Finset.sum_congr rfl e2, ← Finset.mul_sum, Finset.sum_range_reflect (fun k => (phi ^ 2) ^ k) t, geom_sum_eq (by nlinarith),
      pow_mul]
    congr 1
    rw [← neg_sub 1, ← neg_sub 1 (phi ^ 2), neg_div_neg_eq]

/-- C264.  With an integer `random_state` all shocks are one and the same number, and the variance is
`sigma² ((1 - phi^t) / (1 - phi))²`, which is larger from the second step on. -/
theorem C264_seeded (X : Ω → ℝ) [IsProbabilityMeasure μ] (hX : MemLp X 2 μ) (h1 : variance X μ = 1)
    (f hl sigma p0 : ℝ) (hh : 0 < hl) (hs : sigma ≠ 0) (k n t : ℕ) (ht : 1 ≤ t) (htn : t ≤ n) :
    ∃ (v : Ω → ℝ) (phi : ℝ), 0 < phi ∧ phi < 1 ∧ phi ^ hl = 1 / 2 ∧
      (∀ ω, ∃ l, genDiscreteOu (fun _ => X ω) f hl sigma p0 n (.seed k) = .ok l ∧ l[t - 1]? = some (v ω)) ∧
      variance v μ = sigma ^ 2 * ((1 - phi ^ t) / (1 - phi)) ^ 2 ∧
      (2 ≤ t → sigma ^ 2 * ((1 - phi ^ (2 * t)) / (1 - phi ^ 2)) < variance v μ) := by
  have e : (-1 / hl) * hl = -1 := by field_simp
  set phi : ℝ := (2 : ℝ) ^ (-1 / hl) with hphi
  have p1 : 0 < phi := by positivity
  have p2 : phi < 1 := Real.rpow_lt_one_of_one_lt_of_neg (by norm_num) (div_neg_of_neg_of_pos (by norm_num) hh)
  have p3 : phi ^ hl = 1 / 2 := by rw [hphi, ← Real.rpow_mul (by norm_num), e, Real.rpow_neg_one]; norm_num
  have hg : ∑ s ∈ Finset.range t, phi ^ s = (1 - phi ^ t) / (1 - phi) := by
    rw [geom_sum_eq p2.ne, ← neg_sub 1, ← neg_sub 1 phi, neg_div_neg_eq]
  have hval : ∀ ω, ∃ l, genDiscreteOu (fun _ => X ω) f hl sigma p0 n (.seed k) = .ok l ∧
      l[t - 1]? = some ((sigma * ((1 - phi ^ t) / (1 - phi))) * X ω + (f + phi ^ t * (p0 - f))) := by
    intro ω
    obtain ⟨l, phi', g1, -, q1, q2, -, g3⟩ := C123_deviation (fun _ => X ω) f hl sigma p0 n (.seed k) hh.ne'
    obtain ⟨p, e1, e2⟩ := g3 t ht htn
    have hpp : phi' = phi := by
      have hne : hl ≠ 0 := hh.ne'
      have : (phi' ^ hl) ^ (1 / hl) = (phi ^ hl) ^ (1 / hl) := by rw [q2, p3]
      rwa [← Real.rpow_mul q1.le, ← Real.rpow_mul p1.le, mul_one_div_cancel hne, Real.rpow_one, Real.rpow_one] at this
    rw [hpp] at e2
    refine ⟨l, g1, ?_⟩
    rw [e1]
    congr 1
    have : ∑ s ∈ Finset.Icc 1 t, phi ^ (t - s) * RandomState.draw (fun _ => X ω) (.seed k) (s - 1) =
        (∑ s ∈ Finset.range t, phi ^ s) * X ω := by
      rw [show Finset.Icc 1 t = Finset.Ico 1 (t + 1) by ext; simp, Finset.sum_Ico_eq_sum_range, Nat.add_sub_cancel, ← Finset.sum_range_reflect, Finset.sum_mul]
      refine Finset.sum_congr rfl fun s hs => ?_
      have := Finset.mem_range.1 hs
      rw [show t - (1 + (t - 1 - s)) = s by omega]
      rfl
    rw [this, hg] at e2
    linarith
  have hvar : variance (fun ω => (sigma * ((1 - phi ^ t) / (1 - phi))) * X ω + (f + phi ^ t * (p0 - f))) μ =
      sigma ^ 2 * ((1 - phi ^ t) / (1 - phi)) ^ 2 := by
    rw [variance_add_const (hX.const_mul _).aestronglyMeasurable, variance_const_mul, h1]
    ring
  refine ⟨_, phi, p1, p2, p3, hval, hvar, fun h2 => ?_⟩
  rw [hvar]
  have hs2 : 0 < sigma ^ 2 := by positivity
  refine mul_lt_mul_of_pos_left ?_ hs2
  have ha : 0 < 1 - phi := by linarith
  have hb : 0 < 1 - phi ^ 2 := by nlinarith
  have hc : phi ^ t < phi := by
    calc phi ^ t ≤ phi ^ 2 := pow_le_pow_of_le_one p1.le p2.le h2
      _ < phi := by nlinarith
  have hd : 0 < 1 - phi ^ t := by linarith
  rw [div_pow, div_lt_div_iff₀ hb (by positivity)]
  have e1 : (1 - phi ^ (2 * t)) * (1 - phi) ^ 2 = ((1 - phi ^ t) * (1 - phi)) * ((1 + phi ^ t) * (1 - phi)) := by
    rw [mul_comm 2 t, pow_mul]; ring
  have e2 : (1 - phi ^ t) ^ 2 * (1 - phi ^ 2) = ((1 - phi ^ t) * (1 - phi)) * ((1 - phi ^ t) * (1 + phi)) := by ring
  rw [e1, e2]
  refine mul_lt_mul_of_pos_left ?_ (mul_pos hd ha)
  nlinarith

end ou

/-- One step: expectation 2 and variance 1 for a forecast of 2. -/
example : ∃ (v : (ℕ → ℝ) → ℝ) (phi : ℝ), 0 < phi ∧ phi < 1 ∧ phi ^ (1 : ℝ) = 1 / 2 ∧
    (∀ ω, ∃ l, genDiscreteOu (fun _ => 0) 2 1 1 2 1 (.stream fun k => ω k) = .ok l ∧ l[1 - 1]? = some (v ω)) ∧
    ∫ ω, v ω ∂(Measure.infinitePi fun _ : ℕ => gaussianReal 0 1) = 2 + phi ^ 1 * (2 - 2) ∧
    variance v (Measure.infinitePi fun _ : ℕ => gaussianReal 0 1) = 1 ^ 2 * ((1 - phi ^ (2 * 1)) / (1 - phi ^ 2)) :=
  C264_ou shocks_normal (fun _ => 0) 2 1 1 2 one_pos 1 1 le_rfl le_rfl

end FinML.Sim
