import Verif.Default.FirmProps
import Mathlib.Analysis.Calculus.Deriv.MeanValue

/-! # Property C332: the asset value behind an equity value -/

namespace FinML.Default

open Set Filter Topology FinML.Options

/-! ## Lemmas: the ratio of the normal distribution function to its density -/

theorem normPdf_deriv (x : ℝ) : HasDerivAt normPdf (-x * normPdf x) x := by
  have h : normPdf = fun x => (√(2 * Real.pi))⁻¹ * Real.exp (-(x ^ 2) / 2) := funext normPdf_eq
  have h1 : HasDerivAt (fun x : ℝ => -(x ^ 2) / 2) (-x) x := by
    have := ((hasDerivAt_pow 2 x).neg).div_const 2
    refine (this.congr_deriv ?_)
    push_cast
    ring
  rw [h]
  refine (h1.exp.const_mul (√(2 * Real.pi))⁻¹).congr_deriv ?_
  ring

theorem normPdf_le_zero (x : ℝ) : normPdf x ≤ normPdf 0 := by
  rw [normPdf_eq, normPdf_eq]
  apply mul_le_mul_of_nonneg_left _ (by positivity)
  apply Real.exp_le_exp.2
  have := sq_nonneg x
  simp
  linarith

/-- `Φ(x) < φ(x)/|x|` for negative `x`, written without division. -/
theorem tail_pos (x : ℝ) : 0 < normPdf x + x * normCdf x := by
  rcases le_or_gt 0 x with hx | hx
  · have := normPdf_pos x
    have := mul_nonneg hx (normCdf_pos x).le
    linarith
  · have hd : ∀ y < 0, HasDerivAt (fun y => normCdf y + normPdf y * y⁻¹) (-(normPdf y * (y⁻¹) ^ 2)) y := by
      intro y hy
      have h1 := (normPdf_deriv y).mul (hasDerivAt_inv hy.ne)
      have h2 := (normCdf_hasDerivAt y).add h1
      refine h2.congr_deriv ?_
      have hy0 : y ≠ 0 := hy.ne
      field_simp
      ring
    have hanti : StrictAntiOn (fun y => normCdf y + normPdf y * y⁻¹) (Iio 0) := by
      apply strictAntiOn_of_deriv_neg (convex_Iio 0)
        fun y hy => (hd y hy).continuousAt.continuousWithinAt
      intro y hy
      rw [interior_Iio] at hy
      rw [(hd y hy).deriv]
      have : 0 < (y⁻¹) ^ 2 := by
        have : y⁻¹ ≠ 0 := inv_ne_zero (ne_of_lt hy)
        positivity
      have := mul_pos (normPdf_pos y) this
      linarith
    have hlim : Tendsto (fun y => normCdf y + normPdf y * y⁻¹) atBot (𝓝 0) := by
      have h1 : Tendsto (fun y : ℝ => normPdf y * y⁻¹) atBot (𝓝 0) := by
        apply bdd_le_mul_tendsto_zero (b := 0) (B := normPdf 0)
          (Eventually.of_forall fun y => (normPdf_pos y).le)
          (Eventually.of_forall normPdf_le_zero) tendsto_inv_atBot_zero
      simpa using normCdf_tendsto_atBot.add h1
    have h0 : normCdf (x - 1) + normPdf (x - 1) * (x - 1)⁻¹ ≤ 0 := by
      apply ge_of_tendsto hlim
      filter_upwards [Iio_mem_atBot (x - 1)] with y hy
      have hy : y < x - 1 := hy
      exact (hanti (show y < 0 by linarith) (show x - 1 < 0 by linarith) hy).le
    have h1 := hanti (show x - 1 < 0 by linarith) (show x < 0 from hx) (by linarith)
    have h2 : normCdf x + normPdf x * x⁻¹ < 0 := lt_of_lt_of_le h1 h0
    have h3 := mul_pos_of_neg_of_neg hx h2
    have e : x * (normCdf x + normPdf x * x⁻¹) = normPdf x + x * normCdf x := by
      have hx0 : x ≠ 0 := hx.ne
      field_simp
      ring
    rwa [e] at h3

theorem mills_strictMono : StrictMono fun x => normCdf x / normPdf x := by
  have hd : ∀ x, HasDerivAt (fun x => normCdf x / normPdf x)
      ((normPdf x * normPdf x - normCdf x * (-x * normPdf x)) / normPdf x ^ 2) x := fun x =>
    (normCdf_hasDerivAt x).div (normPdf_deriv x) (normPdf_pos x).ne'
  apply strictMono_of_deriv_pos
  intro x
  rw [(hd x).deriv]
  apply div_pos _ (pow_pos (normPdf_pos x) 2)
  have := mul_pos (normPdf_pos x) (tail_pos x)
  linarith

/-! ## The value of equity as a function of the assets -/

/-- The threshold `d₁`; `b` is the discounted debt, `s` the volatility to maturity, `u` the growth of the
assets above the rate. -/
noncomputable def thr (b s u x : ℝ) : ℝ := Real.log (x / b) / s + s / 2 + u / s

/-- The value of equity. -/
noncomputable def eqv (b s u x : ℝ) : ℝ :=
  x * normCdf (thr b s u x) - b * normCdf (thr b s u x - s)

theorem condEquity_eqv {s0 k r sigma t alpha beta m : ℝ} (hs0 : 0 < s0) (hk : 0 < k) (hs : 0 < sigma)
    (ht : 0 < t) : condEquityValue s0 k r sigma t alpha beta m =
      some (eqv (k * Real.exp (-r * t)) (sigma * √t) (alpha * t + beta * m) s0) := by
  rw [condEquity_eq hs0 hk hs ht]
  unfold gval eqv thr
  generalize Real.log (s0 / (k * Real.exp (-r * t))) / (sigma * √t) = x
  generalize (alpha * t + beta * m) / (sigma * √t) = c
  generalize sigma * √t = y
  rw [show x - y / 2 + c + y = x + y / 2 + c by ring, show x + y / 2 + c - y = x - y / 2 + c by ring]

theorem eqv_hasDerivAt {b s u x : ℝ} (hb : 0 < b) (hs : 0 < s) (hx : 0 < x) :
    HasDerivAt (eqv b s u) (normCdf (thr b s u x) + normPdf (thr b s u x) * (1 - Real.exp u) / s) x := by
  have hthr : HasDerivAt (thr b s u) (1 / (x * s)) x := by
    have h1 : HasDerivAt (fun x : ℝ => Real.log (x / b)) (1 / b / (x / b)) x :=
      ((hasDerivAt_id x).div_const b).log (div_pos hx hb).ne'
    have h2 := ((h1.div_const s).add_const (s / 2)).add_const (u / s)
    refine h2.congr_deriv ?_
    field_simp
  have h1 := (normCdf_hasDerivAt (thr b s u x)).comp x hthr
  have h2 := (normCdf_hasDerivAt (thr b s u x - s)).comp x (hthr.sub_const s)
  have h3 := ((hasDerivAt_id x).mul h1).sub (h2.const_mul b)
  have hshift : b * normPdf (thr b s u x - s) = x * normPdf (thr b s u x) * Real.exp u := by
    have := normPdf_shift (thr b s u x) (-s)
    rw [← sub_eq_add_neg] at this
    rw [this]
    have e : -(thr b s u x * -s) - (-s) ^ 2 / 2 = Real.log (x / b) + u := by
      unfold thr
      field_simp
      ring
    rw [e, Real.exp_add, Real.exp_log (div_pos hx hb)]
    field_simp
  refine h3.congr_deriv ?_
  simp only [id, Function.comp]
  have e2 : b * (normPdf (thr b s u x - s) * (1 / (x * s))) =
      b * normPdf (thr b s u x - s) * (1 / (x * s)) := by ring
  rw [e2, hshift]
  field_simp
  ring

theorem thr_strictMono {b s u x y : ℝ} (hb : 0 < b) (hs : 0 < s) (hx : 0 < x) (hxy : x < y) :
    thr b s u x < thr b s u y := by
  unfold thr
  have := Real.log_lt_log (div_pos hx hb) (div_lt_div_of_pos_right hxy hb)
  have := div_lt_div_of_pos_right this hs
  linarith

theorem eqv_continuousOn {b s u : ℝ} (hb : 0 < b) (hs : 0 < s) : ContinuousOn (eqv b s u) (Ioi 0) :=
  fun _ hx => (eqv_hasDerivAt hb hs hx).continuousAt.continuousWithinAt

/-- The slope is positive where the ratio exceeds `(e^u - 1)/s`. -/
theorem eqv_deriv_sign {b s u x : ℝ} (hs : 0 < s) :
    normCdf (thr b s u x) + normPdf (thr b s u x) * (1 - Real.exp u) / s =
      normPdf (thr b s u x) * (normCdf (thr b s u x) / normPdf (thr b s u x) - (Real.exp u - 1) / s) := by
  have := (normPdf_pos (thr b s u x)).ne'
  field_simp
  ring

theorem eqv_tendsto_zero {b s u : ℝ} (hb : 0 < b) (hs : 0 < s) :
    Tendsto (eqv b s u) (𝓝[>] 0) (𝓝 0) := by
  have hlog : Tendsto (fun x : ℝ => Real.log (x / b)) (𝓝[>] 0) atBot := by
    apply Real.tendsto_log_nhdsGT_zero.comp
    rw [tendsto_nhdsWithin_iff]
    refine ⟨?_, ?_⟩
    · have : Tendsto (fun x : ℝ => x / b) (𝓝 0) (𝓝 (0 / b)) := (continuous_id.div_const b).tendsto 0
      rw [zero_div] at this
      exact this.mono_left nhdsWithin_le_nhds
    · filter_upwards [self_mem_nhdsWithin] with x hx
      exact div_pos hx hb
  have hthr : Tendsto (thr b s u) (𝓝[>] 0) atBot := by
    unfold thr
    exact tendsto_atBot_add_const_right _ _ (tendsto_atBot_add_const_right _ _
      (hlog.atBot_div_const hs))
  have h1 : Tendsto (fun x => normCdf (thr b s u x - s)) (𝓝[>] 0) (𝓝 0) :=
    normCdf_tendsto_atBot.comp (tendsto_atBot_add_const_right _ (-s) hthr)
  have h2 : Tendsto (fun x => normCdf (thr b s u x)) (𝓝[>] 0) (𝓝 0) :=
    normCdf_tendsto_atBot.comp hthr
  have h3 : Tendsto (fun x : ℝ => x) (𝓝[>] 0) (𝓝 0) := nhdsWithin_le_nhds
  have := (h3.mul h2).sub (h1.const_mul b)
  rw [mul_zero, mul_zero, sub_zero] at this
  exact this

/-- Where equity is worth something, it grows with the assets from there on. -/
theorem eqv_mono_above {b s u y : ℝ} (hb : 0 < b) (hs : 0 < s) (hy : 0 < y) (hpos : 0 < eqv b s u y) :
    StrictMonoOn (eqv b s u) (Ici y) := by
  have key : (Real.exp u - 1) / s < normCdf (thr b s u y) / normPdf (thr b s u y) := by
    by_contra hle
    rw [not_lt] at hle
    have hanti : StrictAntiOn (eqv b s u) (Ioc 0 y) := by
      apply strictAntiOn_of_deriv_neg (convex_Ioc 0 y)
        fun x hx => (eqv_hasDerivAt hb hs hx.1).continuousAt.continuousWithinAt
      intro x hx
      rw [interior_Ioc] at hx
      rw [(eqv_hasDerivAt hb hs hx.1).deriv, eqv_deriv_sign hs]
      apply mul_neg_of_pos_of_neg (normPdf_pos _)
      have := mills_strictMono (thr_strictMono (u := u) hb hs hx.1 hx.2)
      simp only at this
      linarith
    have h0 : eqv b s u y ≤ 0 := by
      apply ge_of_tendsto (eqv_tendsto_zero (u := u) hb hs)
      filter_upwards [Ioo_mem_nhdsGT hy] with x hx
      exact (hanti ⟨hx.1, hx.2.le⟩ ⟨hy, le_refl y⟩ hx.2).le
    linarith
  apply strictMonoOn_of_deriv_pos (convex_Ici y)
    fun x hx => (eqv_hasDerivAt hb hs (lt_of_lt_of_le hy hx)).continuousAt.continuousWithinAt
  intro x hx
  rw [interior_Ici] at hx
  have hx0 : 0 < x := hy.trans hx
  rw [(eqv_hasDerivAt hb hs hx0).deriv, eqv_deriv_sign hs]
  apply mul_pos (normPdf_pos _)
  have := mills_strictMono (thr_strictMono (u := u) hb hs hy hx)
  simp only at this
  linarith

theorem eqv_mono_of_nonpos {b s u : ℝ} (hb : 0 < b) (hs : 0 < s) (hu : u ≤ 0) :
    StrictMonoOn (eqv b s u) (Ioi 0) := by
  apply strictMonoOn_of_deriv_pos (convex_Ioi 0) (eqv_continuousOn hb hs)
  intro x hx
  rw [interior_Ioi] at hx
  rw [(eqv_hasDerivAt hb hs hx).deriv]
  have h1 := normCdf_pos (thr b s u x)
  have h2 : 0 ≤ normPdf (thr b s u x) * (1 - Real.exp u) / s :=
    div_nonneg (mul_nonneg (normPdf_pos _).le (by have := Real.exp_le_one_iff.2 hu; linarith)) hs.le
  linarith

theorem eqv_exists {b s u v : ℝ} (hb : 0 < b) (hs : 0 < s) (hv : 0 < v) :
    ∃ x, 0 < x ∧ eqv b s u x = v := by
  have hlo : eqv b s u v < v := by
    unfold eqv
    have h1 := mul_lt_mul_of_pos_left (normCdf_lt_one (thr b s u v)) hv
    have h2 := mul_pos hb (normCdf_pos (thr b s u v - s))
    linarith
  have hthr : Tendsto (thr b s u) atTop atTop := by
    unfold thr
    exact tendsto_atTop_add_const_right _ _ (tendsto_atTop_add_const_right _ _
      ((Real.tendsto_log_atTop.comp (tendsto_id.atTop_div_const hb)).atTop_div_const hs))
  obtain ⟨x, hx1, hx2⟩ := ((hthr.eventually (eventually_ge_atTop 0)).and
    (eventually_ge_atTop (max v (2 * (v + b))))).exists
  have hxv : v ≤ x := (le_max_left _ _).trans hx2
  have hx2' : 2 * (v + b) ≤ x := (le_max_right _ _).trans hx2
  have hhi : v ≤ eqv b s u x := by
    unfold eqv
    have h1 := normCdf_strictMono.monotone hx1
    rw [normCdf_zero] at h1
    have h2 := mul_le_mul_of_nonneg_left h1 (hv.le.trans hxv)
    have h3 := mul_lt_mul_of_pos_left (normCdf_lt_one (thr b s u x - s)) hb
    linarith
  obtain ⟨z, hz, he⟩ := intermediate_value_Icc hxv
    ((eqv_continuousOn (u := u) hb hs).mono fun y hy => lt_of_lt_of_le hv hy.1) ⟨hlo.le, hhi⟩
  exact ⟨z, lt_of_lt_of_le hv hz.1, he⟩

/-! ## C332 -/

/-- C332.  Whatever the growth of the assets, every positive value of equity belongs to exactly one value
of the assets, which is the one that `implied_asset_price` looks for. -/
theorem C332_unique {k r sigma t alpha beta m v : ℝ} (hk : 0 < k) (hs : 0 < sigma) (ht : 0 < t)
    (hv : 0 < v) : ∃! x, 0 < x ∧ condEquityValue x k r sigma t alpha beta m = some v := by
  have hb : 0 < k * Real.exp (-r * t) := mul_pos hk (Real.exp_pos _)
  have hσ : 0 < sigma * √t := mul_pos hs (Real.sqrt_pos.2 ht)
  obtain ⟨x, hx, he⟩ := eqv_exists (u := alpha * t + beta * m) hb hσ hv
  refine ⟨x, ⟨hx, by rw [condEquity_eqv hx hk hs ht, he]⟩, ?_⟩
  rintro y ⟨hy, hye⟩
  rw [condEquity_eqv hy hk hs ht, Option.some.injEq] at hye
  rcases lt_trichotomy x y with h | h | h
  · have := eqv_mono_above hb hσ hx (by rw [he]; exact hv) self_mem_Ici (show y ∈ Ici x from h.le) h
    rw [he, hye] at this
    exact absurd this (lt_irrefl _)
  · exact h.symm
  · have := eqv_mono_above hb hσ hy (by rw [hye]; exact hv) self_mem_Ici (show x ∈ Ici y from h.le) h
    rw [he, hye] at this
    exact absurd this (lt_irrefl _)

/-- C332.  Of two positive values of equity the larger one belongs to the larger value of the assets and
to the smaller probability of default. -/
theorem C332_ordered {k r sigma t alpha beta m v v' x x' p p' : ℝ} (hk : 0 < k) (hs : 0 < sigma)
    (ht : 0 < t) (hv : 0 < v) (hvv : v < v') (hx : 0 < x) (hx' : 0 < x')
    (h : condEquityValue x k r sigma t alpha beta m = some v)
    (h' : condEquityValue x' k r sigma t alpha beta m = some v')
    (hp : (condD2 x k r sigma t alpha beta m).cdf = some p)
    (hp' : (condD2 x' k r sigma t alpha beta m).cdf = some p') : x < x' ∧ 1 - p' < 1 - p := by
  have hb : 0 < k * Real.exp (-r * t) := mul_pos hk (Real.exp_pos _)
  have hσ : 0 < sigma * √t := mul_pos hs (Real.sqrt_pos.2 ht)
  rw [condEquity_eqv hx hk hs ht, Option.some.injEq] at h
  rw [condEquity_eqv hx' hk hs ht, Option.some.injEq] at h'
  have hlt : x < x' := by
    by_contra hle
    rw [not_lt] at hle
    have := (eqv_mono_above hb hσ hx' (by rw [h']; linarith)).monotoneOn self_mem_Ici
      (show x ∈ Ici x' from hle) hle
    rw [h, h'] at this
    linarith
  refine ⟨hlt, ?_⟩
  unfold condD2 at hp hp'
  rw [condD1_fin hx hk hs ht] at hp
  rw [condD1_fin hx' hk hs ht] at hp'
  simp only [FExt.add, FExt.cdf, Option.some.injEq] at hp hp'
  rw [← hp, ← hp']
  have h1 := thr_strictMono (u := alpha * t + beta * m) hb hσ hx hlt
  unfold thr at h1
  have := normCdf_strictMono (show _ + -(sigma * √t) < _ + -(sigma * √t) from
    add_lt_add_left h1 (-(sigma * √t)))
  linarith

/-- C332, the full claim about the direction: equity grows with the assets. -/
def MoreAssetsMoreEquity : Prop :=
  ∀ k r sigma t alpha beta m x x' v v' : ℝ, 0 < k → 0 < sigma → 0 < t → 0 < x → x < x' →
    condEquityValue x k r sigma t alpha beta m = some v →
    condEquityValue x' k r sigma t alpha beta m = some v' → v < v'

/-- C332 as far as it holds: if the assets are not expected to grow faster than the rate
(`alpha·t + beta·m ≤ 0`), or if equity is worth something at the lower value.  Missing: assets growing
faster, where the value of equity is negative. -/
theorem C332_direction_partial {k r sigma t alpha beta m x x' v v' : ℝ} (hk : 0 < k) (hs : 0 < sigma)
    (ht : 0 < t) (hx : 0 < x) (hxx : x < x')
    (h : condEquityValue x k r sigma t alpha beta m = some v)
    (h' : condEquityValue x' k r sigma t alpha beta m = some v')
    (hc : alpha * t + beta * m ≤ 0 ∨ 0 < v) : v < v' := by
  have hb : 0 < k * Real.exp (-r * t) := mul_pos hk (Real.exp_pos _)
  have hσ : 0 < sigma * √t := mul_pos hs (Real.sqrt_pos.2 ht)
  rw [condEquity_eqv hx hk hs ht, Option.some.injEq] at h
  rw [condEquity_eqv (hx.trans hxx) hk hs ht, Option.some.injEq] at h'
  rw [← h, ← h']
  rcases hc with hc | hc
  · exact eqv_mono_of_nonpos hb hσ hc hx (hx.trans hxx) hxx
  · exact eqv_mono_above hb hσ hx (by rw [h]; exact hc) self_mem_Ici (show x' ∈ Ici x from hxx.le) hxx

/-- The hypotheses hold: with `alpha = 1/10` and `beta = 1` there are two such firms. -/
example : ∃ x x' : ℝ, 0 < x ∧ 0 < x' ∧
    condEquityValue x 100 0 (1 / 5) 1 (1 / 10) 1 (1 / 20) = some 10 ∧
    condEquityValue x' 100 0 (1 / 5) 1 (1 / 10) 1 (1 / 20) = some 20 := by
  obtain ⟨x, hx, _⟩ := C332_unique (k := 100) (r := 0) (sigma := 1 / 5) (t := 1) (alpha := 1 / 10)
    (beta := 1) (m := 1 / 20) (v := 10) (by norm_num) (by norm_num) (by norm_num) (by norm_num)
  obtain ⟨x', hx', _⟩ := C332_unique (k := 100) (r := 0) (sigma := 1 / 5) (t := 1) (alpha := 1 / 10)
    (beta := 1) (m := 1 / 20) (v := 20) (by norm_num) (by norm_num) (by norm_num) (by norm_num)
  exact ⟨x, x', hx.1, hx'.1, hx.2, hx'.2⟩

/-- C332 fails for assets growing fast: with debt 2, `r = 0`, `sigma = 1`, one year and `alpha = 10`
equity is worth less than nothing at assets of 1, and nearly nothing at assets near 0. -/
theorem C332_direction_counterexample : ¬ MoreAssetsMoreEquity := by
  intro h
  have hb : (0 : ℝ) < 2 * Real.exp (-0 * 1) := by positivity
  have hσ : (0 : ℝ) < 1 * √1 := by simp
  have e : ∀ x : ℝ, 0 < x → condEquityValue x 2 0 1 1 10 0 0 =
      some (eqv (2 * Real.exp (-0 * 1)) (1 * √1) (10 * 1 + 0 * 0) x) := fun x hx =>
    condEquity_eqv hx two_pos one_pos one_pos
  have h1 : eqv (2 * Real.exp (-0 * 1)) (1 * √1) (10 * 1 + 0 * 0) 1 < 0 := by
    unfold eqv thr
    simp only [neg_zero, zero_mul, Real.exp_zero, mul_one, Real.sqrt_one, div_one, add_zero, one_mul]
    have h3 : (0 : ℝ) ≤ Real.log (1 / 2) + 1 / 2 + 10 - 1 := by
      have := Real.one_sub_inv_le_log_of_pos (show (0 : ℝ) < 1 / 2 by norm_num)
      norm_num at this ⊢
      linarith
    have h4 : (1 : ℝ) / 2 ≤ normCdf (Real.log (1 / 2) + 1 / 2 + 10 - 1) :=
      normCdf_zero.symm.le.trans (normCdf_strictMono.monotone h3)
    have h5 := normCdf_lt_one (Real.log (1 / 2) + 1 / 2 + 10)
    linarith
  obtain ⟨x, hx1, hx2⟩ := (((eqv_tendsto_zero (u := 10 * 1 + 0 * 0) hb hσ).eventually
    (lt_mem_nhds h1)).and (Ioo_mem_nhdsGT (show (0 : ℝ) < 1 by norm_num))).exists
  have := h 2 0 1 1 10 0 0 x 1 _ _ two_pos one_pos one_pos hx2.1 hx2.2 (e x hx2.1) (e 1 one_pos)
  linarith

end FinML.Default
