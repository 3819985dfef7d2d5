import Verif.Stats.Props
import Verif.CV.ScoreProps

/-!
# Properties C161 and C162: distributions from kernel densities
-/

namespace FinML.Stats

open Filter Topology MeasureTheory Set

/-! ## Integrals of the estimate -/

theorem kernel_hasDeriv (c h : ℝ) (x : ℝ) :
    HasDerivAt (fun t => normCdf ((t - c) / h)) (normPdf ((x - c) / h) / h) x := by
  have h1 : HasDerivAt (fun t => (t - c) / h) (1 / h) x := ((hasDerivAt_id x).sub_const c).div_const h
  have h2 := (normCdf_hasDerivAt ((x - c) / h)).comp x h1
  rwa [mul_one_div] at h2

theorem kernel_integrable (c h : ℝ) (hh : 0 < h) : Integrable fun t => normPdf ((t - c) / h) / h :=
  ((integrable_normPdf.comp_div hh.ne').comp_sub_right c).div_const h

theorem kernel_tendsto_atBot (c h : ℝ) (hh : 0 < h) :
    Tendsto (fun t => normCdf ((t - c) / h)) atBot (𝓝 0) :=
  normCdf_tendsto_atBot.comp ((tendsto_atBot_add_const_right _ (-c) tendsto_id).atBot_div_const hh)

theorem kernel_tendsto_atTop (c h : ℝ) (hh : 0 < h) :
    Tendsto (fun t => normCdf ((t - c) / h)) atTop (𝓝 1) :=
  normCdf_tendsto_atTop.comp ((tendsto_atTop_add_const_right _ (-c) tendsto_id).atTop_div_const hh)

theorem kernel_Iic (c h : ℝ) (hh : 0 < h) (x : ℝ) :
    ∫ t in Iic x, normPdf ((t - c) / h) / h = normCdf ((x - c) / h) := by
  rw [integral_Iic_of_hasDerivAt_of_tendsto' (fun t _ => kernel_hasDeriv c h t)
    (kernel_integrable c h hh).integrableOn (kernel_tendsto_atBot c h hh), sub_zero]

theorem kernel_interval (c h : ℝ) (hh : 0 < h) (a b : ℝ) :
    ∫ t in a..b, normPdf ((t - c) / h) / h = normCdf ((b - c) / h) - normCdf ((a - c) / h) :=
  intervalIntegral.integral_eq_sub_of_hasDerivAt (fun t _ => kernel_hasDeriv c h t)
    (kernel_integrable c h hh).intervalIntegrable

theorem integral_list_sum (μ : Measure ℝ) (l : List ℝ) (f : ℝ → ℝ → ℝ) (hf : ∀ c, Integrable (f c) μ) :
    Integrable (fun t => (l.map fun c => f c t).sum) μ ∧
    ∫ t, (l.map fun c => f c t).sum ∂μ = (l.map fun c => ∫ t, f c t ∂μ).sum := by
  induction l with
  | nil => simp
  | cons c l ih =>
    simp only [List.map_cons, List.sum_cons]
    exact ⟨(hf c).add ih.1, by rw [integral_add (hf c) ih.1, ih.2]⟩

theorem cdf_none (k : Kde) (hk : 0 < k.width) (x : ℝ) :
    k.cdf none x = mean (k.points.map fun c => normCdf ((x - c) / k.width)) := by
  unfold Kde.cdf Kde.pdf mean
  simp only [List.length_map]
  rw [integral_div, (integral_list_sum _ k.points (fun c t => normPdf ((t - c) / k.width) / k.width)
    fun c => (kernel_integrable c _ hk).integrableOn).2]
  simp only [kernel_Iic _ _ hk]

theorem cdf_some (k : Kde) (hk : 0 < k.width) (a x : ℝ) (hx : a < x) :
    k.cdf (some a) x =
      mean (k.points.map fun c => normCdf ((x - c) / k.width) - normCdf ((a - c) / k.width)) := by
  unfold Kde.cdf Kde.pdf mean
  simp only [List.length_map]
  rw [if_neg (not_le.2 hx), intervalIntegral.integral_div, intervalIntegral.integral_of_le hx.le,
    (integral_list_sum _ k.points (fun c t => normPdf ((t - c) / k.width) / k.width)
      fun c => (kernel_integrable c _ hk).integrableOn).2]
  simp only [← intervalIntegral.integral_of_le hx.le, kernel_interval _ _ hk]

theorem mean_lt (l : List ℝ) (hl : l ≠ []) (f g : ℝ → ℝ) (h : ∀ x ∈ l, f x < g x) :
    mean (l.map f) < mean (l.map g) := by
  unfold mean
  rw [List.length_map, List.length_map]
  have hn : (0 : ℝ) < l.length := by simpa using List.length_pos_of_ne_nil hl
  exact div_lt_div_of_pos_right (List.sum_lt_sum_of_ne_nil hl f g h) hn

theorem mean_le (l : List ℝ) (f g : ℝ → ℝ) (h : ∀ x ∈ l, f x ≤ g x) :
    mean (l.map f) ≤ mean (l.map g) := by
  unfold mean
  rw [List.length_map, List.length_map]
  exact div_le_div_of_nonneg_right (List.sum_le_sum h) (Nat.cast_nonneg _)

theorem mean_const (l : List ℝ) (hl : l ≠ []) (c : ℝ) : mean (l.map fun _ => c) = c := by
  have := mean_affine l hl (fun _ => (0 : ℝ)) 0 c
  simpa using this

theorem mean_eq_of_const (l : List ℝ) (hl : l ≠ []) (c : ℝ) (h : ∀ x ∈ l, x = c) : mean l = c := by
  have : l = l.map fun _ => c := by
    conv_lhs => rw [← List.map_id l]
    exact List.map_congr_left h
  rw [this, mean_const l hl]

/-- When the estimate exists, and its width. -/
theorem gaussianKde_iff (l : List ℝ) (k : Kde) :
    gaussianKde l = .ok k ↔
      2 ≤ l.length ∧ (¬ ∃ c, ∀ x ∈ l, x = c) ∧ k.points = l ∧ 0 < k.width ∧
      k.width ^ 2 * (l.length : ℝ) ^ (2 / 5 : ℝ) * ((l.length : ℝ) - 1) = (l.map fun x => (x - mean l) ^ 2).sum := by
  have hS := sum_nonneg_sq l fun x => x - mean l
  have hz : (l.map fun x => (x - mean l) ^ 2).sum = 0 ↔ ∃ c, ∀ x ∈ l, x = c := by
    constructor
    · intro h
      refine ⟨mean l, fun x hx => ?_⟩
      have := sum_sq_zero l _ h x hx
      rwa [sub_eq_zero] at this
    · rintro ⟨c, hc⟩
      by_cases hl : l = []
      · subst hl; simp
      rw [mean_eq_of_const l hl c hc, List.map_congr_left (g := fun _ => (0 : ℝ))]
      · simp
      · intro x hx
        rw [hc x hx]
        ring
  unfold gaussianKde
  by_cases h1 : l.length ≤ 1
  · rw [if_pos h1]
    constructor
    · intro h; cases h
    · intro h; omega
  rw [if_neg h1]
  simp only
  have hn : (0 : ℝ) < (l.length : ℝ) - 1 := by
    have : (1 : ℝ) < l.length := by exact_mod_cast not_le.1 h1
    linarith
  by_cases h2 : (l.map fun x => (x - mean l) ^ 2).sum / ((l.length : ℝ) - 1) = 0
  · rw [if_pos h2]
    constructor
    · intro h; cases h
    · intro h
      rw [div_eq_zero_iff] at h2
      exact (h.2.1 (hz.1 (h2.resolve_right hn.ne'))).elim
  rw [if_neg h2]
  have h3 : (l.map fun x => (x - mean l) ^ 2).sum ≠ 0 := by
    intro h; rw [h, zero_div] at h2; exact h2 rfl
  have hl0 : (0 : ℝ) < l.length := by linarith
  have hpos : 0 < (l.map fun x => (x - mean l) ^ 2).sum := lt_of_le_of_ne hS (Ne.symm h3)
  have hfac : ((l.length : ℝ) ^ (-(1 / 5) : ℝ)) ^ 2 * (l.length : ℝ) ^ (2 / 5 : ℝ) = 1 := by
    rw [← Real.rpow_natCast, ← Real.rpow_mul hl0.le, ← Real.rpow_add hl0]
    norm_num
  have hfp : 0 < (l.length : ℝ) ^ (2 / 5 : ℝ) := Real.rpow_pos_of_pos hl0 _
  have hgp : 0 < ((l.length : ℝ) ^ (-(1 / 5) : ℝ)) ^ 2 := pow_pos (Real.rpow_pos_of_pos hl0 _) _
  have hwp : 0 < (l.map fun x => (x - mean l) ^ 2).sum / ((l.length : ℝ) - 1) *
      ((l.length : ℝ) ^ (-(1 / 5) : ℝ)) ^ 2 := by positivity
  rw [Except.ok.injEq]
  constructor
  · rintro rfl
    refine ⟨by omega, fun h => h3 (hz.2 h), rfl, Real.sqrt_pos.2 hwp, ?_⟩
    simp only
    rw [Real.sq_sqrt hwp.le, mul_assoc _ _ ((l.length : ℝ) ^ (2 / 5 : ℝ)), hfac, mul_one, div_mul_cancel₀ _ hn.ne']
  · rintro ⟨-, -, hp, hw, he⟩
    obtain ⟨pts, w⟩ := k
    simp only at hp hw he
    subst hp
    congr 1
    rw [← he, mul_div_assoc, div_self hn.ne', mul_one, mul_assoc, mul_comm (_ ^ (2 / 5 : ℝ)), hfac, mul_one,
      Real.sqrt_sq hw.le]

theorem gaussianKde_constant (l : List ℝ) (h2 : 2 ≤ l.length) (c : ℝ) (hc : ∀ x ∈ l, x = c) :
    gaussianKde l = .error .exception := by
  unfold gaussianKde
  rw [if_neg (by omega)]
  simp only
  rw [if_pos]
  have hl : l ≠ [] := by rintro rfl; simp at h2
  rw [mean_eq_of_const l hl c hc, List.map_congr_left (g := fun _ => (0 : ℝ))]
  · simp
  · intro x hx
    rw [hc x hx]
    ring

/-! ## C161: the probability of backtest overfitting -/

/-- C161, the full claim: when every choice of partitions has been evaluated, a probability is returned. -/
def PboDefined : Prop :=
  ∀ (eval : List (List ℝ) → Py (List ℝ)) (argsort : List ℝ → List ℕ), CV.IsArgsort argsort →
    ∀ (M : List (List ℝ)) (N : ℕ) (rows : List CV.PboRow), CV.computePbo eval argsort M N = .ok rows →
      ∃ p, pboProbability eval argsort M N = .ok (p, rows) ∧ 0 ≤ p ∧ p ≤ 1

/-- Sums of two columns. -/
noncomputable def colSums (rows : List (List ℝ)) : Py (List ℝ) :=
  .ok (rows.foldr (List.zipWith (· + ·)) [0, 0])

theorem exists_argsort : ∃ argsort, CV.IsArgsort argsort := by
  classical
  refine ⟨fun l => (List.range l.length).mergeSort fun i j => decide (l.getD i 0 ≤ l.getD j 0), fun l =>
    ⟨List.mergeSort_perm _ _, ?_⟩⟩
  have := List.pairwise_mergeSort (le := fun i j => decide (l.getD i 0 ≤ l.getD j 0))
    (fun a b c => by simpa using le_trans) (fun a b => by simpa using le_total _ _) (List.range l.length)
  exact this.imp fun h => by simpa using h

theorem dominant_rows (argsort : List ℝ → List ℕ) :
    ∃ row : CV.PboRow, CV.computePbo colSums argsort [[0, 1], [0, 1]] ((2 : ℕ) : ℤ) = .ok [row, row] := by
  have key : ∀ ps ∈ [[0], [1]], CV.pboOne colSums argsort [[0, 1], [0, 1]] 1 ps =
      .ok ⟨CV.rankLogit ((CV.rankIn (argsort [0, 1]) 1 : ℝ) / 2), 1, 1⟩ := by
    intro ps hps
    have hA : CV.npArgmax [0, 1] = .ok 1 := by
      unfold CV.npArgmax
      simp [CV.argmaxFrom]
    have hc : colSums [[0, 1]] = .ok [0, 1] := by simp [colSums]
    simp only [List.mem_cons, List.not_mem_nil, or_false] at hps
    rcases hps with rfl | rfl
    · have t1 : CV.pboTrain 1 [0] = [0] := rfl
      have t2 : CV.pboTest ([[0, 1], [0, 1]] : List (List ℝ)).length [0] = [1] := rfl
      unfold CV.pboOne
      simp only [t1, t2]
      have g1 : [0].mapM (pyGet ([[0, 1], [0, 1]] : List (List ℝ))) = .ok [[0, 1]] := rfl
      have g2 : [1].mapM (pyGet ([[0, 1], [0, 1]] : List (List ℝ))) = .ok [[0, 1]] := rfl
      have g3 : pyGet ([0, 1] : List ℝ) 1 = .ok 1 := rfl
      simp only [g1, g2, py_bind_ok, hc, hA, g3, py_pure]
      norm_num
    · have t1 : CV.pboTrain 1 [1] = [1] := rfl
      have t2 : CV.pboTest ([[0, 1], [0, 1]] : List (List ℝ)).length [1] = [0] := rfl
      unfold CV.pboOne
      simp only [t1, t2]
      have g1 : [0].mapM (pyGet ([[0, 1], [0, 1]] : List (List ℝ))) = .ok [[0, 1]] := rfl
      have g2 : [1].mapM (pyGet ([[0, 1], [0, 1]] : List (List ℝ))) = .ok [[0, 1]] := rfl
      have g3 : pyGet ([0, 1] : List ℝ) 1 = .ok 1 := rfl
      simp only [g1, g2, py_bind_ok, hc, hA, g3, py_pure]
      norm_num
  refine ⟨⟨CV.rankLogit ((CV.rankIn (argsort [0, 1]) 1 : ℝ) / 2), 1, 1⟩, ?_⟩
  have e : CV.computePbo colSums argsort [[0, 1], [0, 1]] ((2 : ℕ) : ℤ) =
      [[0], [1]].mapM (CV.pboOne colSums argsort [[0, 1], [0, 1]] 1) := rfl
  rw [e, mapM_cons_py, key _ (by simp), mapM_cons_py, key _ (by simp)]
  rfl

theorem pbo_logits (eval : List (List ℝ) → Py (List ℝ)) (argsort : List ℝ → List ℕ) (hs : CV.IsArgsort argsort)
    (M : List (List ℝ)) (N : ℕ) (rows : List CV.PboRow) (h : CV.computePbo eval argsort M N = .ok rows) :
    2 ≤ rows.length ∧ ∃ logits : List ℝ, rows.map CV.PboRow.logit = logits.map some := by
  obtain ⟨h0, h1, hlen, choices, -, -, hrows⟩ := CV.C48_choices eval argsort M N rows h
  constructor
  · rw [hlen]
    obtain ⟨m, rfl⟩ : ∃ m, N = 2 * (m + 1) := ⟨N / 2 - 1, by omega⟩
    rw [Nat.mul_div_cancel_left _ (by norm_num)]
    exact Nat.two_dvd_centralBinom_of_one_le (n := m + 1) (by omega) |> fun hd =>
      Nat.le_of_dvd (Nat.centralBinom_pos (m + 1)) hd
  · clear hlen h
    induction hrows with
    | nil => exact ⟨[], rfl⟩
    | cons hab _ ih =>
      obtain ⟨ls, hls⟩ := ih
      obtain ⟨_, _, _, _, _, _, r, _, _, _, _, _, _, _, _, _, _, _, _, hl⟩ := CV.C48_row eval argsort hs M _ _ _ hab
      exact ⟨_ :: ls, by rw [List.map_cons, List.map_cons, hls, hl]⟩

theorem finite_logits (rows : List CV.PboRow) (logits : List ℝ)
    (h : rows.map CV.PboRow.logit = logits.map some) :
    (rows.mapM fun r => finiteLogit r.logit) = .ok logits := by
  induction rows generalizing logits with
  | nil =>
    cases logits with
    | nil => rfl
    | cons a l => simp at h
  | cons r rows ih =>
    cases logits with
    | nil => simp at h
    | cons a l =>
      simp only [List.map_cons, List.cons.injEq] at h
      rw [mapM_cons_py, h.1, ih l h.2]
      rfl

/-- C161. Two columns, the second better in every row: the logits agree, and the kernel estimate raises. -/
theorem C161_pbo_counterexample : ¬ PboDefined := by
  intro hall
  obtain ⟨argsort, hs⟩ := exists_argsort
  obtain ⟨row, hrow⟩ := dominant_rows argsort
  obtain ⟨p, hp, -⟩ := hall colSums argsort hs _ _ _ hrow
  obtain ⟨-, logits, hl⟩ := pbo_logits _ _ hs _ _ _ hrow
  obtain ⟨a, b, rfl⟩ : ∃ a b, logits = [a, b] := by
    have : logits.length = 2 := by simpa using (congrArg List.length hl).symm
    exact List.length_eq_two.1 this
  have hab : a = b := by
    simp only [List.map_cons, List.map_nil, List.cons.injEq, and_true] at hl
    exact Option.some.inj (hl.1.symm.trans hl.2)
  subst hab
  unfold pboProbability at hp
  rw [hrow, py_bind_ok, finite_logits _ _ hl, py_bind_ok,
    gaussianKde_constant [a, a] (by simp) a (by simp)] at hp
  cases hp

/-- C161. What is missing: logits that all agree.  Otherwise a probability is returned, strictly between 0
and 1.  It is the mean of `Φ(-logit/h)`, with h the standard deviation of the logits times `n^(-1/5)`: at most
one half if no logit is negative, at least one half if none is positive.  Logits that all agree raise. -/
theorem C161_pbo_partial (eval : List (List ℝ) → Py (List ℝ)) (argsort : List ℝ → List ℕ)
    (hs : CV.IsArgsort argsort) (M : List (List ℝ)) (N : ℕ) (rows : List CV.PboRow)
    (h : CV.computePbo eval argsort M N = .ok rows) :
    ∃ logits : List ℝ, rows.map CV.PboRow.logit = logits.map some ∧
      ((∃ c, ∀ x ∈ logits, x = c) → pboProbability eval argsort M N = .error .exception) ∧
      ((¬ ∃ c, ∀ x ∈ logits, x = c) → ∃ p w : ℝ, pboProbability eval argsort M N = .ok (p, rows) ∧
        0 < w ∧ w ^ 2 * (logits.length : ℝ) ^ (2 / 5 : ℝ) * ((logits.length : ℝ) - 1) =
          (logits.map fun x => (x - logits.sum / logits.length) ^ 2).sum ∧
        p * logits.length = (logits.map fun x => normCdf (-x / w)).sum ∧
        0 < p ∧ p < 1 ∧ ((∀ x ∈ logits, 0 ≤ x) → p ≤ 1 / 2) ∧ ((∀ x ∈ logits, x ≤ 0) → 1 / 2 ≤ p)) := by
  obtain ⟨h2, logits, hl⟩ := pbo_logits eval argsort hs M N rows h
  have hlen : logits.length = rows.length := by simpa using (congrArg List.length hl).symm
  have hne : logits ≠ [] := by rintro rfl; simp at hlen; omega
  have hpos : (0 : ℝ) < logits.length := by simpa using List.length_pos_of_ne_nil hne
  refine ⟨logits, hl, ?_, ?_⟩
  · rintro ⟨c, hc⟩
    unfold pboProbability
    rw [h, py_bind_ok, finite_logits _ _ hl, py_bind_ok, gaussianKde_constant logits (by omega) c hc]
    rfl
  · intro hvar
    obtain ⟨k, hk⟩ : ∃ k, gaussianKde logits = .ok k := by
      cases hg : gaussianKde logits with
      | ok k => exact ⟨k, rfl⟩
      | error e =>
        exfalso
        unfold gaussianKde at hg
        rw [if_neg (by omega)] at hg
        simp only at hg
        split_ifs at hg with hv
        apply hvar
        have hn : (0 : ℝ) < (logits.length : ℝ) - 1 := by
          have : (1 : ℝ) < logits.length := by exact_mod_cast (by omega : 1 < logits.length)
          linarith
        refine ⟨mean logits, fun x hx => ?_⟩
        have := sum_sq_zero logits _ ((div_eq_zero_iff.1 hv).resolve_right hn.ne') x hx
        rwa [sub_eq_zero] at this
    obtain ⟨-, -, hp, hw, he⟩ := (gaussianKde_iff logits k).1 hk
    have hval : k.cdf none 0 = mean (logits.map fun x => normCdf (-x / k.width)) := by
      rw [cdf_none k hw, hp]
      simp only [zero_sub]
    refine ⟨k.cdf none 0, k.width, ?_, hw, he, ?_, ?_, ?_, ?_, ?_⟩
    · unfold pboProbability
      rw [h, py_bind_ok, finite_logits _ _ hl, py_bind_ok, hk]
      rfl
    · rw [hval, mean, List.length_map, div_mul_cancel₀ _ hpos.ne']
    · have := mean_lt logits hne (fun _ => 0) (fun x => normCdf (-x / k.width)) fun x _ => normCdf_pos _
      rwa [mean_const logits hne, ← hval] at this
    · have := mean_lt logits hne (fun x => normCdf (-x / k.width)) (fun _ => 1) fun x _ => normCdf_lt_one _
      rwa [mean_const logits hne, ← hval] at this
    · intro h0
      have := mean_le logits (fun x => normCdf (-x / k.width)) (fun _ => 1 / 2) fun x hx => by
        rw [← normCdf_zero]
        refine normCdf_strictMono.monotone (div_nonpos_of_nonpos_of_nonneg ?_ hw.le)
        have := h0 x hx
        linarith
      rwa [mean_const logits hne, ← hval] at this
    · intro h0
      have := mean_le logits (fun _ => 1 / 2) (fun x => normCdf (-x / k.width)) fun x hx => by
        rw [← normCdf_zero]
        refine normCdf_strictMono.monotone (div_nonneg ?_ hw.le)
        have := h0 x hx
        linarith
      rwa [mean_const logits hne, ← hval] at this

/-! ## C162: the implied distribution of the underlying -/

/-- C162, the full claim: the result is a distribution function on the positive numbers, 0 below 0 and with
limit 1. -/
def ImpliedIsCdf : Prop :=
  ∀ (samples : List ℝ) (F : ℝ → ℝ), impliedCdf samples = .ok F →
    (∀ x ≤ 0, F x = 0) ∧ Monotone F ∧ Tendsto F atTop (𝓝 1)

/-- C162. What is missing: the limit.  It is the mean of `Φ(s/h)` over the samples, less than 1 for every
sample, since the mass of the kernels below 0 is cut off and not put back.  The function is 0 up to 0, increases,
and is `mean (Φ((x-s)/h) - Φ(-s/h))` above. -/
theorem C162_implied_partial (samples : List ℝ) (F : ℝ → ℝ) (h : impliedCdf samples = .ok F) :
    ∃ w : ℝ, 0 < w ∧
      w ^ 2 * (samples.length : ℝ) ^ (2 / 5 : ℝ) * ((samples.length : ℝ) - 1) =
        (samples.map fun x => (x - samples.sum / samples.length) ^ 2).sum ∧
      (∀ x ≤ 0, F x = 0) ∧ Monotone F ∧ (∀ x, 0 ≤ F x ∧ F x < 1) ∧
      (∀ x, 0 < x → F x * samples.length = (samples.map fun s => normCdf ((x - s) / w) - normCdf (-s / w)).sum) ∧
      ∃ L, Tendsto F atTop (𝓝 L) ∧ L * samples.length = (samples.map fun s => normCdf (s / w)).sum ∧ L < 1 := by
  unfold impliedCdf at h
  obtain ⟨k, hk, h⟩ := py_bind_eq_ok.1 h
  cases h
  obtain ⟨h2, -, hp, hw, he⟩ := (gaussianKde_iff samples k).1 hk
  have hne : samples ≠ [] := by rintro rfl; simp at h2
  have hpos : (0 : ℝ) < samples.length := by simpa using List.length_pos_of_ne_nil hne
  have h0 : ∀ x ≤ 0, k.cdf (some 0) x = 0 := fun x hx => by unfold Kde.cdf; simp only; rw [if_pos hx]
  have h1 : ∀ x, 0 < x → k.cdf (some 0) x =
      mean (samples.map fun s => normCdf ((x - s) / k.width) - normCdf (-s / k.width)) := by
    intro x hx
    rw [cdf_some k hw 0 x hx, hp]
    simp only [zero_sub]
  have hle : ∀ x y s : ℝ, x ≤ y → normCdf ((x - s) / k.width) ≤ normCdf ((y - s) / k.width) := fun x y s hxy =>
    normCdf_strictMono.monotone (div_le_div_of_nonneg_right (by linarith) hw.le)
  have hnn : ∀ x, 0 ≤ k.cdf (some 0) x := by
    intro x
    by_cases hx : x ≤ 0
    · rw [h0 x hx]
    · rw [h1 x (not_le.1 hx), ← mean_const samples hne 0]
      refine mean_le samples _ _ fun s _ => ?_
      have := hle 0 x s (not_le.1 hx).le
      rw [zero_sub] at this
      linarith
  have hlim : Tendsto (k.cdf (some 0)) atTop (𝓝 (mean (samples.map fun s => 1 - normCdf (-s / k.width)))) := by
    have : Tendsto (fun x => mean (samples.map fun s => normCdf ((x - s) / k.width) - normCdf (-s / k.width)))
        atTop (𝓝 (mean (samples.map fun s => 1 - normCdf (-s / k.width)))) := by
      unfold mean
      simp only [List.length_map]
      refine Tendsto.div_const ?_ _
      clear h1 he hpos hne h2 hk hp h
      induction samples with
      | nil => simp
      | cons s l ih =>
        simp only [List.map_cons, List.sum_cons]
        exact ((kernel_tendsto_atTop s _ hw).sub_const _).add ih
    exact this.congr' ((eventually_gt_atTop 0).mono fun x hx => (h1 x hx).symm)
  refine ⟨k.width, hw, he, h0, ?_, ?_, ?_, _, hlim, ?_, ?_⟩
  · intro x y hxy
    by_cases hx : x ≤ 0
    · rw [h0 x hx]; exact hnn y
    · rw [h1 x (not_le.1 hx), h1 y (lt_of_lt_of_le (not_le.1 hx) hxy)]
      exact mean_le samples _ _ fun s _ => sub_le_sub_right (hle x y s hxy) _
  · intro x
    refine ⟨hnn x, ?_⟩
    by_cases hx : x ≤ 0
    · rw [h0 x hx]; norm_num
    · rw [h1 x (not_le.1 hx), ← mean_const samples hne 1]
      refine mean_lt samples hne _ _ fun s _ => ?_
      have := normCdf_lt_one ((x - s) / k.width)
      have := normCdf_pos (-s / k.width)
      linarith
  · intro x hx
    rw [h1 x hx, mean, List.length_map, div_mul_cancel₀ _ hpos.ne']
  · rw [mean, List.length_map, div_mul_cancel₀ _ hpos.ne']
    simp only [neg_div, normCdf_neg, sub_sub_cancel]
  · have := mean_lt samples hne (fun s => 1 - normCdf (-s / k.width)) (fun _ => 1) fun s _ => by
      have := normCdf_pos (-s / k.width)
      linarith
    rwa [mean_const samples hne] at this

theorem implied_some : ∃ F, impliedCdf [1, 2] = .ok F := by
  cases hg : gaussianKde [1, 2] with
  | ok k => exact ⟨k.cdf (some 0), by unfold impliedCdf; rw [hg]; rfl⟩
  | error e =>
    exfalso
    unfold gaussianKde mean at hg
    norm_num at hg
    cases hg

/-- C162. For the samples 1 and 2, as for any others, the limit is less than 1. -/
theorem C162_implied_counterexample : ¬ ImpliedIsCdf := by
  intro hall
  obtain ⟨F, hF⟩ := implied_some
  obtain ⟨_, _, _, _, _, _, _, L, hL, _, hlt⟩ := C162_implied_partial _ F hF
  exact hlt.ne (tendsto_nhds_unique hL (hall _ F hF).2.2)

/-- C162, refusals: fewer than two samples are a ValueError, and samples that are all equal a LinAlgError. -/
theorem C162_refusals (samples : List ℝ) :
    (samples.length ≤ 1 → impliedCdf samples = .error .valueError) ∧
    (2 ≤ samples.length → (∃ c, ∀ x ∈ samples, x = c) → impliedCdf samples = .error .exception) := by
  refine ⟨?_, ?_⟩
  · intro h
    unfold impliedCdf gaussianKde
    rw [if_pos h]
    rfl
  · rintro h ⟨c, hc⟩
    unfold impliedCdf
    rw [gaussianKde_constant samples h c hc]
    rfl

end FinML.Stats
