import Verif.Options.LimitLemmas

/-! # Trees with many steps price as Black-Scholes (C214) -/

namespace FinML.Options

open MeasureTheory ProbabilityTheory Filter Topology

/-- The payoff of a put as a bounded continuous function of the logarithm of the growth. -/
noncomputable def putPay (s0 k : ℝ) (hs0 : 0 ≤ s0) (hk : 0 ≤ k) : BoundedContinuousFunction ℝ ℝ :=
  BoundedContinuousFunction.ofNormedAddCommGroup (fun x : ℝ => max (k - s0 * Real.exp x) 0) (by fun_prop) k (by
    intro x
    have h1 : 0 ≤ s0 * Real.exp x := mul_nonneg hs0 (Real.exp_pos x).le
    rw [Real.norm_eq_abs, abs_of_nonneg (le_max_right _ _)]
    exact max_le (by linarith) hk)

theorem driftOk_eventually {t sigma : ℝ} (hs : 0 < sigma) (r q : ℝ) :
    ∀ᶠ n : ℕ in atTop, DriftOk t r sigma q n := by
  have h1 : Tendsto (fun n : ℕ => t / (n : ℝ)) atTop (𝓝 0) := tendsto_const_div_atTop_nhds_zero_nat t
  have h2 := (Real.continuous_sqrt.tendsto 0).comp h1
  rw [Real.sqrt_zero] at h2
  have h3 := h2.const_mul |r - q|
  rw [mul_zero] at h3
  filter_upwards [h3.eventually (gt_mem_nhds hs)] with n hn
  exact le_of_lt hn

/-- The parameters of a tree of `n` steps. -/
theorem crr_exists {t sigma : ℝ} (ht : 0 < t) (hs : 0 < sigma) (r q : ℝ) {n : ℕ} (hn : 0 < n) :
    ∃ p, CRR t r sigma q n (Real.exp (move t sigma n)) (Real.exp (-move t sigma n)) p ∧
      2 * p - 1 = tilt ((r - q) / sigma ^ 2) (move t sigma n) := by
  have hn' : (0 : ℝ) < n := by exact_mod_cast hn
  have hm : 0 < move t sigma n := mul_pos hs (Real.sqrt_pos.2 (div_pos ht hn'))
  have hsh : 0 < Real.sinh (move t sigma n) := Real.sinh_pos_iff.2 hm
  have hsq := move_sq (sigma := sigma) ht hn
  have hb : (r - q) / sigma ^ 2 * move t sigma n ^ 2 = (r - q) * (t / n) := by
    have : move t sigma n ^ 2 = sigma ^ 2 * (t / n) := by
      rw [← mul_div_assoc, ← hsq]; field_simp
    rw [this]
    field_simp
  refine ⟨(1 + tilt ((r - q) / sigma ^ 2) (move t sigma n)) / 2, ⟨rfl, ?_, ?_, ?_⟩, by ring⟩
  · rw [← Real.exp_add, add_neg_cancel, Real.exp_zero]
  · intro h
    have := Real.exp_injective h
    linarith
  · unfold tilt
    rw [hb]
    have e1 := Real.cosh_add_sinh (move t sigma n)
    have e2 := Real.cosh_sub_sinh (move t sigma n)
    rw [← e1, ← e2]
    field_simp
    ring

theorem put_tendsto {s0 k t r sigma q : ℝ} {fut : Bool} (hs0 : 0 < s0) (hk : 0 < k) (ht : 0 < t)
    (hs : 0 < sigma) (v : ℕ → ℝ)
    (hv : ∀ n : ℕ, 0 < n → binomOptionPrice .put .european s0 k t r sigma q fut n = .ok (some (v n))) :
    Tendsto v atTop (𝓝 (Real.exp (-r * t) * ∫ x, max (k - s0 * Real.exp x) 0
      ∂gaussianReal ((r - (if fut then r else q) - sigma ^ 2 / 2) * t) (Real.toNNReal (sigma ^ 2 * t)))) := by
  set y := (if fut = true then r else q) with hy
  choose p hp using fun n : {n : ℕ // 0 < n} => crr_exists ht hs r y n.2
  let p' : ℕ → ℝ := fun n => if h : 0 < n then p ⟨n, h⟩ else 0
  have hp' : ∀ n (h : 0 < n), p' n = p ⟨n, h⟩ := fun n h => dif_pos h
  have h1 : ∀ᶠ n in atTop, 0 ≤ p' n ∧ p' n ≤ 1 := by
    filter_upwards [eventually_gt_atTop 0, driftOk_eventually hs r y] with n hn hd
    rw [hp' n hn]
    exact (C103_probability hn ht hs (hp ⟨n, hn⟩).1).2 hd
  have h2 : ∀ᶠ n in atTop, 2 * p' n - 1 = tilt ((r - y) / sigma ^ 2) (move t sigma n) := by
    filter_upwards [eventually_gt_atTop 0] with n hn
    rw [hp' n hn]
    exact (hp ⟨n, hn⟩).2
  have h3 := (rowLaw_tendsto ht hs ((r - y) / sigma ^ 2) p' h1 h2 (putPay s0 k hs0.le hk.le)).const_mul
    (Real.exp (-r * t))
  have e1 : sigma ^ 2 * t * ((r - y) / sigma ^ 2 - 1 / 2) = (r - y - sigma ^ 2 / 2) * t := by
    field_simp
  rw [e1] at h3
  refine h3.congr' ?_
  filter_upwards [eventually_gt_atTop 0, driftOk_eventually hs r y, h1] with n hn hd hpr
  rw [integral_rowLaw hpr.1 hpr.2]
  have h4 := C105_expectation (hv n hn) (hp ⟨n, hn⟩).1 hd
  rw [h4, hp' n hn]
  congr 1
  apply Finset.sum_congr rfl
  intro j hj
  have hj' : j ≤ n := Nat.lt_succ_iff.1 (Finset.mem_range.1 hj)
  rw [if_neg (by simp), smul_eq_mul, mul_assoc]
  congr 2
  change max (k - s0 * Real.exp ((2 * (j : ℝ) - n) * move t sigma n)) 0 = _
  congr 2
  rw [← Real.exp_nat_mul, ← Real.exp_nat_mul, mul_assoc, ← Real.exp_add]
  congr 2
  push_cast [Nat.cast_sub hj']
  ring

/-- The discounted expected payoff of a put is its Black-Scholes price. -/
theorem put_integral {s0 k t r sigma q : ℝ} {fut : Bool} (hs0 : 0 < s0) (hk : 0 < k) (ht : 0 < t)
    (hs : 0 < sigma) :
    bsmOptionPrice .put s0 k r sigma t none q fut = .ok (some (Real.exp (-r * t) * ∫ x, max (k - s0 * Real.exp x) 0
      ∂gaussianReal ((r - (if fut then r else q) - sigma ^ 2 / 2) * t) (Real.toNNReal (sigma ^ 2 * t)))) := by
  obtain ⟨loc, scale, hl, hc⟩ := C143_expectation (s0 := s0) (k := k) (r := r) (sigma := sigma) (t := t) (q := q)
    (divs := none) (fut := fut) (.inl rfl) (by simpa [pv] using hs0) hk hs ht
  have hpv : pv r none = 0 := rfl
  simp only [hpv, sub_zero] at hc
  obtain ⟨w, hw⟩ : ∃ w, bsmOptionPrice .put s0 k r sigma t none q fut = .ok (some w) := by
    have h1 := call_ok (s0 := s0) (k := k) (r := r) (sigma := sigma) (t := t) (q := q) (divs := none) (fut := fut)
      (.inl rfl) hk.ne'
    rw [hc] at h1
    rw [put_ok (.inl rfl) hk.ne', bsmPut_eq, ← Except.ok.inj h1]
    exact ⟨_, rfl⟩
  have hpar := C108_parity hc hw
  rw [hw]
  set y := (if fut = true then r else q) with hy
  have hl' : loc = (r - y - sigma ^ 2 / 2) * t ∧ scale = sigma * √t := by
    unfold bsmReturnDistribution frozen at hl
    rw [if_neg (not_le.2 ht), if_pos (mul_pos hs (Real.sqrt_pos.2 ht))] at hl
    have := Option.some.inj hl
    exact ⟨(Prod.mk.inj this).1.symm, (Prod.mk.inj this).2.symm⟩
  obtain ⟨rfl, rfl⟩ := hl'
  set m := (r - y - sigma ^ 2 / 2) * t with hm
  have hsc : (sigma * √t) ^ 2 = sigma ^ 2 * t := by rw [mul_pow, Real.sq_sqrt ht.le]
  have hlaw := law_normal (m, sigma * √t)
  simp only [hsc] at hlaw
  set G := gaussianReal m (Real.toNNReal (sigma ^ 2 * t)) with hG
  have hcall : ∫ z, max (s0 * Real.exp (m + sigma * √t * z) - k) 0 ∂gaussianReal 0 1 =
      ∫ x, max (s0 * Real.exp x - k) 0 ∂G := by
    rw [← hlaw]
    unfold law
    rw [integral_map (by fun_prop) (by fun_prop)]
  have hexp : ∫ x, Real.exp x ∂G = Real.exp ((r - y) * t) := by
    have := congrFun (mgf_id_gaussianReal (μ := m) (v := Real.toNNReal (sigma ^ 2 * t))) 1
    simp only [mgf, id_eq, one_mul] at this
    rw [this, Real.coe_toNNReal _ (by positivity), hm]
    congr 1
    ring
  have hint : Integrable (fun x => Real.exp x) G := by
    have := integrable_exp_mul_gaussianReal (μ := m) (v := Real.toNNReal (sigma ^ 2 * t)) 1
    simpa using this
  have hint2 : Integrable (fun x => s0 * Real.exp x - k) G := (hint.const_mul s0).sub (integrable_const k)
  have hI1 : Integrable (fun x => max (s0 * Real.exp x - k) 0) G := hint2.pos_part
  have hI2 : Integrable (fun x => max (k - s0 * Real.exp x) 0) G := by
    refine (hint2.neg.pos_part).congr (Eventually.of_forall fun x => ?_)
    simp
  have hdiff : ∫ x, max (s0 * Real.exp x - k) 0 ∂G - ∫ x, max (k - s0 * Real.exp x) 0 ∂G =
      s0 * Real.exp ((r - y) * t) - k := by
    rw [← integral_sub hI1 hI2]
    have : ∀ x : ℝ, max (s0 * Real.exp x - k) 0 - max (k - s0 * Real.exp x) 0 = s0 * Real.exp x - k := by
      intro x
      rcases le_total (s0 * Real.exp x) k with h | h
      · rw [max_eq_right (by linarith), max_eq_left (by linarith)]; ring
      · rw [max_eq_left (by linarith), max_eq_right (by linarith)]; ring
    simp only [this]
    rw [integral_sub (hint.const_mul s0) (integrable_const k), integral_const_mul, hexp]
    simp
  rw [hcall, hpv, sub_zero] at hpar
  have he : Real.exp (-(y * t)) = Real.exp (-(r * t)) * Real.exp ((r - y) * t) := by
    rw [← Real.exp_add]; congr 1; ring
  rw [he] at hpar
  rw [neg_mul]
  congr 2
  linear_combination (-1 : ℝ) * hpar + Real.exp (-(r * t)) * hdiff

/-- C214: as the steps grow in number the European price of a tree tends to the closed formula, for any
positive price, strike, time and volatility and any rate and yield. -/
theorem C214_limit {ot : OptionType} {s0 k t r sigma q : ℝ} {fut : Bool} (ho : ot = .call ∨ ot = .put)
    (hs0 : 0 < s0) (hk : 0 < k) (ht : 0 < t) (hs : 0 < sigma) :
    ∃ (v : ℕ → ℝ) (w : ℝ),
      (∀ n : ℕ, 0 < n → binomOptionPrice ot .european s0 k t r sigma q fut n = .ok (some (v n))) ∧
      bsmOptionPrice ot s0 k r sigma t none q fut = .ok (some w) ∧ Tendsto v atTop (𝓝 w) := by
  have hex : ∀ ot : OptionType, ot = .call ∨ ot = .put → ∃ v : ℕ → ℝ, ∀ n : ℕ, 0 < n →
      binomOptionPrice ot .european s0 k t r sigma q fut n = .ok (some (v n)) := by
    intro ot ho
    have h : ∀ n : ℕ, ∃ x, 0 < n → binomOptionPrice ot .european s0 k t r sigma q fut n = .ok (some x) := by
      intro n
      by_cases hn : 0 < n
      · obtain ⟨x, hx⟩ := (C103_defined ot .european s0 k t r sigma q fut n).2
          ⟨ho, .inr rfl, by exact_mod_cast hn, ht, hs.ne'⟩
        exact ⟨x, fun _ => hx⟩
      · exact ⟨0, fun h => absurd h hn⟩
    choose v hv using h
    exact ⟨v, hv⟩
  obtain ⟨p, hp⟩ := hex .put (.inr rfl)
  have hpl := put_tendsto hs0 hk ht hs p hp
  have hpb := put_integral (r := r) (q := q) (fut := fut) hs0 hk ht hs
  rcases ho with rfl | rfl
  · obtain ⟨c, hc⟩ := hex .call (.inl rfl)
    obtain ⟨loc, scale, -, hcb⟩ := C143_expectation (s0 := s0) (k := k) (r := r) (sigma := sigma) (t := t) (q := q)
      (divs := none) (fut := fut) (.inl rfl) (by simpa [pv] using hs0) hk hs ht
    obtain ⟨W, hW⟩ : ∃ W, Real.exp (-(r * t)) *
        ∫ z, max ((s0 - pv r none) * Real.exp (loc + scale * z) - k) 0 ∂gaussianReal 0 1 = W := ⟨_, rfl⟩
    rw [hW] at hcb
    refine ⟨c, W, hc, hcb, ?_⟩
    have hpar := C108_parity hcb hpb
    have h0 : pv r none = 0 := rfl
    rw [h0, sub_zero] at hpar
    have h := hpl.add_const (s0 * Real.exp (-((if fut then r else q) * t)) - k * Real.exp (-(r * t)))
    have e : ∀ x, x + (s0 * Real.exp (-((if fut then r else q) * t)) - k * Real.exp (-(r * t))) =
        x + (s0 * Real.exp (-(if fut then r else q) * t) - k * Real.exp (-r * t)) := by
      intro x; rw [neg_mul, neg_mul]
    rw [← hpar] at h
    rw [add_sub_cancel] at h
    refine h.congr' ?_
    rw [hpar]
    filter_upwards [eventually_gt_atTop 0, driftOk_eventually hs r (if fut then r else q)] with n hn hd
    have := C105_parity (hc n hn) (hp n hn) hd
    rw [e]
    linarith
  · exact ⟨p, _, hp, hpb, hpl⟩

/-- C214: so the correction by control variates vanishes as the steps grow in number. -/
theorem C214_control_variates {ot : OptionType} {s0 k t r sigma q : ℝ} {fut : Bool} (ho : ot = .call ∨ ot = .put)
    (hs0 : 0 < s0) (hk : 0 < k) (ht : 0 < t) (hs : 0 < sigma) (v am : ℕ → ℝ)
    (hv : ∀ n : ℕ, 0 < n → binomAmOptionPrice ot s0 k t r sigma q fut n true = .ok (some (v n)))
    (ha : ∀ n : ℕ, 0 < n → binomAmOptionPrice ot s0 k t r sigma q fut n false = .ok (some (am n))) :
    Tendsto (fun n => v n - am n) atTop (𝓝 0) := by
  obtain ⟨e, w, he, hw, hlim⟩ := C214_limit (r := r) (q := q) (fut := fut) ho hs0 hk ht hs
  have h := hlim.const_sub w
  rw [sub_self] at h
  refine h.congr' ?_
  filter_upwards [eventually_gt_atTop 0] with n hn
  obtain ⟨-, e', b', h1, h2, h3, -⟩ := C107_control_variates (hv n hn) (ha n hn)
  rw [he n hn] at h1
  rw [hw] at h2
  rw [h3, Option.some.inj (Except.ok.inj h1), Option.some.inj (Except.ok.inj h2)]

/-- C214: without yield and with a rate that is not negative, American calls priced by trees tend to the
closed formula as well. -/
theorem C214_american_call {s0 k t r sigma : ℝ} (hs0 : 0 < s0) (hk : 0 < k) (ht : 0 < t) (hs : 0 < sigma)
    (hr : 0 ≤ r) (am : ℕ → ℝ)
    (ha : ∀ n : ℕ, 0 < n → binomOptionPrice .call .american s0 k t r sigma 0 false n = .ok (some (am n))) :
    ∃ w, bsmOptionPrice .call s0 k r sigma t none 0 false = .ok (some w) ∧ Tendsto am atTop (𝓝 w) := by
  obtain ⟨e, w, he, hw, hlim⟩ := C214_limit (r := r) (q := 0) (fut := false) (.inl rfl) hs0 hk ht hs
  refine ⟨w, hw, hlim.congr' ?_⟩
  filter_upwards [eventually_gt_atTop 0, driftOk_eventually hs r 0] with n hn hd
  exact (C106_call (ha n hn) (he n hn) (by simpa using hd) hs0.le hk.le hr rfl).symm

/-- The trees of an option at the money exist and differ from the closed formula only in the limit. -/
example : ∃ (v : ℕ → ℝ) (w : ℝ),
    (∀ n : ℕ, 0 < n → binomOptionPrice .put .european 100 100 1 0.05 0.2 0.01 false n = .ok (some (v n))) ∧
    bsmOptionPrice .put 100 100 0.05 0.2 1 none 0.01 false = .ok (some w) ∧ Tendsto v atTop (𝓝 w) :=
  C214_limit (.inr rfl) (by norm_num) (by norm_num) (by norm_num) (by norm_num)

/-- C107: for calls and puts on positive prices with positive strike, volatility and time and at least one step, both variants
return a price. -/
theorem C107_returns {ot : OptionType} (ho : ot = .call ∨ ot = .put) {s0 k t r sigma q : ℝ} (fut : Bool) {n : ℕ} (hs : 0 < s0)
    (hk : 0 < k) (ht : 0 < t) (hv : 0 < sigma) (hn : 0 < n) (cv : Bool) :
    ∃ v, binomAmOptionPrice ot s0 k t r sigma q fut n cv = .ok (some v) := by
  obtain ⟨am, ha⟩ := (C103_defined ot .american s0 k t r sigma q fut n).2 ⟨ho, .inl rfl, by exact_mod_cast hn, ht, hv.ne'⟩
  obtain ⟨eur, he⟩ := (C103_defined ot .european s0 k t r sigma q fut n).2 ⟨ho, .inr rfl, by exact_mod_cast hn, ht, hv.ne'⟩
  obtain ⟨b, hb⟩ : ∃ b, bsmOptionPrice ot s0 k r sigma t none q fut = .ok (some b) := by
    obtain ⟨c, p, hc, hp, -⟩ := C109_bounds (s0 := s0) (k := k) (q := q) (fut := fut) (r := r) (divs := none) (.inl rfl) (by simpa [pv] using hs) hk hv ht rfl rfl
    rcases ho with rfl | rfl
    · exact ⟨c, hc⟩
    · exact ⟨p, hp⟩
  unfold binomAmOptionPrice
  rw [ha, py_bind_ok]
  cases cv with
  | false => exact ⟨am, rfl⟩
  | true =>
    rw [if_pos rfl, he, py_bind_ok, hb, py_bind_ok]
    exact ⟨am + (b - eur), rfl⟩

end FinML.Options
