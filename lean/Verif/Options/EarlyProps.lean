import Verif.Options.ScaleProps

/-! # C233, C234: early exercise on the tree -/

namespace FinML.Options

/-- At a price of 0 an American put is worth its strike. -/
theorem put_at_zero {k t r sigma q v : ℝ} {fut : Bool} {n : ℕ}
    (h : binomOptionPrice .put .american 0 k t r sigma q fut n = .ok (some v)) (hk : 0 ≤ k) (hr : 0 ≤ r)
    (hd : DriftOk t r sigma (yieldUsed q r fut) n) : v = k := by
  obtain ⟨m, tr, hm, hm0, -, ok, ht, e1, he1, rfl⟩ := binom_cases h
  obtain rfl : n = m := by exact_mod_cast hm
  obtain ⟨h0, h1⟩ := ok.probability hd
  simp only [earlyValue, Option.some.injEq] at he1
  subst he1
  have hd1 : tr.disc ≤ 1 := by
    rw [ok.disc_eq, Real.exp_le_one_iff]
    have := mul_nonneg hr ok.dt_nonneg
    linarith
  have hpay : payoff .put k 0 = k := by simp [payoff, exercise, hk]
  clear h hd ht hm hm0 ok
  induction n with
  | zero => exact hpay
  | succ m ih =>
    unfold X
    rw [zero_mul, zero_mul, ih, hpay]
    apply max_eq_right
    nlinarith

/-- C233: if an American put is worth no more than exercising it now, the same holds at any lower price. -/
theorem C233_put_region {s0 s1 k t r sigma q v v' : ℝ} {fut : Bool} {n : ℕ}
    (hd : DriftOk t r sigma (yieldUsed q r fut) n) (hr : 0 ≤ r) (hs : 0 ≤ s1) (hs1 : s1 ≤ s0)
    (h : binomOptionPrice .put .american s0 k t r sigma q fut n = .ok (some v)) (hv : v = k - s0)
    (h' : binomOptionPrice .put .american s1 k t r sigma q fut n = .ok (some v')) : v' = k - s1 := by
  have hk : 0 ≤ k := by
    have := C103_nonneg h
    linarith
  apply le_antisymm _ ((le_max_left _ _).trans ((C104_intrinsic h').2 rfl))
  rcases hs.eq_or_lt with rfl | hpos
  · rw [put_at_zero h' hk hr hd, sub_zero]
  have hs0 : 0 < s0 := hpos.trans_le hs1
  obtain ⟨z, hz⟩ := (C103_defined .put .american 0 k t r sigma q fut n).2
    ((C103_defined .put .american s0 k t r sigma q fut n).1 ⟨v, h⟩)
  have hzk := put_at_zero hz hk hr hd
  have e1 : s1 / s0 * s0 + (1 - s1 / s0) * 0 = s1 := by field_simp; ring
  have e2 : s1 / s0 * k + (1 - s1 / s0) * k = k := by ring
  have := C170_binom_convex hd (w := s1 / s0) (div_nonneg hs hs0.le) ((div_le_one hs0).2 hs1) h hz
    (b := v') (by rw [e1, e2]; exact h')
  rw [hv, hzk] at this
  have e3 : s1 / s0 * (k - s0) + (1 - s1 / s0) * k = k - s1 := by field_simp; ring
  linarith

/-- C233: if an American call is worth no more than exercising it now, the same holds at any higher price. -/
theorem C233_call_region {s0 s1 k t r sigma q v v' : ℝ} {fut : Bool} {n : ℕ}
    (hd : DriftOk t r sigma (if fut then r else q) n) (hr : 0 ≤ r) (hq : 0 ≤ q) (hk : 0 ≤ k) (hs : 0 ≤ s0)
    (hs1 : s0 ≤ s1) (h : binomOptionPrice .call .american s0 k t r sigma q fut n = .ok (some v))
    (hv : v = s0 - k)
    (h' : binomOptionPrice .call .american s1 k t r sigma q fut n = .ok (some v')) : v' = s1 - k := by
  apply le_antisymm _ ((le_max_left _ _).trans ((C104_intrinsic h').1 rfl))
  have hbound : ∀ w : ℝ, 0 ≤ w → w < 1 → v' ≤ s1 - w * k := by
    intro w hw hw1
    have hne : 1 - w ≠ 0 := by linarith
    obtain ⟨z, hz⟩ := (C103_defined .call .american ((s1 - w * s0) / (1 - w)) k t r sigma q fut n).2
      ((C103_defined .call .american s0 k t r sigma q fut n).1 ⟨v, h⟩)
    have hS : 0 ≤ (s1 - w * s0) / (1 - w) := div_nonneg (by nlinarith) (by linarith)
    have hzk := (C103_upper hz hd hS hk hr hq).1 rfl
    have e1 : w * s0 + (1 - w) * ((s1 - w * s0) / (1 - w)) = s1 := by field_simp; ring
    have e2 : w * k + (1 - w) * k = k := by ring
    have := C170_binom_convex hd hw hw1.le h hz (b := v') (by rw [e1, e2]; exact h')
    have h3 : (1 - w) * z ≤ (1 - w) * ((s1 - w * s0) / (1 - w)) :=
      mul_le_mul_of_nonneg_left hzk (by linarith)
    rw [hv] at this
    have e4 : w * (s0 - k) + (1 - w) * ((s1 - w * s0) / (1 - w)) = s1 - w * k := by linarith
    linarith
  by_contra hlt
  push Not at hlt
  have hk0 : 0 < k := by
    have := hbound 0 le_rfl one_pos
    linarith
  have hw := hbound (max 0 (1 - (v' - (s1 - k)) / (2 * k))) (le_max_left _ _)
    (max_lt one_pos (by
      have : 0 < (v' - (s1 - k)) / (2 * k) := div_pos (by linarith) (by linarith)
      linarith))
  have h5 := mul_le_mul_of_nonneg_right (le_max_right 0 (1 - (v' - (s1 - k)) / (2 * k))) hk
  have e6 : (1 - (v' - (s1 - k)) / (2 * k)) * k = k - (v' - (s1 - k)) / 2 := by field_simp
  linarith

theorem X_longer {tr : Tree} {pay : ℝ → ℝ} (hd : 0 ≤ tr.disc) (hp : 0 ≤ tr.p) (hp1 : tr.p ≤ 1) (m : ℕ) (s : ℝ) :
    X tr pay pay m s ≤ X tr pay pay (m + 1) s := by
  induction m generalizing s with
  | zero => exact le_max_right _ _
  | succ m ih =>
    exact max_le_max (mul_le_mul_of_nonneg_left (avg_mono hp hp1 (ih _) (ih _)) hd) le_rfl

/-- C233: with more steps of the same length to go an American option is worth at least as much; so an option
exercised with more time to go would be exercised with less. -/
theorem C233_time {ot : OptionType} {s0 k t t' r sigma q v v' : ℝ} {fut : Bool} {n n' : ℕ}
    (hd : DriftOk t r sigma (yieldUsed q r fut) n) (hn : n ≤ n') (hdt : t' / n' = t / n)
    (h : binomOptionPrice ot .american s0 k t r sigma q fut n = .ok (some v))
    (h' : binomOptionPrice ot .american s0 k t' r sigma q fut n' = .ok (some v')) :
    v ≤ v' ∧ (v' = (if ot = .call then max (s0 - k) 0 else max (k - s0) 0) → v = v') := by
  have key : v ≤ v' := by
    obtain ⟨m, tr, hm, hm0, -, ok, ht, e1, he1, rfl⟩ := binom_cases h
    obtain ⟨m', tr', hm', hm0', -, ok', ht', e1', he1', rfl⟩ := binom_cases h'
    obtain rfl : n = m := by exact_mod_cast hm
    obtain rfl : n' = m' := by exact_mod_cast hm'
    obtain ⟨h0, h1⟩ := ok.probability hd
    have e : mkTree t' r sigma (yieldUsed q r fut) n' = mkTree t r sigma (yieldUsed q r fut) n := by
      unfold mkTree
      simp only [hdt]
    obtain rfl := Option.some.inj (ht.symm.trans (e.symm.trans ht'))
    simp only [earlyValue, Option.some.injEq] at he1 he1'
    subst he1 he1'
    exact monotone_nat_of_le_succ (fun i => X_longer ok.disc_pos.le h0 h1 i s0) hn
  refine ⟨key, fun hv => le_antisymm key ?_⟩
  obtain ⟨-, -, -, -, hot, -⟩ := binom_cases h
  have := C104_intrinsic h
  rcases hot with rfl | rfl
  · rw [hv, if_pos rfl]; exact this.1 rfl
  · rw [hv, if_neg (by simp)]; exact this.2 rfl

/-- C234: parity for American options. The excess of the call over the put is at least the underlying without
its yield less the strike, and at most the underlying less the present value of the strike. -/
theorem C234_parity {s0 k t r sigma q c p : ℝ} {fut : Bool} {n : ℕ}
    (hc : binomOptionPrice .call .american s0 k t r sigma q fut n = .ok (some c))
    (hput : binomOptionPrice .put .american s0 k t r sigma q fut n = .ok (some p))
    (hd : DriftOk t r sigma (if fut then r else q) n) (hs : 0 ≤ s0) (hk : 0 ≤ k) (hr : 0 ≤ r) (hq : 0 ≤ q) :
    s0 * Real.exp (-(if fut then r else q) * t) - k ≤ c - p ∧ c - p ≤ s0 - k * Real.exp (-r * t) := by
  obtain ⟨m, tr, hm, hm0, -, ok, ht, e1, he1, rfl⟩ := binom_cases hc
  obtain ⟨m', tr', hm', -, -, -, ht', e2, he2, rfl⟩ := binom_cases hput
  obtain rfl : n = m := by exact_mod_cast hm
  obtain rfl : n = m' := by exact_mod_cast hm'
  obtain rfl := Option.some.inj (ht.symm.trans ht')
  obtain ⟨h0, h1⟩ := ok.probability hd
  simp only [earlyValue, Option.some.injEq] at he1 he2
  subst he1 he2
  have hy : 0 ≤ yieldUsed q r fut := by unfold yieldUsed; split <;> assumption
  have hdp := ok.disc_pos.le
  have hd1 : tr.disc ≤ 1 := by
    rw [ok.disc_eq, Real.exp_le_one_iff]
    have := mul_nonneg hr ok.dt_nonneg
    linarith
  obtain ⟨f, hf⟩ : ∃ f, Real.exp (-yieldUsed q r fut * tr.dt) = f := ⟨_, rfl⟩
  have hmean := ok.disc_mean
  rw [hf] at hmean
  have hf0 : 0 ≤ f := by rw [← hf]; exact (Real.exp_pos _).le
  have hf1 : f ≤ 1 := by
    rw [← hf, Real.exp_le_one_iff]
    have := mul_nonneg hy ok.dt_nonneg
    linarith
  have hcpay : ∀ s, payoff .call k s = max (s - k) 0 := fun s => by simp [payoff, exercise]
  have hppay : ∀ s, payoff .put k s = max (k - s) 0 := fun s => by simp [payoff, exercise]
  have key : ∀ (i : ℕ) (s : ℝ), 0 ≤ s →
      s * f ^ i - k ≤ X tr (payoff .call k) (payoff .call k) i s - X tr (payoff .put k) (payoff .put k) i s ∧
      X tr (payoff .call k) (payoff .call k) i s - X tr (payoff .put k) (payoff .put k) i s ≤
        s - k * tr.disc ^ i := by
    intro i
    induction i with
    | zero =>
      intro s hs
      unfold X
      rw [hcpay, hppay]
      rcases le_total s k with h | h
      · rw [max_eq_right (by linarith), max_eq_left (by linarith)]
        constructor <;> simp
      · rw [max_eq_left (by linarith), max_eq_right (by linarith)]
        constructor <;> simp
    | succ i ih =>
      intro s hs
      obtain ⟨a1, a2⟩ := ih (s * tr.u) (mul_nonneg hs ok.u_pos.le)
      obtain ⟨b1, b2⟩ := ih (s * tr.d) (mul_nonneg hs ok.d_pos.le)
      have hfi : f ^ i ≤ 1 := pow_le_one₀ hf0 hf1
      have hfi0 : 0 ≤ f ^ i := pow_nonneg hf0 i
      have hdi : tr.disc ^ i ≤ 1 := pow_le_one₀ hdp hd1
      have hdi0 : 0 ≤ tr.disc ^ i := pow_nonneg hdp i
      have c0 := X_nonneg tr (payoff .call k) (payoff .call k) (payoff_nonneg _ k) (payoff_nonneg _ k) (i + 1) s
      have p0 := X_nonneg tr (payoff .put k) (payoff .put k) (payoff_nonneg _ k) (payoff_nonneg _ k) (i + 1) s
      have c1 : s - k ≤ X tr (payoff .call k) (payoff .call k) (i + 1) s := by
        have : payoff .call k s ≤ X tr (payoff .call k) (payoff .call k) (i + 1) s := le_max_right _ _
        rw [hcpay] at this
        exact (le_max_left _ _).trans this
      have p1 : k - s ≤ X tr (payoff .put k) (payoff .put k) (i + 1) s := by
        have : payoff .put k s ≤ X tr (payoff .put k) (payoff .put k) (i + 1) s := le_max_right _ _
        rw [hppay] at this
        exact (le_max_left _ _).trans this
      have c2 : tr.disc * (tr.p * X tr (payoff .call k) (payoff .call k) i (s * tr.u) +
          (1 - tr.p) * X tr (payoff .call k) (payoff .call k) i (s * tr.d)) ≤
          X tr (payoff .call k) (payoff .call k) (i + 1) s := le_max_left _ _
      have p2 : tr.disc * (tr.p * X tr (payoff .put k) (payoff .put k) i (s * tr.u) +
          (1 - tr.p) * X tr (payoff .put k) (payoff .put k) i (s * tr.d)) ≤
          X tr (payoff .put k) (payoff .put k) (i + 1) s := le_max_left _ _
      have hsf : s * f ^ (i + 1) ≤ s := by
        have : f ^ (i + 1) ≤ 1 := pow_le_one₀ hf0 hf1
        nlinarith
      have hkd : k * tr.disc ^ (i + 1) ≤ k := by
        have : tr.disc ^ (i + 1) ≤ 1 := pow_le_one₀ hdp hd1
        nlinarith
      have hkd' : tr.disc * k ≤ k := by nlinarith
      have hsf' : s * f ≤ s := by nlinarith
      have hC : X tr (payoff .call k) (payoff .call k) (i + 1) s = max (tr.disc * (tr.p *
          X tr (payoff .call k) (payoff .call k) i (s * tr.u) +
          (1 - tr.p) * X tr (payoff .call k) (payoff .call k) i (s * tr.d))) (payoff .call k s) := rfl
      have hP : X tr (payoff .put k) (payoff .put k) (i + 1) s = max (tr.disc * (tr.p *
          X tr (payoff .put k) (payoff .put k) i (s * tr.u) +
          (1 - tr.p) * X tr (payoff .put k) (payoff .put k) i (s * tr.d))) (payoff .put k s) := rfl
      rw [hcpay] at hC
      rw [hppay] at hP
      generalize X tr (payoff .call k) (payoff .call k) (i + 1) s = C at *
      generalize X tr (payoff .put k) (payoff .put k) (i + 1) s = P at *
      generalize X tr (payoff .call k) (payoff .call k) i (s * tr.u) = A at *
      generalize X tr (payoff .call k) (payoff .call k) i (s * tr.d) = B at *
      generalize X tr (payoff .put k) (payoff .put k) i (s * tr.u) = A' at * 
      generalize X tr (payoff .put k) (payoff .put k) i (s * tr.d) = B' at *
      have lo := mul_le_mul_of_nonneg_left (avg_mono h0 h1 a1 b1) hdp
      have hi := mul_le_mul_of_nonneg_left (avg_mono h0 h1 a2 b2) hdp
      have elo : tr.disc * (tr.p * (s * tr.u * f ^ i - k) + (1 - tr.p) * (s * tr.d * f ^ i - k)) =
          s * f ^ (i + 1) - tr.disc * k := by
        rw [pow_succ, ← hmean]; ring
      have ehi : tr.disc * (tr.p * (s * tr.u - k * tr.disc ^ i) + (1 - tr.p) * (s * tr.d - k * tr.disc ^ i)) =
          s * f - k * tr.disc ^ (i + 1) := by
        rw [pow_succ, ← hmean]; ring
      rw [elo] at lo
      rw [ehi] at hi
      have dl : tr.disc * (tr.p * (A - A') + (1 - tr.p) * (B - B')) =
        tr.disc * (tr.p * A + (1 - tr.p) * B) - tr.disc * (tr.p * A' + (1 - tr.p) * B') := by ring
      rw [dl] at lo hi
      constructor
      · have : P ≤ C - (s * f ^ (i + 1) - k) := by
          rw [hP]
          exact max_le (by linarith) (max_le (by linarith) (by linarith))
        linarith
      · have : C ≤ P + (s - k * tr.disc ^ (i + 1)) := by
          rw [hC]
          exact max_le (by linarith) (max_le (by linarith) (by linarith))
        linarith
  have hn : (0 : ℝ) < n := by exact_mod_cast hm0
  have hfn : f ^ n = Real.exp (-(if fut then r else q) * t) := by
    rw [← hf, ok.dt_eq, ← Real.exp_nat_mul]
    unfold yieldUsed
    congr 1
    field_simp
  have hdn : tr.disc ^ n = Real.exp (-r * t) := by
    rw [ok.disc_eq, ok.dt_eq, ← Real.exp_nat_mul]
    congr 1
    field_simp
  have := key n s0 hs
  rwa [hfn, hdn] at this

/-- Strike 10, the price doubles or halves, interest such that both are equally likely: at a price of 2 the put
is worth 8, waiting only 6; so it is exercised at all lower prices. -/
example : ∃ v v' c : ℝ, binomOptionPrice .put .american 2 10 (1 : ℕ) (Real.log (5 / 4)) (Real.log 2) 0 false (1 : ℕ) =
      .ok (some v) ∧ v = 10 - 2 ∧
    binomOptionPrice .put .american 1 10 (1 : ℕ) (Real.log (5 / 4)) (Real.log 2) 0 false (1 : ℕ) = .ok (some v') ∧
    v' = 10 - 1 ∧
    binomOptionPrice .call .american 2 10 (1 : ℕ) (Real.log (5 / 4)) (Real.log 2) 0 false (1 : ℕ) =
      .ok (some c) ∧ 2 * Real.exp (-0 * (1 : ℕ)) - 10 ≤ c - v := by
  have hp : (1 / 2 : ℝ) * 2 + (1 - 1 / 2) * (1 / 2) = Real.exp (Real.log (5 / 4) - 0) := by
    rw [sub_zero, Real.exp_log (by norm_num)]; norm_num
  have hD : (4 / 5 : ℝ) = Real.exp (-Real.log (5 / 4)) := by
    rw [Real.exp_neg, Real.exp_log (by norm_num)]; norm_num
  have hr : 0 ≤ Real.log (5 / 4) := Real.log_nonneg (by norm_num)
  have hd : DriftOk ((1 : ℕ) : ℝ) (Real.log (5 / 4)) (Real.log 2) 0 1 := by
    unfold DriftOk
    rw [sub_zero, abs_of_nonneg hr]
    have : Real.log (5 / 4) ≤ Real.log 2 := Real.log_le_log (by norm_num) (by norm_num)
    simpa using this
  have h := binom_example .put .american 2 10 (Real.log (5 / 4)) 0 2 (1 / 2) (1 / 2) (4 / 5) 1 (by norm_num)
      (by norm_num) (by norm_num) hD hp (.inr rfl) (early := payoff .put 10) rfl
  have h' := binom_example .put .american 1 10 (Real.log (5 / 4)) 0 2 (1 / 2) (1 / 2) (4 / 5) 1 (by norm_num)
      (by norm_num) (by norm_num) hD hp (.inr rfl) (early := payoff .put 10) rfl
  have hc := binom_example .call .american 2 10 (Real.log (5 / 4)) 0 2 (1 / 2) (1 / 2) (4 / 5) 1 (by norm_num)
      (by norm_num) (by norm_num) hD hp (.inl rfl) (early := payoff .call 10) rfl
  have hv : X (⟨1, 2, 1 / 2, 1 / 2, 4 / 5⟩ : Tree) (payoff .put 10) (payoff .put 10) 1 2 = 10 - 2 := by
    norm_num [X, payoff, exercise, max_def]
  refine ⟨_, _, _, h, hv, h', ?_, hc, ?_⟩
  · exact C233_put_region hd hr (by norm_num) (by norm_num : (1 : ℝ) ≤ 2) h hv h'
  · simpa using (C234_parity hc h (by simpa using hd) (by norm_num) (by norm_num) hr le_rfl).1

end FinML.Options
