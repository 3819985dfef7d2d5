import Verif.Options.BsmProps

/-!
# Implied forward rates: chaining, reversal, unit, sign, and at-the-money-forward options (C256)
-/

namespace FinML.Options

theorem forward_eq {s0 f t : ℝ} (hs0 : 0 < s0) (hf : 0 < f) (ht : t ≠ 0) :
    impliedForwardRate s0 f t = .ok (some (Real.log (f / s0) / t)) := by
  unfold impliedForwardRate
  rw [if_neg hs0.ne', if_pos (div_pos hf hs0)]
  simp only [fdiv, if_neg ht]

/-- C256, chaining: the rate over two periods is the mean of the rates of the periods, weighted by their lengths;
so it lies between them. -/
theorem C256_chain {s0 f₁ f₂ t₁ t₂ r₁ r₂ : ℝ} (hs0 : 0 < s0) (hf₁ : 0 < f₁) (hf₂ : 0 < f₂) (ht₁ : 0 < t₁)
    (ht₂ : 0 < t₂) (h₁ : impliedForwardRate s0 f₁ t₁ = .ok (some r₁))
    (h₂ : impliedForwardRate f₁ f₂ t₂ = .ok (some r₂)) :
    ∃ r, impliedForwardRate s0 f₂ (t₁ + t₂) = .ok (some r) ∧ r * (t₁ + t₂) = r₁ * t₁ + r₂ * t₂ ∧
      min r₁ r₂ ≤ r ∧ r ≤ max r₁ r₂ := by
  rw [forward_eq hs0 hf₁ ht₁.ne', Except.ok.injEq, Option.some.injEq] at h₁
  rw [forward_eq hf₁ hf₂ ht₂.ne', Except.ok.injEq, Option.some.injEq] at h₂
  have ht : 0 < t₁ + t₂ := by linarith
  have e : Real.log (f₂ / s0) = r₁ * t₁ + r₂ * t₂ := by
    rw [← h₁, ← h₂, div_mul_cancel₀ _ ht₁.ne', div_mul_cancel₀ _ ht₂.ne',
      ← Real.log_mul (div_pos hf₁ hs0).ne' (div_pos hf₂ hf₁).ne']
    congr 1
    field_simp
  refine ⟨_, forward_eq hs0 hf₂ ht.ne', div_mul_cancel₀ _ ht.ne' |>.trans e, ?_, ?_⟩
  · rw [e, le_div_iff₀ ht]
    nlinarith [mul_le_mul_of_nonneg_right (min_le_left r₁ r₂) ht₁.le,
      mul_le_mul_of_nonneg_right (min_le_right r₁ r₂) ht₂.le]
  · rw [e, div_le_iff₀ ht]
    nlinarith [mul_le_mul_of_nonneg_right (le_max_left r₁ r₂) ht₁.le,
      mul_le_mul_of_nonneg_right (le_max_right r₁ r₂) ht₂.le]

/-- C256, reversal and unit: seen from the other side (an exchange rate inverted, or spot and forward exchanged)
the rate changes its sign; the currency does not matter. -/
theorem C256_reverse {s0 f t r c : ℝ} (hs0 : 0 < s0) (hf : 0 < f) (hc : 0 < c) (ht : t ≠ 0)
    (h : impliedForwardRate s0 f t = .ok (some r)) :
    impliedForwardRate f s0 t = .ok (some (-r)) ∧ impliedForwardRate (1 / s0) (1 / f) t = .ok (some (-r)) ∧
      impliedForwardRate (c * s0) (c * f) t = .ok (some r) := by
  rw [forward_eq hs0 hf ht, Except.ok.injEq, Option.some.injEq] at h
  have e : Real.log (s0 / f) = -Real.log (f / s0) := by rw [← Real.log_inv, inv_div]
  refine ⟨?_, ?_, ?_⟩
  · rw [forward_eq hf hs0 ht, e, ← h, neg_div]
  · rw [forward_eq (by positivity) (by positivity) ht, ← h, ← neg_div, ← e]
    congr 4
    field_simp
  · rw [forward_eq (by positivity) (by positivity) ht, ← h, mul_div_mul_left _ _ hc.ne']

/-- C256, sign and order: the rate is positive exactly when the forward is above the spot, and grows with the
forward. -/
theorem C256_sign {s0 f f' t r r' : ℝ} (hs0 : 0 < s0) (hf : 0 < f) (hf' : 0 < f') (ht : 0 < t)
    (h : impliedForwardRate s0 f t = .ok (some r)) (h' : impliedForwardRate s0 f' t = .ok (some r')) :
    (0 < r ↔ s0 < f) ∧ (r = 0 ↔ f = s0) ∧ (r < r' ↔ f < f') := by
  rw [forward_eq hs0 hf ht.ne', Except.ok.injEq, Option.some.injEq] at h
  rw [forward_eq hs0 hf' ht.ne', Except.ok.injEq, Option.some.injEq] at h'
  have hq := div_pos hf hs0
  subst h h'
  refine ⟨?_, ?_, ?_⟩
  · rw [div_pos_iff_of_pos_right ht, Real.log_pos_iff hq.le, lt_div_iff₀ hs0, one_mul]
  · rw [div_eq_zero_iff, or_iff_left ht.ne', Real.log_eq_zero]
    constructor
    · rintro (h | h | h)
      · exact absurd h hq.ne'
      · rwa [div_eq_one_iff_eq hs0.ne'] at h
      · linarith
    · rintro rfl
      right; left
      exact div_self hs0.ne'
  · rw [div_lt_div_iff_of_pos_right ht, Real.log_lt_log_iff hq (div_pos hf' hs0), div_lt_div_iff_of_pos_right hs0]

/-- C256, refusals: a spot of 0 raises, and prices of opposite signs or a time of 0 have no rate. -/
theorem C256_refusals (s0 f t : ℝ) :
    impliedForwardRate 0 f t = .error .zeroDivision ∧ (s0 * f < 0 → impliedForwardRate s0 f t = .ok none) ∧
      (s0 ≠ 0 → impliedForwardRate s0 f 0 = .ok none) := by
  refine ⟨by simp [impliedForwardRate], ?_, ?_⟩
  · intro h
    have h0 : s0 ≠ 0 := by rintro rfl; simp at h
    unfold impliedForwardRate
    rw [if_neg h0, if_neg]
    intro hp
    have : 0 < f / s0 * (s0 * s0) := mul_pos hp (mul_self_pos.2 h0)
    rw [← mul_assoc, div_mul_cancel₀ _ h0] at this
    linarith
  · intro h0
    unfold impliedForwardRate
    rw [if_neg h0]
    simp [fdiv]

/-- C256, options at the forward: a call and a put cost the same exactly when the strike is the forward price whose
implied rate is the interest rate less the yield. -/
theorem C256_at_the_forward {s0 k r sigma t q c p : ℝ} (hs0 : 0 < s0) (hk : 0 < k) (ht : 0 < t)
    (hc : bsmOptionPrice .call s0 k r sigma t none q false = .ok (some c))
    (hp : bsmOptionPrice .put s0 k r sigma t none q false = .ok (some p)) :
    c = p ↔ impliedForwardRate s0 k t = .ok (some (r - q)) := by
  have h := C108_parity hc hp
  have hpv : pv r none = 0 := rfl
  rw [hpv, sub_zero, if_neg (by simp)] at h
  rw [forward_eq hs0 hk ht.ne', Except.ok.injEq, Option.some.injEq, div_eq_iff ht.ne', ← sub_eq_zero, h, sub_eq_zero,
    Real.log_div hk.ne' hs0.ne', ← Real.exp_injective.eq_iff (a := Real.log k - Real.log s0),
    Real.exp_sub, Real.exp_log hk, Real.exp_log hs0,
    div_eq_iff hs0.ne', sub_mul, Real.exp_sub, Real.exp_neg, Real.exp_neg]
  have h1 := Real.exp_pos (q * t)
  have h2 := Real.exp_pos (r * t)
  constructor
  · intro e
    field_simp at e ⊢
    linarith
  · intro e
    field_simp at e ⊢
    linarith

/-- From 100 to 110 in one year and to 121 in two. -/
example : impliedForwardRate 100 110 1 = .ok (some (Real.log (110 / 100))) ∧
    impliedForwardRate 100 121 2 = .ok (some (Real.log (110 / 100))) := by
  constructor
  · rw [forward_eq (by norm_num) (by norm_num) (by norm_num), div_one]
  · rw [forward_eq (by norm_num) (by norm_num) (by norm_num),
      show (121 : ℝ) / 100 = (110 / 100) ^ 2 by norm_num, Real.log_pow]
    norm_num

end FinML.Options
