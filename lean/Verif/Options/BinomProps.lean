import Verif.Options.BinomLemmas
import Verif.Options.BinomSpec
import Verif.Py.Lemmas
import Mathlib.Order.Bounds.Basic
import Mathlib.Algebra.BigOperators.Ring.List
import Mathlib.Tactic.NormNum
import Mathlib.Analysis.SpecialFunctions.Exp

/-!
# Binomial option prices: C103, C104, C105, C106, C107, C141
-/

namespace FinML.Options

theorem TreeOk.crr {tr : Tree} {t r sigma q : ℝ} {n : ℕ} (h : TreeOk tr t r sigma q n) :
    CRR t r sigma q n tr.u tr.d tr.p :=
  ⟨by rw [h.u_eq, h.dt_eq], h.ud, sub_ne_zero.1 h.ne, by rw [h.mean, h.dt_eq]⟩

theorem CRR.unique {t r sigma q : ℝ} {n : ℕ} {u d p u' d' p' : ℝ} (h : CRR t r sigma q n u d p)
    (h' : CRR t r sigma q n u' d' p') : u = u' ∧ d = d' ∧ p = p' := by
  have hu : u = u' := by rw [h.up, h'.up]
  subst hu
  have hu0 : u ≠ 0 := by rw [h.up]; exact (Real.exp_pos _).ne'
  have hd : d = d' := mul_left_cancel₀ hu0 (by rw [h.down, h'.down])
  subst hd
  refine ⟨rfl, rfl, ?_⟩
  have e : p * (u - d) = p' * (u - d) := by have := h.drift; have := h'.drift; linarith
  exact mul_right_cancel₀ (sub_ne_zero.2 h.move) e

theorem TreeOk.probability {tr : Tree} {t r sigma q : ℝ} {n : ℕ} (h : TreeOk tr t r sigma q n)
    (hd : DriftOk t r sigma q n) : 0 ≤ tr.p ∧ tr.p ≤ 1 := by
  have hs : 0 ≤ sigma := le_trans (mul_nonneg (abs_nonneg _) (Real.sqrt_nonneg _)) hd
  rw [h.p_iff hs, h.dt_eq]
  exact hd

/-! ## C103 -/

/-- A tree can be built exactly if time and volatility are such that prices move. -/
theorem mkTree_isSome {t r sigma q : ℝ} {n : ℕ} (hn : 0 < n) :
    (∃ tr, mkTree t r sigma q n = some tr) ↔ 0 < t ∧ sigma ≠ 0 := by
  have hn' : (0 : ℝ) < n := by exact_mod_cast hn
  unfold mkTree
  simp only
  have key : Real.exp (sigma * √(t / n)) - 1 / Real.exp (sigma * √(t / n)) = 0 ↔ sigma * √(t / n) = 0 := by
    rw [one_div, ← Real.exp_neg, sub_eq_zero, Real.exp_eq_exp]
    constructor <;> intro h <;> linarith
  constructor
  · rintro ⟨tr, h⟩
    split at h
    · exact absurd h (by simp)
    · next hc =>
      rw [key] at hc
      push Not at hc
      obtain ⟨h1, h2⟩ := hc
      refine ⟨?_, fun h0 => h2 (by rw [h0, zero_mul])⟩
      rcases h1.lt_or_eq with h3 | h3
      · by_contra h4
        exact absurd h3 (not_lt.2 (div_nonpos_of_nonpos_of_nonneg (not_lt.1 h4) hn'.le))
      · exact absurd (by rw [← h3]; simp) h2
  · rintro ⟨h1, h2⟩
    rw [if_neg]
    · exact ⟨_, rfl⟩
    · rw [key]
      have := div_pos h1 hn'
      push Not
      exact ⟨this.le, mul_ne_zero h2 (Real.sqrt_pos.2 this).ne'⟩

/-- C103: a call or put, American or European, has a price exactly if the tree has a step, time is left
and there is volatility. -/
theorem C103_defined (ot style : OptionType) (s0 k t r sigma q : ℝ) (fut : Bool) (n : ℤ) :
    (∃ v, binomOptionPrice ot style s0 k t r sigma q fut n = .ok (some v)) ↔
      (ot = .call ∨ ot = .put) ∧ (style = .american ∨ style = .european) ∧ 0 < n ∧ 0 < t ∧ sigma ≠ 0 := by
  constructor
  · rintro ⟨v, h⟩
    obtain ⟨m, tr, hnm, hm, ho, -, ht, early, he, -⟩ := binom_cases h
    have := (mkTree_isSome hm).1 ⟨tr, ht⟩
    refine ⟨ho, ?_, by omega, this⟩
    cases style <;> simp [earlyValue] at he ⊢
  · rintro ⟨ho, hst, hn, hts⟩
    obtain ⟨m, rfl⟩ : ∃ m : ℕ, n = m := ⟨n.toNat, by omega⟩
    have hm : 0 < m := by omega
    obtain ⟨tr, ht⟩ := (mkTree_isSome (r := r) (q := yieldUsed q r fut) hm).2 hts
    obtain ⟨early, he⟩ : ∃ early, earlyValue ot style k = some early := by
      rcases hst with rfl | rfl <;> simp [earlyValue]
    exact ⟨_, binom_ok hm ho he ht⟩

/-- C103: prices are not negative, whatever the parameters. -/
theorem C103_nonneg {ot style : OptionType} {s0 k t r sigma q : ℝ} {fut : Bool} {n : ℤ} {v : ℝ}
    (h : binomOptionPrice ot style s0 k t r sigma q fut n = .ok (some v)) : 0 ≤ v := by
  obtain ⟨m, tr, -, -, -, -, -, early, he, rfl⟩ := binom_cases h
  exact X_nonneg tr _ _ (payoff_nonneg ot k) (early_nonneg he) m s0

theorem early_le_payoff {ot style : OptionType} {k : ℝ} {early : ℝ → ℝ} (h : earlyValue ot style k = some early)
    (s : ℝ) : early s ≤ payoff ot k s := by
  cases style <;> simp [earlyValue] at h <;> subst h
  · exact le_refl _
  · exact payoff_nonneg ot k s

theorem X_call_le {tr : Tree} {t r sigma q : ℝ} {n : ℕ} (h : TreeOk tr t r sigma q n) (hq : 0 ≤ q)
    (hp : 0 ≤ tr.p) (hp1 : tr.p ≤ 1) {pay early : ℝ → ℝ} (hpay : ∀ s : ℝ, 0 ≤ s → pay s ≤ s)
    (he : ∀ s : ℝ, 0 ≤ s → early s ≤ s) (m : ℕ) {s : ℝ} (hs : 0 ≤ s) : X tr pay early m s ≤ s := by
  induction m generalizing s with
  | zero => exact hpay s hs
  | succ m ih =>
    refine max_le ?_ (he s hs)
    have h1 := ih (mul_nonneg hs h.u_pos.le)
    have h2 := ih (mul_nonneg hs h.d_pos.le)
    have h3 := mul_le_mul_of_nonneg_left (avg_mono hp hp1 h1 h2) h.disc_pos.le
    have h4 : tr.disc * (tr.p * (s * tr.u) + (1 - tr.p) * (s * tr.d)) = s * Real.exp (-q * tr.dt) := by
      rw [← h.disc_mean]; ring
    have h5 : Real.exp (-q * tr.dt) ≤ 1 := by
      rw [Real.exp_le_one_iff]
      have := mul_nonneg hq h.dt_nonneg
      linarith
    have := mul_le_mul_of_nonneg_left h5 hs
    linarith

theorem X_put_le {tr : Tree} {t r sigma q : ℝ} {n : ℕ} (h : TreeOk tr t r sigma q n) (hr : 0 ≤ r)
    (hp : 0 ≤ tr.p) (hp1 : tr.p ≤ 1) {pay early : ℝ → ℝ} {k : ℝ} (hk : 0 ≤ k)
    (hpay : ∀ s : ℝ, 0 ≤ s → pay s ≤ k)
    (he : ∀ s : ℝ, 0 ≤ s → early s ≤ k) (m : ℕ) {s : ℝ} (hs : 0 ≤ s) : X tr pay early m s ≤ k := by
  induction m generalizing s with
  | zero => exact hpay s hs
  | succ m ih =>
    refine max_le ?_ (he s hs)
    have h1 := ih (mul_nonneg hs h.u_pos.le)
    have h2 := ih (mul_nonneg hs h.d_pos.le)
    have h3 := mul_le_mul_of_nonneg_left (avg_mono hp hp1 h1 h2) h.disc_pos.le
    have h5 : tr.disc ≤ 1 := by
      rw [h.disc_eq, Real.exp_le_one_iff]
      have := mul_nonneg hr h.dt_nonneg
      linarith
    have := mul_le_mul_of_nonneg_right h5 hk
    have e : tr.disc * (tr.p * k + (1 - tr.p) * k) = tr.disc * k := by ring
    linarith

/-- C103: with a probability that is one and rates and yields that are not negative, a call is worth at
most the underlying and a put at most the strike. -/
theorem C103_upper {ot style : OptionType} {s0 k t r sigma q : ℝ} {fut : Bool} {n : ℕ} {v : ℝ}
    (h : binomOptionPrice ot style s0 k t r sigma q fut n = .ok (some v))
    (hd : DriftOk t r sigma (if fut then r else q) n) (hs : 0 ≤ s0) (hk : 0 ≤ k) (hr : 0 ≤ r)
    (hq : 0 ≤ q) : (ot = .call → v ≤ s0) ∧ (ot = .put → v ≤ k) := by
  obtain ⟨m, tr, hnm, hm, ho, hok, -, early, he, rfl⟩ := binom_cases h
  obtain rfl : n = m := by exact_mod_cast hnm
  obtain ⟨hp, hp1⟩ := hok.probability hd
  have hq' : 0 ≤ yieldUsed q r fut := by unfold yieldUsed; split <;> assumption
  constructor
  · rintro rfl
    have hpay : ∀ s : ℝ, 0 ≤ s → payoff .call k s ≤ s := fun s h0 => by
      simp only [payoff, exercise, Option.getD_some]
      exact max_le (by linarith) h0
    exact X_call_le hok hq' hp hp1 hpay (fun s h0 => le_trans (early_le_payoff he s) (hpay s h0)) n hs
  · rintro rfl
    have hpay : ∀ s : ℝ, 0 ≤ s → payoff .put k s ≤ k := fun s h0 => by
      simp only [payoff, exercise, Option.getD_some]
      exact max_le (by linarith) hk
    exact X_put_le hok hr hp hp1 hk hpay (fun s h0 => le_trans (early_le_payoff he s) (hpay s h0)) n hs

/-- C103: the condition on the drift says exactly that the probability of the tree is one. -/
theorem C103_probability {t r sigma q u d p : ℝ} {n : ℕ} (hn : 0 < n) (ht : 0 < t) (hs : 0 < sigma)
    (h : CRR t r sigma q n u d p) : (0 ≤ p ∧ p ≤ 1) ↔ DriftOk t r sigma q n := by
  obtain ⟨tr, htr⟩ := (mkTree_isSome (r := r) (q := q) hn).2 ⟨ht, hs.ne'⟩
  have hok := mkTree_ok htr
  obtain ⟨-, -, rfl⟩ := h.unique hok.crr
  rw [hok.p_iff hs.le, hok.dt_eq]
  rfl

/-- The hypotheses of C103 can be met: the drift condition with a rate of 4%, volatility 20%. -/
example : DriftOk 1 (1 / 25) (1 / 5) 0 1 ∧
    ∃ v, binomOptionPrice .put .american 100 90 1 (1 / 25) (1 / 5) 0 false (1 : ℕ) = .ok (some v) := by
  refine ⟨by simp [DriftOk]; norm_num [abs_of_pos], ?_⟩
  rw [C103_defined]
  norm_num

/-! ## C104 -/

/-- The value of a tree of given price moves, for computing examples. -/
theorem binom_example (ot style : OptionType) (s0 k r q u d p D : ℝ) (n : ℕ) (hn : 0 < n) (hu : 1 < u)
    (hud : d = 1 / u) (hD : D = Real.exp (-r)) (hp : p * u + (1 - p) * d = Real.exp (r - q))
    (ho : ot = .call ∨ ot = .put) {early : ℝ → ℝ} (he : earlyValue ot style k = some early) :
    binomOptionPrice ot style s0 k n r (Real.log u) q false n =
      .ok (some (X ⟨1, u, d, p, D⟩ (payoff ot k) early n s0)) := by
  have hn' : (n : ℝ) ≠ 0 := by positivity
  have hl : Real.log u ≠ 0 := (Real.log_pos hu).ne'
  obtain ⟨tr, ht⟩ := (mkTree_isSome (r := r) (q := yieldUsed q r false) hn).2
    ⟨(by positivity : (0 : ℝ) < n), hl⟩
  rw [binom_ok hn ho he ht]
  have hok := mkTree_ok ht
  have h1 : tr.dt = 1 := by rw [hok.dt_eq]; field_simp
  have hc : CRR n r (Real.log u) (yieldUsed q r false) n u d p := by
    refine ⟨?_, ?_, ?_, ?_⟩
    · rw [div_self hn', Real.sqrt_one, mul_one, Real.exp_log (by linarith)]
    · rw [hud]; field_simp
    · rw [hud]
      intro h
      have : u * u = 1 := by rw [h]; have : u ≠ 0 := by linarith
                             field_simp at h ⊢; nlinarith
      nlinarith
    · rw [hp, div_self hn']; simp [yieldUsed]
  obtain ⟨e1, e2, e3⟩ := hok.crr.unique hc
  have e4 : tr.disc = D := by rw [hok.disc_eq, h1, hD, mul_one]
  have : tr = ⟨1, u, d, p, D⟩ := by
    cases tr; simp only [Tree.mk.injEq] at *; exact ⟨h1, e1, e2, e3, e4⟩
  rw [this]

/-- The claim of C104 for all parameters. -/
def AmericanAtLeastEuropean : Prop :=
  ∀ (ot : OptionType) (s0 k t r sigma q : ℝ) (fut : Bool) (n : ℤ) (am eur : ℝ),
    binomOptionPrice ot .american s0 k t r sigma q fut n = .ok (some am) →
    binomOptionPrice ot .european s0 k t r sigma q fut n = .ok (some eur) → eur ≤ am

set_option maxRecDepth 4000 in
/-- C104 fails: with no rates, a yield of `log 4` and a movement of 5/4 per step (so `p = -11/9`) a put
struck at 7/4 of the price is worth 13/4 if American and 7193/2187 if European. -/
theorem C104_american_counterexample : ¬ AmericanAtLeastEuropean := by
  intro h
  have hp : (-11 / 9 : ℝ) * (5 / 4) + (1 - (-11 / 9)) * (4 / 5) = Real.exp (0 - Real.log 4) := by
    rw [zero_sub, Real.exp_neg, Real.exp_log (by norm_num)]; norm_num
  have h1 := binom_example .put .american 1 (7 / 4) 0 (Real.log 4) (5 / 4) (4 / 5) (-11 / 9) 1 4 (by norm_num)
    (by norm_num) (by norm_num) (by simp) hp (.inr rfl) (early := payoff .put (7 / 4)) rfl
  have h2 := binom_example .put .european 1 (7 / 4) 0 (Real.log 4) (5 / 4) (4 / 5) (-11 / 9) 1 4 (by norm_num)
    (by norm_num) (by norm_num) (by simp) hp (.inr rfl) (early := fun _ => 0) rfl
  have h3 := h _ _ _ _ _ _ _ _ _ _ _ h1 h2
  norm_num [X, payoff, exercise, max_def] at h3

/-- C104, the part that holds: the American price is at least the European one if the probability of
the tree is one.  (Missing: other parameters, where it can fail.) -/
theorem C104_american_partial {ot : OptionType} {s0 k t r sigma q : ℝ} {fut : Bool} {n : ℕ} {am eur : ℝ}
    (ha : binomOptionPrice ot .american s0 k t r sigma q fut n = .ok (some am))
    (he : binomOptionPrice ot .european s0 k t r sigma q fut n = .ok (some eur))
    (hd : DriftOk t r sigma (if fut then r else q) n) : eur ≤ am := by
  obtain ⟨m, tr, hnm, hm, ho, hok, ht, early, hea, rfl⟩ := binom_cases ha
  obtain ⟨m', tr', hnm', hm', ho', hok', ht', early', hee, rfl⟩ := binom_cases he
  obtain rfl : n = m := by exact_mod_cast hnm
  obtain rfl : n = m' := by exact_mod_cast hnm'
  rw [ht] at ht'
  obtain rfl : tr = tr' := by simpa using ht'
  obtain ⟨hp, hp1⟩ := hok.probability hd
  simp only [earlyValue, Option.some.injEq] at hea hee
  subst hea hee
  exact X_mono hok.disc_pos.le hp hp1 (payoff_nonneg ot k) n s0

/-- C104: the American price is at least the value of exercising at once, whatever the parameters. -/
theorem C104_intrinsic {ot : OptionType} {s0 k t r sigma q : ℝ} {fut : Bool} {n : ℤ} {am : ℝ}
    (ha : binomOptionPrice ot .american s0 k t r sigma q fut n = .ok (some am)) :
    (ot = .call → max (s0 - k) 0 ≤ am) ∧ (ot = .put → max (k - s0) 0 ≤ am) := by
  obtain ⟨m, tr, -, hm, -, -, -, early, hea, rfl⟩ := binom_cases ha
  obtain ⟨m, rfl⟩ : ∃ l, m = l + 1 := ⟨m - 1, by omega⟩
  simp only [earlyValue, Option.some.injEq] at hea
  subst hea
  constructor <;> rintro rfl <;> exact le_max_right _ _

/-! ## C105 -/

/-- C105: a European price is the discounted binomial expectation of the payoff. -/
theorem C105_expectation {ot : OptionType} {s0 k t r sigma q u d p v : ℝ} {fut : Bool} {n : ℕ}
    (h : binomOptionPrice ot .european s0 k t r sigma q fut n = .ok (some v))
    (hc : CRR t r sigma (if fut then r else q) n u d p) (hd : DriftOk t r sigma (if fut then r else q) n) :
    v = Real.exp (-r * t) * ∑ j ∈ Finset.range (n + 1), (n.choose j : ℝ) * (p ^ j * (1 - p) ^ (n - j) *
      (if ot = .call then max (s0 * u ^ j * d ^ (n - j) - k) 0 else max (k - s0 * u ^ j * d ^ (n - j)) 0)) := by
  obtain ⟨m, tr, hnm, hm, ho, hok, ht, early, hea, rfl⟩ := binom_cases h
  obtain rfl : n = m := by exact_mod_cast hnm
  obtain ⟨hp, hp1⟩ := hok.probability hd
  simp only [earlyValue, Option.some.injEq] at hea
  subst hea
  obtain ⟨rfl, rfl, rfl⟩ := hc.unique hok.crr
  rw [X_european hok.disc_pos.le hp hp1 (payoff_nonneg ot k), hok.disc_pow hm]
  unfold binAvg
  congr 1
  apply Finset.sum_congr rfl
  intro j _
  rcases ho with rfl | rfl <;> simp [payoff, exercise]

/-- C105: put-call parity. -/
theorem C105_parity {s0 k t r sigma q c p : ℝ} {fut : Bool} {n : ℕ}
    (hc : binomOptionPrice .call .european s0 k t r sigma q fut n = .ok (some c))
    (hput : binomOptionPrice .put .european s0 k t r sigma q fut n = .ok (some p))
    (hd : DriftOk t r sigma (if fut then r else q) n) :
    c - p = s0 * Real.exp (-(if fut then r else q) * t) - k * Real.exp (-r * t) := by
  obtain ⟨m, tr, hnm, hm, ho, hok, ht, early, hea, rfl⟩ := binom_cases hc
  obtain ⟨m', tr', hnm', hm', ho', hok', ht', early', hee, rfl⟩ := binom_cases hput
  obtain rfl : n = m := by exact_mod_cast hnm
  obtain rfl : n = m' := by exact_mod_cast hnm'
  rw [ht] at ht'
  obtain rfl : tr = tr' := by simpa using ht'
  obtain ⟨hp, hp1⟩ := hok.probability hd
  simp only [earlyValue, Option.some.injEq] at hea hee
  subst hea hee
  rw [X_european hok.disc_pos.le hp hp1 (payoff_nonneg _ k),
    X_european hok.disc_pos.le hp hp1 (payoff_nonneg _ k), ← mul_sub, ← binAvg_sub]
  have e : (fun x => payoff .call k x - payoff .put k x) = fun x => x - k := by
    funext x
    simp only [payoff, exercise, Option.getD_some]
    rcases le_total x k with h | h
    · rw [max_eq_right (by linarith), max_eq_left (by linarith)]; ring
    · rw [max_eq_left (by linarith), max_eq_right (by linarith)]; ring
  rw [e, binAvg_sub tr n (fun x => x) (fun _ => k), binAvg_id, binAvg_const, mul_sub, hok.disc_pow hm]
  have := hok.disc_mean_pow hm
  rw [show (if fut = true then r else q) = yieldUsed q r fut from rfl, ← this, hok.disc_pow hm]
  ring

/-- C105: outside the condition parity can fail: one step, price 1, strike 1, movement by 2, discount
factor 1/4. -/
theorem C105_needs_drift : ∃ (s0 k t r sigma q c p : ℝ) (n : ℕ),
    binomOptionPrice .call .european s0 k t r sigma q false n = .ok (some c) ∧
    binomOptionPrice .put .european s0 k t r sigma q false n = .ok (some p) ∧
    c - p ≠ s0 * Real.exp (-q * t) - k * Real.exp (-r * t) := by
  have hp : (7 / 3 : ℝ) * 2 + (1 - 7 / 3) * (1 / 2) = Real.exp (Real.log 4 - 0) := by
    rw [sub_zero, Real.exp_log (by norm_num)]; norm_num
  have hD : (1 / 4 : ℝ) = Real.exp (-Real.log 4) := by
    rw [Real.exp_neg, Real.exp_log (by norm_num)]; norm_num
  refine ⟨1, 1, (1 : ℕ), Real.log 4, Real.log 2, 0, _, _, 1,
    binom_example .call .european 1 1 (Real.log 4) 0 2 (1 / 2) (7 / 3) (1 / 4) 1 (by norm_num)
      (by norm_num) (by norm_num) hD hp (.inl rfl) (early := fun _ => 0) rfl,
    binom_example .put .european 1 1 (Real.log 4) 0 2 (1 / 2) (7 / 3) (1 / 4) 1 (by norm_num)
      (by norm_num) (by norm_num) hD hp (.inr rfl) (early := fun _ => 0) rfl, ?_⟩
  simp only [Nat.cast_one, mul_one, ← hD]
  norm_num [X, payoff, exercise, max_def]

/-! ## C106 -/

theorem X_no_early {tr : Tree} {pay : ℝ → ℝ} (hd : 0 ≤ tr.disc) (hp : 0 ≤ tr.p)
    (hp1 : tr.p ≤ 1) (hu : 0 ≤ tr.u) (hdn : 0 ≤ tr.d) (hpay : ∀ s : ℝ, 0 ≤ pay s)
    (hsub : ∀ s : ℝ, 0 ≤ s → pay s ≤ tr.disc * (tr.p * pay (s * tr.u) + (1 - tr.p) * pay (s * tr.d)))
    (m : ℕ) {s : ℝ} (hs : 0 ≤ s) :
    X tr pay pay m s = X tr pay (fun _ => 0) m s ∧ pay s ≤ X tr pay (fun _ => 0) m s := by
  induction m generalizing s with
  | zero => exact ⟨rfl, le_refl _⟩
  | succ m ih =>
    obtain ⟨h1, h2⟩ := ih (mul_nonneg hs hu)
    obtain ⟨h3, h4⟩ := ih (mul_nonneg hs hdn)
    have h5 := le_trans (hsub s hs) (mul_le_mul_of_nonneg_left (avg_mono hp hp1 h2 h4) hd)
    constructor
    · simp only [X]
      rw [h1, h3, max_eq_left h5, max_eq_left (le_trans (hpay s) h5)]
    · exact le_trans h5 (le_max_left _ _)

theorem no_early {ot : OptionType} {s0 k t r sigma q am eur : ℝ} {fut : Bool} {n : ℕ}
    (ha : binomOptionPrice ot .american s0 k t r sigma q fut n = .ok (some am))
    (he : binomOptionPrice ot .european s0 k t r sigma q fut n = .ok (some eur))
    (hd : DriftOk t r sigma (if fut then r else q) n) (hs : 0 ≤ s0)
    (hsub : ∀ tr : Tree, TreeOk tr t r sigma (if fut then r else q) n → 0 ≤ tr.p → tr.p ≤ 1 →
      ∀ s : ℝ, 0 ≤ s → payoff ot k s ≤
        tr.disc * (tr.p * payoff ot k (s * tr.u) + (1 - tr.p) * payoff ot k (s * tr.d))) : am = eur := by
  obtain ⟨m, tr, hnm, hm, ho, hok, ht, early, hea, rfl⟩ := binom_cases ha
  obtain ⟨m', tr', hnm', hm', ho', hok', ht', early', hee, rfl⟩ := binom_cases he
  obtain rfl : n = m := by exact_mod_cast hnm
  obtain rfl : n = m' := by exact_mod_cast hnm'
  rw [ht] at ht'
  obtain rfl : tr = tr' := by simpa using ht'
  obtain ⟨hp, hp1⟩ := hok.probability hd
  simp only [earlyValue, Option.some.injEq] at hea hee
  subst hea hee
  exact (X_no_early hok.disc_pos.le hp hp1 hok.u_pos.le hok.d_pos.le (payoff_nonneg ot k)
    (hsub tr hok hp hp1) n hs).1

/-- C106: without yield and with a rate that is not negative, an American call is worth as much as a
European one. -/
theorem C106_call {s0 k t r sigma q am eur : ℝ} {fut : Bool} {n : ℕ}
    (ha : binomOptionPrice .call .american s0 k t r sigma q fut n = .ok (some am))
    (he : binomOptionPrice .call .european s0 k t r sigma q fut n = .ok (some eur))
    (hd : DriftOk t r sigma (if fut then r else q) n) (hs : 0 ≤ s0) (hk : 0 ≤ k) (hr : 0 ≤ r)
    (hq : (if fut then r else q) = 0) : am = eur := by
  refine no_early ha he hd hs fun tr hok hp hp1 s _ => ?_
  have hpos : ∀ x : ℝ, 0 ≤ payoff .call k x := payoff_nonneg .call k
  have hge : ∀ x : ℝ, x - k ≤ payoff .call k x := fun x => by simp [payoff, exercise]
  have h0 : 0 ≤ tr.disc * (tr.p * payoff .call k (s * tr.u) + (1 - tr.p) * payoff .call k (s * tr.d)) :=
    mul_nonneg hok.disc_pos.le (add_nonneg (mul_nonneg hp (hpos _)) (mul_nonneg (by linarith) (hpos _)))
  have h1 := mul_le_mul_of_nonneg_left (avg_mono hp hp1 (hge (s * tr.u)) (hge (s * tr.d))) hok.disc_pos.le
  have h2 : tr.disc * (tr.p * tr.u + (1 - tr.p) * tr.d) = 1 := by rw [hok.disc_mean, hq]; simp
  have h3 : tr.disc * (tr.p * (s * tr.u - k) + (1 - tr.p) * (s * tr.d - k)) = s - tr.disc * k := by
    linear_combination s * h2
  have h4 : tr.disc ≤ 1 := by
    rw [hok.disc_eq, Real.exp_le_one_iff]
    have := mul_nonneg hr hok.dt_nonneg
    linarith
  have h5 := mul_le_mul_of_nonneg_right h4 hk
  exact max_le (by linarith) h0

/-- C106: without interest and with a yield that is not negative, an American put is worth as much as a
European one. -/
theorem C106_put {s0 k t sigma q am eur : ℝ} {fut : Bool} {n : ℕ}
    (ha : binomOptionPrice .put .american s0 k t 0 sigma q fut n = .ok (some am))
    (he : binomOptionPrice .put .european s0 k t 0 sigma q fut n = .ok (some eur))
    (hd : DriftOk t 0 sigma (if fut then 0 else q) n) (hs : 0 ≤ s0)
    (hq : 0 ≤ q) : am = eur := by
  refine no_early ha he hd hs fun tr hok hp hp1 s hs => ?_
  have hpos : ∀ x : ℝ, 0 ≤ payoff .put k x := payoff_nonneg .put k
  have hge : ∀ x : ℝ, k - x ≤ payoff .put k x := fun x => by simp [payoff, exercise]
  have h0 : 0 ≤ tr.disc * (tr.p * payoff .put k (s * tr.u) + (1 - tr.p) * payoff .put k (s * tr.d)) :=
    mul_nonneg hok.disc_pos.le (add_nonneg (mul_nonneg hp (hpos _)) (mul_nonneg (by linarith) (hpos _)))
  have h1 := mul_le_mul_of_nonneg_left (avg_mono hp hp1 (hge (s * tr.u)) (hge (s * tr.d))) hok.disc_pos.le
  have h2 : tr.disc * (tr.p * tr.u + (1 - tr.p) * tr.d) ≤ 1 := by
    rw [hok.disc_mean, Real.exp_le_one_iff]
    have : 0 ≤ (if fut = true then 0 else q) := by split <;> [exact le_refl _; exact hq]
    have := mul_nonneg this hok.dt_nonneg
    linarith
  have h4 : tr.disc = 1 := by rw [hok.disc_eq]; simp
  have h5 := mul_le_mul_of_nonneg_left h2 hs
  rw [h4] at h0 h1 h5 ⊢
  exact max_le (by linarith) h0

/-! ## C107 -/

/-- C107: without control variates the price is the binomial one; with them the binomial European price
is replaced by the Black-Scholes one, so the premium for early exercise stays the same, and is not
negative if the probability of the tree is one. -/
theorem C107_control_variates {ot : OptionType} {s0 k t r sigma q v am : ℝ} {fut : Bool} {n : ℕ}
    (h : binomAmOptionPrice ot s0 k t r sigma q fut n true = .ok (some v))
    (ha : binomAmOptionPrice ot s0 k t r sigma q fut n false = .ok (some am)) :
    binomOptionPrice ot .american s0 k t r sigma q fut n = .ok (some am) ∧
    ∃ eur bsm, binomOptionPrice ot .european s0 k t r sigma q fut n = .ok (some eur) ∧
      bsmOptionPrice ot s0 k r sigma t none q fut = .ok (some bsm) ∧
      v - am = bsm - eur ∧ v - bsm = am - eur ∧
      (DriftOk t r sigma (if fut then r else q) n → bsm ≤ v) := by
  have ha' : binomOptionPrice ot .american s0 k t r sigma q fut n = .ok (some am) := by
    unfold binomAmOptionPrice at ha
    cases hA : binomOptionPrice ot .american s0 k t r sigma q fut n with
    | error e => rw [hA] at ha; simp [py_bind_error] at ha
    | ok x => rw [hA] at ha; simpa [py_bind_ok, py_pure] using ha
  refine ⟨ha', ?_⟩
  unfold binomAmOptionPrice at h
  rw [ha', py_bind_ok, if_pos rfl] at h
  cases hE : binomOptionPrice ot .european s0 k t r sigma q fut n with
  | error e => rw [hE] at h; simp [py_bind_error] at h
  | ok x =>
    cases hB : bsmOptionPrice ot s0 k r sigma t none q fut with
    | error e => rw [hE, hB] at h; simp [py_bind_error, py_bind_ok] at h
    | ok b =>
      rw [hE, hB] at h
      simp only [py_bind_ok, py_pure, Except.ok.injEq] at h
      cases b with
      | none => simp at h
      | some b =>
        cases x with
        | none => simp at h
        | some x =>
          simp at h
          refine ⟨x, b, rfl, rfl, by linarith, by linarith, fun hd => ?_⟩
          have := C104_american_partial ha' hE hd
          linarith

end FinML.Options
