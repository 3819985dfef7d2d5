import Verif.Options.BsmProps
import Verif.Options.BinomProps
import Verif.Options.ScaleProps
import Verif.Options.ExpiryProps

/-! # Property C247: an option moves no more than the asset it is written on -/

namespace FinML.Options

/-! ## Black–Scholes–Merton -/

/-- C247, the formula: when the spot rises, a call gains and a put loses, and either by less than the rise
discounted at the yield. -/
theorem C247_bsm {s0 s0' k r sigma t q c c' p p' : ℝ} {divs : Option (List (ℝ × ℝ))} {fut : Bool}
    (h0 : pv r divs < s0) (h : s0 < s0') (hk : 0 < k) (hs : 0 < sigma) (ht : 0 < t)
    (hc : bsmOptionPrice .call s0 k r sigma t divs q fut = .ok (some c))
    (hc' : bsmOptionPrice .call s0' k r sigma t divs q fut = .ok (some c'))
    (hp : bsmOptionPrice .put s0 k r sigma t divs q fut = .ok (some p))
    (hp' : bsmOptionPrice .put s0' k r sigma t divs q fut = .ok (some p')) :
    (0 < c' - c ∧ c' - c < (s0' - s0) * Real.exp (-((if fut then r else q) * t))) ∧
      (0 < p - p' ∧ p - p' < (s0' - s0) * Real.exp (-((if fut then r else q) * t))) := by
  have e1 := C108_parity hc hp
  have e2 := C108_parity hc' hp'
  obtain ⟨-, -, h1⟩ := call_cases hc
  obtain ⟨-, -, h2⟩ := call_cases hc'
  rw [bsmCall_eq (by linarith) hk hs ht] at h1
  rw [bsmCall_eq (by linarith) hk hs ht] at h2
  have he : 0 < Real.exp (-(if fut then r else q) * t) := Real.exp_pos _
  have hb := bs_left (a := (s0 - pv r divs) * Real.exp (-(if fut then r else q) * t))
    (a' := (s0' - pv r divs) * Real.exp (-(if fut then r else q) * t))
    (mul_pos (by linarith) he) (mul_pos hk (Real.exp_pos (-r * t)))
    (mul_pos hs (Real.sqrt_pos.2 ht)) (mul_lt_mul_of_pos_right (by linarith) he)
  rw [← Option.some.inj h1, ← Option.some.inj h2, neg_mul] at hb
  obtain ⟨hb1, hb2⟩ := hb
  refine ⟨⟨hb1, by linarith⟩, ?_, ?_⟩ <;> nlinarith

/-! ## The binomial tree -/

/-- One step of the tree keeps a bound on the slope. -/
theorem step_lip {tr : Tree} (hd : 0 ≤ tr.disc) (hp : 0 ≤ tr.p) (hp1 : tr.p ≤ 1) (hu : 0 ≤ tr.u)
    (hdn : 0 ≤ tr.d) {f : ℝ → ℝ} {g : ℝ} (hf : ∀ s s' : ℝ, f s ≤ f s' + |s' - s| * g) (s s' : ℝ) :
    tr.disc * (tr.p * f (s * tr.u) + (1 - tr.p) * f (s * tr.d)) ≤
      tr.disc * (tr.p * f (s' * tr.u) + (1 - tr.p) * f (s' * tr.d)) +
        |s' - s| * (g * (tr.disc * (tr.p * tr.u + (1 - tr.p) * tr.d))) := by
  have h1 := hf (s * tr.u) (s' * tr.u)
  have h2 := hf (s * tr.d) (s' * tr.d)
  rw [← sub_mul, abs_mul, abs_of_nonneg hu] at h1
  rw [← sub_mul, abs_mul, abs_of_nonneg hdn] at h2
  have h3 := mul_le_mul_of_nonneg_left (avg_mono hp hp1 h1 h2) hd
  refine h3.trans (le_of_eq ?_)
  ring

theorem X_lip_european {tr : Tree} (hd : 0 ≤ tr.disc) (hp : 0 ≤ tr.p) (hp1 : tr.p ≤ 1) (hu : 0 ≤ tr.u)
    (hdn : 0 ≤ tr.d) {pay : ℝ → ℝ} (hf : ∀ s s' : ℝ, pay s ≤ pay s' + |s' - s|) (m : ℕ) :
    ∀ s s' : ℝ, X tr pay (fun _ => 0) m s ≤ X tr pay (fun _ => 0) m s' +
      |s' - s| * (tr.disc * (tr.p * tr.u + (1 - tr.p) * tr.d)) ^ m := by
  have hg : 0 ≤ tr.disc * (tr.p * tr.u + (1 - tr.p) * tr.d) :=
    mul_nonneg hd (add_nonneg (mul_nonneg hp hu) (mul_nonneg (by linarith) hdn))
  induction m with
  | zero => intro s s'; simpa [X] using hf s s'
  | succ m ih =>
    intro s s'
    have h := step_lip hd hp hp1 hu hdn ih s s'
    simp only [X]
    rw [pow_succ]
    refine max_le (h.trans (add_le_add (le_max_left _ _) le_rfl)) ?_
    exact add_nonneg (le_max_right _ _) (mul_nonneg (abs_nonneg _) (mul_nonneg (pow_nonneg hg m) hg))

theorem X_lip_american {tr : Tree} (hd : 0 ≤ tr.disc) (hp : 0 ≤ tr.p) (hp1 : tr.p ≤ 1) (hu : 0 ≤ tr.u)
    (hdn : 0 ≤ tr.d) (hg : tr.disc * (tr.p * tr.u + (1 - tr.p) * tr.d) ≤ 1) {pay : ℝ → ℝ}
    (hf : ∀ s s' : ℝ, pay s ≤ pay s' + |s' - s|) (m : ℕ) :
    ∀ s s' : ℝ, X tr pay pay m s ≤ X tr pay pay m s' + |s' - s| := by
  induction m with
  | zero => exact hf
  | succ m ih =>
    intro s s'
    have h := step_lip hd hp hp1 hu hdn (g := 1) (fun s s' => by rw [mul_one]; exact ih s s') s s'
    rw [one_mul] at h
    have h4 := mul_le_mul_of_nonneg_left hg (abs_nonneg (s' - s))
    simp only [X]
    refine max_le (h.trans (add_le_add (le_max_left _ _) (by linarith))) ?_
    exact (hf s s').trans (add_le_add (le_max_right _ _) le_rfl)

theorem payoff_lip {ot : OptionType} (k : ℝ) (hot : ot = .call ∨ ot = .put) (s s' : ℝ) :
    payoff ot k s ≤ payoff ot k s' + |s' - s| := by
  have h1 := le_abs_self (s' - s)
  have h2 := neg_abs_le (s' - s)
  rcases hot with rfl | rfl <;> simp only [payoff, exercise, Option.getD_some] <;> refine max_le ?_ ?_
  · have := le_max_left (s' - k) 0; linarith
  · have := le_max_right (s' - k) 0; have := abs_nonneg (s' - s); linarith
  · have := le_max_left (k - s') 0; linarith
  · have := le_max_right (k - s') 0; have := abs_nonneg (s' - s); linarith

/-- C247, the tree, for either type: two spots give European prices no further apart than the spots
discounted at the yield, and American ones no further apart than the spots if the yield is not negative.
The direction of the change is `C170_binom_spot`. -/
theorem C247_binom {ot style : OptionType} {s0 s0' k t r sigma q v v' : ℝ} {fut : Bool} {n : ℕ}
    (hd : DriftOk t r sigma (yieldUsed q r fut) n)
    (hv : binomOptionPrice ot style s0 k t r sigma q fut n = .ok (some v))
    (hv' : binomOptionPrice ot style s0' k t r sigma q fut n = .ok (some v')) :
    (style = .european → |v' - v| ≤ |s0' - s0| * Real.exp (-(yieldUsed q r fut * t))) ∧
      (style = .american → 0 ≤ yieldUsed q r fut → |v' - v| ≤ |s0' - s0|) := by
  obtain ⟨m, tr, hm, hm0, hot, ok, ht, e1, he1, rfl⟩ := binom_cases hv
  obtain ⟨m', tr', hm', -, -, -, ht', e2, he2, rfl⟩ := binom_cases hv'
  obtain rfl : n = m := by exact_mod_cast hm
  obtain rfl : n = m' := by exact_mod_cast hm'
  obtain rfl := Option.some.inj (ht.symm.trans ht')
  obtain rfl := Option.some.inj (he1.symm.trans he2)
  obtain ⟨h0, h1⟩ := ok.probability hd
  have hl := payoff_lip k hot
  cases style <;> simp only [earlyValue, Option.some.injEq, reduceCtorEq] at he1
  · subst he1
    refine ⟨fun h => absurd h (by simp), fun _ hq => ?_⟩
    have hg : tr.disc * (tr.p * tr.u + (1 - tr.p) * tr.d) ≤ 1 := by
      rw [ok.disc_mean, Real.exp_le_one_iff]
      have := mul_nonneg hq ok.dt_nonneg
      linarith
    have hx := X_lip_american ok.disc_pos.le h0 h1 ok.u_pos.le ok.d_pos.le hg hl n
    have a := hx s0 s0'
    have b := hx s0' s0
    rw [abs_sub_comm s0] at b
    rw [abs_le]
    constructor <;> linarith
  · subst he1
    refine ⟨fun _ => ?_, fun h => absurd h (by simp)⟩
    have hx := X_lip_european ok.disc_pos.le h0 h1 ok.u_pos.le ok.d_pos.le hl n
    rw [mul_pow, ok.disc_mean_pow hm0, neg_mul] at hx
    have a := hx s0 s0'
    have b := hx s0' s0
    rw [abs_sub_comm s0] at b
    rw [abs_le]
    constructor <;> linarith

/-- The theorems above apply: a call on an asset at 100 and at 110, and American puts on a tree of one step,
struck at 10, on an asset at 1 and at 2. -/
example : ∃ c c' p p' : ℝ, bsmOptionPrice .call 100 90 0.02 0.3 1 none 0.01 false = .ok (some c) ∧
    bsmOptionPrice .call 110 90 0.02 0.3 1 none 0.01 false = .ok (some c') ∧
    bsmOptionPrice .put 100 90 0.02 0.3 1 none 0.01 false = .ok (some p) ∧
    bsmOptionPrice .put 110 90 0.02 0.3 1 none 0.01 false = .ok (some p') ∧ 0 < c' - c ∧ 0 < p - p' := by
  have e : ∀ s : ℝ, 0 < s → ∃ c p : ℝ, bsmOptionPrice .call s 90 0.02 0.3 1 none 0.01 false = .ok (some c) ∧
      bsmOptionPrice .put s 90 0.02 0.3 1 none 0.01 false = .ok (some p) := fun s hs =>
    ⟨_, _, by rw [call_ok (.inl rfl) (by norm_num), bsmCall_eq (by simpa [pv] using hs) (by norm_num) (by norm_num) (by norm_num)],
      by rw [put_ok (.inl rfl) (by norm_num), bsmPut_eq, bsmCall_eq (by simpa [pv] using hs) (by norm_num) (by norm_num) (by norm_num)]; rfl⟩
  obtain ⟨c, p, hc, hp⟩ := e 100 (by norm_num)
  obtain ⟨c', p', hc', hp'⟩ := e 110 (by norm_num)
  have h := C247_bsm (by norm_num [pv]) (by norm_num) (by norm_num) (by norm_num) (by norm_num) hc hc' hp hp'
  exact ⟨c, c', p, p', hc, hc', hp, hp', h.1.1, h.2.1⟩

example : ∃ v v' : ℝ, binomOptionPrice .put .american 2 10 (1 : ℕ) (Real.log (5 / 4)) (Real.log 2) 0 false (1 : ℕ) =
      .ok (some v) ∧
    binomOptionPrice .put .american 1 10 (1 : ℕ) (Real.log (5 / 4)) (Real.log 2) 0 false (1 : ℕ) = .ok (some v') ∧
    |v' - v| ≤ |(1 : ℝ) - 2| := by
  have hp : (1 / 2 : ℝ) * 2 + (1 - 1 / 2) * (1 / 2) = Real.exp (Real.log (5 / 4) - 0) := by
    rw [sub_zero, Real.exp_log (by norm_num)]; norm_num
  have hD : (4 / 5 : ℝ) = Real.exp (-Real.log (5 / 4)) := by
    rw [Real.exp_neg, Real.exp_log (by norm_num)]; norm_num
  have hr : 0 ≤ Real.log (5 / 4) := Real.log_nonneg (by norm_num)
  have hd : DriftOk ((1 : ℕ) : ℝ) (Real.log (5 / 4)) (Real.log 2) (yieldUsed 0 (Real.log (5 / 4)) false) 1 := by
    unfold DriftOk yieldUsed
    have : Real.log (5 / 4) ≤ Real.log 2 := Real.log_le_log (by norm_num) (by norm_num)
    simpa [abs_of_nonneg hr] using this
  have h := binom_example .put .american 2 10 (Real.log (5 / 4)) 0 2 (1 / 2) (1 / 2) (4 / 5) 1 (by norm_num)
      (by norm_num) (by norm_num) hD hp (.inr rfl) (early := payoff .put 10) rfl
  have h' := binom_example .put .american 1 10 (Real.log (5 / 4)) 0 2 (1 / 2) (1 / 2) (4 / 5) 1 (by norm_num)
      (by norm_num) (by norm_num) hD hp (.inr rfl) (early := payoff .put 10) rfl
  exact ⟨_, _, h, h', (C247_binom hd h h').2 rfl (by simp [yieldUsed])⟩

end FinML.Options
