import Verif.Options.RateProps
import Verif.Options.ScaleProps
import Mathlib.Topology.Order.IntermediateValue
import Mathlib.Tactic.NormNum

/-!
# Property C336: volatility on the tree

A step of a wider tree spreads the same mean further.  As values are convex functions of the underlying, they rise.
-/

namespace FinML.Options

open Set

/-! ## One step -/

/-- A function is convex. -/
def Conv (f : ℝ → ℝ) : Prop :=
  ∀ w : ℝ, 0 ≤ w → w ≤ 1 → ∀ x y : ℝ, f (w * x + (1 - w) * y) ≤ w * f x + (1 - w) * f y

/-- Two moves with the same mean, one inside the other: the outer one has the larger expected value. -/
theorem spread_step {f : ℝ → ℝ} (hf : Conv f) {p u d p' u' d' : ℝ} (hp : 0 ≤ p) (hp1 : p ≤ 1) (hd : d' ≤ d)
    (hdu : d ≤ u) (hu : u ≤ u') (hlt : d' < u') (mean : p * u + (1 - p) * d = p' * u' + (1 - p') * d') (s : ℝ) :
    p * f (s * u) + (1 - p) * f (s * d) ≤ p' * f (s * u') + (1 - p') * f (s * d') := by
  have h0 : 0 < u' - d' := sub_pos.2 hlt
  have key : ∀ x : ℝ, d' ≤ x → x ≤ u' → f (s * x) ≤
      (x - d') / (u' - d') * f (s * u') + (1 - (x - d') / (u' - d')) * f (s * d') := by
    intro x h1 h2
    have h := hf ((x - d') / (u' - d')) (div_nonneg (by linarith) h0.le) ((div_le_one h0).2 (by linarith))
      (s * u') (s * d')
    have e : (x - d') / (u' - d') * (s * u') + (1 - (x - d') / (u' - d')) * (s * d') = s * x := by
      field_simp
      ring
    rwa [e] at h
  refine le_trans (avg_mono hp hp1 (key u (hd.trans hdu) hu) (key d hd (hdu.trans hu))) (le_of_eq ?_)
  have e : p * ((u - d') / (u' - d')) + (1 - p) * ((d - d') / (u' - d')) = p' := by
    have : p * (u - d') + (1 - p) * (d - d') = p' * (u' - d') := by linarith
    rw [mul_div_assoc', mul_div_assoc', ← add_div, this, mul_div_cancel_right₀ _ h0.ne']
  linear_combination (f (s * u') - f (s * d')) * e

/-- Values on a wider tree. -/
theorem X_spread {tr tr' : Tree} {pay early : ℝ → ℝ} (hdisc : tr'.disc = tr.disc) (hd : 0 ≤ tr.disc)
    (hp : 0 ≤ tr.p) (hp1 : tr.p ≤ 1) (hp' : 0 ≤ tr'.p) (hp1' : tr'.p ≤ 1) (h1 : tr'.d ≤ tr.d) (h2 : tr.d ≤ tr.u)
    (h3 : tr.u ≤ tr'.u) (hlt : tr'.d < tr'.u)
    (mean : tr.p * tr.u + (1 - tr.p) * tr.d = tr'.p * tr'.u + (1 - tr'.p) * tr'.d)
    (hpay : Conv pay) (he : Conv early) (m : ℕ) (s : ℝ) : X tr pay early m s ≤ X tr' pay early m s := by
  induction m generalizing s with
  | zero => exact le_rfl
  | succ m ih =>
    simp only [X, hdisc]
    refine max_le_max (mul_le_mul_of_nonneg_left ?_ hd) le_rfl
    refine le_trans (avg_mono hp hp1 (ih _) (ih _)) ?_
    refine spread_step (fun w hw hw1 x y => ?_) hp hp1 h1 h2 h3 hlt mean s
    exact X_convex (hdisc ▸ hd) hp' hp1' hw hw1 (hpay w hw hw1) (he w hw hw1) m x y

theorem payoff_conv (ot : OptionType) (k : ℝ) : Conv (payoff ot k) := by
  intro w hw hw1 x y
  have := payoff_convex ot hw hw1 k k x y
  rwa [show w * k + (1 - w) * k = k by ring] at this

theorem early_conv {ot style : OptionType} {k : ℝ} {e : ℝ → ℝ} (h : earlyValue ot style k = some e) : Conv e := by
  rcases early_cases h with rfl | rfl
  · exact payoff_conv ot k
  · intro w hw hw1 x y
    simp

theorem TreeOk.wider {tr tr' : Tree} {t r sigma sigma' q : ℝ} {n : ℕ} (h : TreeOk tr t r sigma q n)
    (h' : TreeOk tr' t r sigma' q n) (hs : sigma ≤ sigma') : tr.u ≤ tr'.u ∧ tr'.d ≤ tr.d := by
  have hu : tr.u ≤ tr'.u := by
    rw [h.u_eq, h'.u_eq, h.dt_eq, h'.dt_eq]
    exact Real.exp_le_exp.2 (mul_le_mul_of_nonneg_right hs (Real.sqrt_nonneg _))
  refine ⟨hu, ?_⟩
  by_contra hc
  have h1 := mul_lt_mul'' (lt_of_le_of_ne hu fun e => ?_) (not_le.1 hc) h.u_pos.le h.d_pos.le
  · rw [h.ud, h'.ud] at h1
    exact lt_irrefl _ h1
  · have a := h.ud
    have b := h'.ud
    rw [e] at a
    exact absurd (mul_left_cancel₀ h'.u_pos.ne' (a.trans b.symm)) (ne_of_lt (not_le.1 hc))

/-- The drift condition of a volatility is that of every larger one. -/
theorem DriftOk.mono {t r sigma sigma' q : ℝ} {n : ℕ} (h : DriftOk t r sigma q n) (hs : sigma ≤ sigma') :
    DriftOk t r sigma' q n := le_trans h hs

theorem DriftOk.nonneg {t r sigma q : ℝ} {n : ℕ} (h : DriftOk t r sigma q n) : 0 ≤ sigma :=
  le_trans (mul_nonneg (abs_nonneg _) (Real.sqrt_nonneg _)) h

/-- C336.  A higher volatility never lowers the price of an option on the tree: call or put, American or European,
on an asset with a yield or on a futures, with any number of steps, whenever the lower volatility is large enough for
the probability of the tree to be one. -/
theorem C336_monotone {ot style : OptionType} {s0 k t r sigma sigma' q v v' : ℝ} {fut : Bool} {n : ℕ}
    (hd : DriftOk t r sigma (if fut then r else q) n) (hs : sigma ≤ sigma')
    (hv : binomOptionPrice ot style s0 k t r sigma q fut n = .ok (some v))
    (hv' : binomOptionPrice ot style s0 k t r sigma' q fut n = .ok (some v')) : v ≤ v' := by
  obtain ⟨m, tr, hm, -, -, ok, -, e, he, rfl⟩ := binom_cases hv
  obtain ⟨m', tr', hm', -, -, ok', -, e', he', rfl⟩ := binom_cases hv'
  obtain rfl : n = m := by exact_mod_cast hm
  obtain rfl : n = m' := by exact_mod_cast hm'
  obtain rfl := Option.some.inj (he.symm.trans he')
  have hd' := hd.mono hs
  obtain ⟨hp, hp1⟩ := ok.probability hd
  obtain ⟨hp', hp1'⟩ := ok'.probability hd'
  obtain ⟨hu, hdn⟩ := ok.wider ok' hs
  exact X_spread (by rw [ok.disc_eq, ok'.disc_eq, ok.dt_eq, ok'.dt_eq]) ok.disc_pos.le hp hp1 hp' hp1' hdn
    (ok.d_lt hd.nonneg).le hu (ok'.d_lt hd'.nonneg)
    (by rw [ok.mean, ok'.mean, ok.dt_eq, ok'.dt_eq]) (payoff_conv ot k) (early_conv he) n s0

/-- The hypotheses of `C336_monotone` are met by 20% and 30% volatility, a rate of 4% and two steps. -/
example : DriftOk 2 (1 / 25) (1 / 5) 0 2 ∧ (1 / 5 : ℝ) ≤ 3 / 10 ∧
    (∃ v, binomOptionPrice .put .american 100 90 2 (1 / 25) (1 / 5) 0 false (2 : ℕ) = .ok (some v)) ∧
    ∃ v, binomOptionPrice .put .american 100 90 2 (1 / 25) (3 / 10) 0 false (2 : ℕ) = .ok (some v) := by
  refine ⟨by simp [DriftOk]; norm_num [abs_of_pos], by norm_num, ?_, ?_⟩
  all_goals
    rw [C103_defined]
    norm_num

/-- C336: the condition is needed.  One step, price 1, strike 1/2, rate log 4: with a movement by 2 the call is worth
7/8, with a movement by 5/2 it is worth 6/7. -/
theorem C336_needs_drift : ∃ (s0 k t r sigma sigma' c c' : ℝ) (n : ℕ), 0 < sigma ∧ sigma < sigma' ∧
    binomOptionPrice .call .european s0 k t r sigma 0 false n = .ok (some c) ∧
    binomOptionPrice .call .european s0 k t r sigma' 0 false n = .ok (some c') ∧ c' < c := by
  have hp : (7 / 3 : ℝ) * 2 + (1 - 7 / 3) * (1 / 2) = Real.exp (Real.log 4 - 0) := by
    rw [sub_zero, Real.exp_log (by norm_num)]; norm_num
  have hp' : (12 / 7 : ℝ) * (5 / 2) + (1 - 12 / 7) * (2 / 5) = Real.exp (Real.log 4 - 0) := by
    rw [sub_zero, Real.exp_log (by norm_num)]; norm_num
  have hD : (1 / 4 : ℝ) = Real.exp (-Real.log 4) := by
    rw [Real.exp_neg, Real.exp_log (by norm_num)]; norm_num
  refine ⟨1, 1 / 2, (1 : ℕ), Real.log 4, Real.log 2, Real.log (5 / 2), _, _, 1, Real.log_pos (by norm_num),
    Real.log_lt_log (by norm_num) (by norm_num),
    binom_example .call .european 1 (1 / 2) (Real.log 4) 0 2 (1 / 2) (7 / 3) (1 / 4) 1 (by norm_num)
      (by norm_num) (by norm_num) hD hp (.inl rfl) (early := fun _ => 0) rfl,
    binom_example .call .european 1 (1 / 2) (Real.log 4) 0 (5 / 2) (2 / 5) (12 / 7) (1 / 4) 1 (by norm_num)
      (by norm_num) (by norm_num) hD hp' (.inl rfl) (early := fun _ => 0) rfl, ?_⟩
  norm_num [X, payoff, exercise, max_def]

/-! ## Options that do not feel the volatility -/

theorem X_put_zero {tr : Tree} {k : ℝ} (hu : tr.d ≤ tr.u) (hd : 0 < tr.d) (m : ℕ) (s : ℝ) (hs : 0 ≤ s)
    (h : k ≤ s * tr.d ^ m) : X tr (payoff .put k) (fun _ => 0) m s = 0 := by
  induction m generalizing s with
  | zero =>
    simp only [X, payoff, exercise, Option.getD_some]
    exact max_eq_right (by simpa using h)
  | succ m ih =>
    have hd0 := hd.le
    have h1 : k ≤ s * tr.d * tr.d ^ m := by rw [mul_assoc, ← pow_succ']; exact h
    have h2 : s * tr.d * tr.d ^ m ≤ s * tr.u * tr.d ^ m :=
      mul_le_mul_of_nonneg_right (mul_le_mul_of_nonneg_left hu hs) (pow_nonneg hd0 _)
    simp only [X]
    rw [ih _ (mul_nonneg hs hd0) h1, ih _ (mul_nonneg hs (hd0.trans hu)) (h1.trans h2)]
    simp

/-- C336.  A European call whose strike is below the lowest price of the tree is worth the discounted difference of
forward and strike, whatever the volatility: prices on a tree do not determine the volatility. -/
theorem C336_flat {s0 k t r sigma q v : ℝ} {fut : Bool} {n : ℕ} (hd : DriftOk t r sigma (if fut then r else q) n)
    (hs : 0 ≤ s0) (hk : k ≤ s0 * Real.exp (-(sigma * √(t / n))) ^ n)
    (hv : binomOptionPrice .call .european s0 k t r sigma q fut n = .ok (some v)) :
    v = s0 * Real.exp (-(if fut then r else q) * t) - k * Real.exp (-r * t) := by
  obtain ⟨m, tr, hm, hm0, -, ok, htr, e, he, -⟩ := binom_cases hv
  obtain rfl : n = m := by exact_mod_cast hm
  have hdn : tr.d = Real.exp (-(sigma * √(t / n))) := by
    rw [Real.exp_neg, ← ok.dt_eq, ← ok.u_eq]
    exact eq_inv_of_mul_eq_one_right ok.ud
  have hput := binom_ok (ot := .put) (style := .european) (s0 := s0) (k := k) (fut := fut) hm0 (.inr rfl)
    (early := fun _ => 0) rfl htr
  rw [X_put_zero (ok.d_lt hd.nonneg).le ok.d_pos n s0 hs (by rw [hdn]; exact hk)] at hput
  have := C105_parity hv hput hd
  rwa [sub_zero] at this

/-- The hypotheses of `C336_flat` are met by two volatilities at once: one step, price 2, strike 1/2, rate 0,
movements by 2 and by 3. -/
example : (∀ u : ℝ, u = 2 ∨ u = 3 → DriftOk 1 0 (Real.log u) 0 1 ∧
    1 / 2 ≤ 2 * Real.exp (-(Real.log u * √(1 / (1 : ℕ)))) ^ 1 ∧
    ∃ v, binomOptionPrice .call .european 2 (1 / 2) 1 0 (Real.log u) 0 false (1 : ℕ) = .ok (some v)) := by
  intro u hu
  have h1 : 1 < u := by rcases hu with rfl | rfl <;> norm_num
  have hl := Real.log_pos h1
  refine ⟨by simp [DriftOk]; exact hl.le, ?_, ?_⟩
  · simp only [Nat.cast_one, div_one, Real.sqrt_one, mul_one, pow_one, Real.exp_neg, Real.exp_log (by linarith : 0 < u)]
    rcases hu with rfl | rfl <;> norm_num
  · rw [C103_defined]
    simp [hl.ne']

/-! ## Implied volatilities -/

/-- The tree as a function of the volatility. -/
noncomputable def treeAt (t r q : ℝ) (n : ℕ) (sigma : ℝ) : Tree :=
  let u := Real.exp (sigma * √(t / n))
  ⟨t / n, u, 1 / u, (Real.exp ((r - q) * (t / n)) - 1 / u) / (u - 1 / u), Real.exp (-r * (t / n))⟩

theorem mkTree_treeAt {t r q sigma : ℝ} {n : ℕ} (hn : 0 < n) (ht : 0 < t) (hs : 0 < sigma) :
    mkTree t r sigma q n = some (treeAt t r q n sigma) := by
  obtain ⟨tr, h⟩ := (mkTree_isSome (r := r) (q := q) hn).2 ⟨ht, hs.ne'⟩
  rw [h]
  unfold mkTree at h
  simp only at h
  split at h
  · exact absurd h (by simp)
  · exact h.symm

theorem X_continuousOn {T : ℝ → Tree} {S : Set ℝ} {pay early : ℝ → ℝ} (hpay : Continuous pay)
    (he : Continuous early) (hu : ContinuousOn (fun x => (T x).u) S) (hd : ContinuousOn (fun x => (T x).d) S)
    (hp : ContinuousOn (fun x => (T x).p) S) (hD : ContinuousOn (fun x => (T x).disc) S) (m : ℕ) (s : ℝ → ℝ)
    (hs : ContinuousOn s S) : ContinuousOn (fun x => X (T x) pay early m (s x)) S := by
  induction m generalizing s with
  | zero => exact hpay.comp_continuousOn hs
  | succ m ih =>
    simp only [X]
    have h1 := ih (fun x => s x * (T x).u) (hs.mul hu)
    have h2 := ih (fun x => s x * (T x).d) (hs.mul hd)
    exact ContinuousOn.sup (hD.mul ((hp.mul h1).add ((continuousOn_const.sub hp).mul h2))) (he.comp_continuousOn hs)

theorem payoff_continuous (ot : OptionType) (k : ℝ) : Continuous (payoff ot k) := by
  have h : payoff ot k = fun s => (exercise ot s k).getD 0 := rfl
  rw [h]
  cases ot <;> simp only [exercise, Option.getD_some, Option.getD_none] <;> fun_prop

theorem early_continuous {ot style : OptionType} {k : ℝ} {e : ℝ → ℝ} (h : earlyValue ot style k = some e) :
    Continuous e := by
  rcases early_cases h with rfl | rfl
  · exact payoff_continuous ot k
  · exact continuous_const

/-- C336.  `implied_volatility` with the tree as the pricing function rejects exactly the prices that no volatility of
the bracket gives, and what it returns is close to a volatility that gives the price. -/
theorem C336_implied {brentq : (ℝ → Py (Option ℝ)) → ℝ → ℝ → ℕ → Py ℝ} {xtol rtol : ℝ}
    (hB : BrentOk brentq xtol rtol) {ot style : OptionType} (ho : ot = .call ∨ ot = .put)
    (hst : style = .american ∨ style = .european)
    {s0 k r t q observed lo hi : ℝ} {fut : Bool} {maxiter n : ℕ} (hn : 0 < n) (ht : 0 < t) (hlo : 0 < lo)
    (hd : DriftOk t r lo (if fut then r else q) n) (hlh : lo < hi)
    {iv : Py ℝ} (hiv : iv = impliedVolatility brentq observed
      (fun sigma => binomOptionPrice ot style s0 k t r sigma q fut n) lo hi maxiter) :
    (iv = .error .valueError ↔
      ¬ ∃ sigma ∈ Icc lo hi, binomOptionPrice ot style s0 k t r sigma q fut n = .ok (some observed)) ∧
    (∀ x, iv = .ok x → ∃ sigma ∈ Icc lo hi, |x - sigma| ≤ xtol + rtol * sigma ∧
      binomOptionPrice ot style s0 k t r sigma q fut n = .ok (some observed)) ∧
    (∀ e, iv = .error e → e = .valueError ∨ e = .runtimeError) := by
  obtain ⟨early, he⟩ : ∃ e, earlyValue ot style k = some e := by
    rcases hst with rfl | rfl <;> exact ⟨_, rfl⟩
  set Q := yieldUsed q r fut with hQ
  set P : ℝ → ℝ := fun x => X (treeAt t r Q n x) (payoff ot k) early n s0 with hP
  have hc : ∀ x : ℝ, 0 < x → binomOptionPrice ot style s0 k t r x q fut n = .ok (some (P x)) := fun x hx =>
    binom_ok hn ho he (mkTree_treeAt hn ht hx)
  have hm : ∀ x ∈ Icc lo hi, ∀ y ∈ Icc lo hi, x ≤ y → P x ≤ P y := fun x hx y hy hxy =>
    C336_monotone (hd.mono hx.1) hxy (hc x (hlo.trans_le hx.1)) (hc y (hlo.trans_le hy.1))
  have hdt : 0 < √(t / n) := Real.sqrt_pos.2 (div_pos ht (by exact_mod_cast hn))
  have hcont : ContinuousOn P (Icc lo hi) := by
    have hu : Continuous fun x : ℝ => Real.exp (x * √(t / n)) := by fun_prop
    have hdn : Continuous fun x : ℝ => 1 / Real.exp (x * √(t / n)) :=
      continuous_const.div hu fun x => (Real.exp_pos _).ne'
    refine X_continuousOn (T := treeAt t r Q n) (payoff_continuous ot k) (early_continuous he) hu.continuousOn
      hdn.continuousOn ?_ continuousOn_const n (fun _ => s0) continuousOn_const
    refine ContinuousOn.div (continuousOn_const.sub hdn.continuousOn) (hu.sub hdn).continuousOn fun x hx => ?_
    have hx0 : 0 < x * √(t / n) := mul_pos (hlo.trans_le hx.1) hdt
    have h1 : 1 < Real.exp (x * √(t / n)) := Real.one_lt_exp_iff.2 hx0
    have h2 : 1 / Real.exp (x * √(t / n)) < 1 := (div_lt_one (Real.exp_pos _)).2 h1
    linarith
  set g : ℝ → ℝ := fun x => P x - observed with hg
  set f : ℝ → Py (Option ℝ) := fun sigma => (binomOptionPrice ot style s0 k t r sigma q fut n).map
    fun p => p.map fun x => x - observed with hf
  have hfg : ∀ x ∈ Icc lo hi, f x = .ok (some (g x)) := by
    intro x hx
    simp only [hf]
    rw [hc x (hlo.trans_le hx.1)]
    rfl
  have hgc : ContinuousOn g (Icc lo hi) := hcont.sub continuousOn_const
  have hroot : ∀ z ∈ Icc lo hi, (g z = 0 ↔ binomOptionPrice ot style s0 k t r z q fut n = .ok (some observed)) := by
    intro z hz
    rw [hc z (hlo.trans_le hz.1)]
    simp only [hg, sub_eq_zero, Except.ok.injEq, Option.some.injEq]
  have hiv' : iv = brentq f lo hi maxiter := hiv
  have hL : lo ∈ Icc lo hi := ⟨le_refl _, hlh.le⟩
  have hH : hi ∈ Icc lo hi := ⟨hlh.le, le_refl _⟩
  have hiff : (∃ sigma ∈ Icc lo hi, binomOptionPrice ot style s0 k t r sigma q fut n = .ok (some observed)) ↔
      g lo * g hi ≤ 0 := by
    have hgm : ∀ x ∈ Icc lo hi, ∀ y ∈ Icc lo hi, x ≤ y → g x ≤ g y := fun x hx y hy hxy =>
      sub_le_sub_right (hm x hx y hy hxy) _
    constructor
    · rintro ⟨z, hz, hzv⟩
      have hgz := (hroot z hz).2 hzv
      have h1 := hgm lo hL z hz hz.1
      have h2 := hgm z hz hi hH hz.2
      rw [hgz] at h1 h2
      exact mul_nonpos_of_nonpos_of_nonneg h1 h2
    · intro h
      have hle := hgm lo hL hi hH hlh.le
      have h12 : g lo ≤ 0 ∧ 0 ≤ g hi := by
        constructor
        · by_contra hn
          have := mul_pos (not_le.1 hn) (lt_of_lt_of_le (not_le.1 hn) hle)
          linarith
        · by_contra hn
          have := mul_pos_of_neg_of_neg (lt_of_le_of_lt hle (not_le.1 hn)) (not_le.1 hn)
          linarith
      obtain ⟨z, hz, hgz⟩ := intermediate_value_Icc hlh.le hgc h12
      exact ⟨z, hz, (hroot z hz).1 hgz⟩
  rw [hiff, not_le, hiv']
  rcases lt_or_ge 0 (g lo * g hi) with h | h
  · have := hB.same_sign f g lo hi maxiter hlh hfg h
    rw [this]
    exact ⟨⟨fun _ => h, fun _ => rfl⟩, fun x hx => by simp at hx, fun e he => by simp at he; exact .inl he.symm⟩
  · rcases hB.root f g lo hi maxiter hlh hfg hgc h with h1 | ⟨x, h1, z, hz, hgz, hxz⟩
    · rw [h1]
      exact ⟨⟨fun h => by simp at h, fun h' => absurd h' (not_lt.2 h)⟩, fun x hx => by simp at hx,
        fun e he => by simp at he; exact .inr he.symm⟩
    · rw [h1]
      refine ⟨⟨fun h => by simp at h, fun h' => absurd h' (not_lt.2 h)⟩, fun y hy => ?_, fun e he => by simp at he⟩
      obtain rfl : x = y := by simpa using hy
      refine ⟨z, hz, ?_, (hroot z hz).1 hgz⟩
      rwa [abs_of_pos (lt_of_lt_of_le hlo hz.1)] at hxz

/-- The hypotheses of `C336_implied` are met by the default bracket from 1% to 100%, a hundred steps, one year and a
rate of 4%. -/
example : DriftOk 1 (1 / 25) (1 / 100) 0 100 ∧ (1 / 100 : ℝ) < 1 := by
  refine ⟨?_, by norm_num⟩
  have h : √((1 : ℝ) / (100 : ℕ)) = 1 / 10 := by
    rw [show (1 : ℝ) / (100 : ℕ) = (1 / 10) ^ 2 by norm_num, Real.sqrt_sq (by norm_num)]
  unfold DriftOk
  rw [h, sub_zero, abs_of_pos (by norm_num)]
  norm_num

end FinML.Options
