import Verif.Options.BsmProps
import Verif.Options.BinomProps
import Mathlib.Analysis.Convex.Deriv

/-!
# C170: option prices under a change of currency, and across strikes and spots
-/

namespace FinML.Options

/-! ## Change of currency -/

theorem divsPresent_scale (c r : ℝ) (l : List (ℝ × ℝ)) :
    divsPresent r (l.map fun v => (c * v.1, v.2)) = c * divsPresent r l := by
  unfold divsPresent
  induction l with
  | nil => simp
  | cons v l ih =>
    simp only [List.map_cons, List.sum_cons] at ih ⊢
    rw [ih]
    ring

theorem spotLess_scale (c s0 r : ℝ) (divs : Option (List (ℝ × ℝ))) :
    spotLess (c * s0) r (divs.map (List.map fun v => (c * v.1, v.2))) = c * spotLess s0 r divs := by
  cases divs with
  | none => rfl
  | some l =>
    simp only [Option.map_some, spotLess, divsPresent_scale]
    ring

theorem bsmD1_scale {c : ℝ} (hc : 0 < c) (s0 k r sigma t q : ℝ) :
    bsmD1 (c * s0) (c * k) r sigma t q = bsmD1 s0 k r sigma t q := by
  unfold bsmD1 logRatio
  rw [mul_div_mul_left _ _ hc.ne']
  simp only [mul_eq_zero, hc.ne', false_or, mul_pos_iff_of_pos_left hc]

/-- C170.  Quote the underlying, the strike and the dividends in another currency: the
Black-Scholes-Merton price is converted, and errors and NaN stay. -/
theorem C170_bsm_units (ot : OptionType) {c : ℝ} (hc : 0 < c) (s0 k r sigma t : ℝ)
    (divs : Option (List (ℝ × ℝ))) (q : ℝ) (fut : Bool) :
    bsmOptionPrice ot (c * s0) (c * k) r sigma t (divs.map (List.map fun v => (c * v.1, v.2))) q fut =
      (bsmOptionPrice ot s0 k r sigma t divs q fut).map (Option.map fun x => c * x) := by
  unfold bsmOptionPrice
  rw [Option.isSome_map, spotLess_scale]
  split
  · rfl
  · have hg : (divs.map (List.map fun v : ℝ × ℝ => (c * v.1, v.2))).getD [] = [] ↔ divs.getD [] = [] := by
      cases divs <;> simp
    have hck : c * k = 0 ↔ k = 0 := by simp [hc.ne']
    by_cases hk : k = 0 ∧ divs.getD [] = []
    · rw [if_pos hk, if_pos (by rw [hck, hg]; exact hk)]; rfl
    · rw [if_neg hk, if_neg (by rw [hck, hg]; exact hk)]
      cases ot <;> simp only [Except.map]
      · congr 1
        unfold bsmCall bsmD2
        rw [bsmD1_scale hc]
        cases (bsmD1 (spotLess s0 r divs) k r sigma t (yieldUsed q r fut)).cdf with
        | none => rfl
        | some a =>
          cases ((bsmD1 (spotLess s0 r divs) k r sigma t (yieldUsed q r fut)).add
              (-(sigma * √t))).cdf with
          | none => rfl
          | some b =>
            simp only [Option.bind_eq_bind, Option.bind_some, Option.pure_def, Option.map_some,
              Option.some.injEq]
            ring
      · congr 1
        unfold bsmPut bsmD2
        rw [bsmD1_scale hc]
        cases (bsmD1 (spotLess s0 r divs) k r sigma t (yieldUsed q r fut)).neg.cdf with
        | none => rfl
        | some a =>
          cases ((bsmD1 (spotLess s0 r divs) k r sigma t (yieldUsed q r fut)).add
              (-(sigma * √t))).neg.cdf with
          | none => rfl
          | some b =>
            simp only [Option.bind_eq_bind, Option.bind_some, Option.pure_def, Option.map_some,
              Option.some.injEq]
            ring

theorem payoff_scale (ot : OptionType) {c : ℝ} (hc : 0 < c) (k s : ℝ) :
    payoff ot (c * k) (c * s) = c * payoff ot k s := by
  cases ot <;> simp only [payoff, exercise, Option.getD_some, Option.getD_none, mul_zero] <;>
    rw [← mul_sub, mul_max_of_nonneg _ _ hc.le, mul_zero]

theorem X_scale {tr : Tree} {pay pay' early early' : ℝ → ℝ} {c : ℝ} (hc : 0 < c)
    (hp : ∀ s : ℝ, pay' (c * s) = c * pay s) (he : ∀ s : ℝ, early' (c * s) = c * early s) (m : ℕ) (s : ℝ) :
    X tr pay' early' m (c * s) = c * X tr pay early m s := by
  induction m generalizing s with
  | zero => exact hp s
  | succ m ih =>
    simp only [X]
    rw [he, mul_assoc c, mul_assoc c, ih, ih, mul_max_of_nonneg _ _ hc.le]
    congr 1
    ring

/-- C170.  The same for the binomial price, of both exercise styles. -/
theorem C170_binom_units (ot style : OptionType) {c : ℝ} (hc : 0 < c) (s0 k t r sigma q : ℝ) (fut : Bool)
    (n : ℤ) :
    binomOptionPrice ot style (c * s0) (c * k) t r sigma q fut n =
      (binomOptionPrice ot style s0 k t r sigma q fut n).map (Option.map fun x => c * x) := by
  unfold binomOptionPrice
  by_cases h0 : n = 0
  · rw [if_pos h0, if_pos h0]; rfl
  · rw [if_neg h0, if_neg h0]
    by_cases h1 : n < 0
    · rw [if_pos h1, if_pos h1]; rfl
    · rw [if_neg h1, if_neg h1]
      have hx : (exercise ot (c * s0) (c * k)).isNone = (exercise ot s0 k).isNone := by
        cases ot <;> rfl
      rw [hx]
      split
      · rfl
      · cases mkTree t r sigma (yieldUsed q r fut) n.toNat with
        | none => cases style <;> rfl
        | some tr =>
          cases style <;> simp only [earlyValue, Except.map, Option.map_some, tree_value]
          · rw [X_scale hc (payoff_scale ot hc k) (payoff_scale ot hc k)]
          · rw [X_scale hc (payoff_scale ot hc k) (fun _ => (mul_zero c).symm)]

/-- C170.  The same for the American price with or without control variates. -/
theorem C170_binom_am_units (ot : OptionType) {c : ℝ} (hc : 0 < c) (s0 k t r sigma q : ℝ) (fut : Bool)
    (n : ℤ) (cv : Bool) :
    binomAmOptionPrice ot (c * s0) (c * k) t r sigma q fut n cv =
      (binomAmOptionPrice ot s0 k t r sigma q fut n cv).map (Option.map fun x => c * x) := by
  unfold binomAmOptionPrice
  have hb := C170_bsm_units ot hc s0 k r sigma t none q fut
  rw [Option.map_none] at hb
  rw [C170_binom_units ot .american hc, C170_binom_units ot .european hc, hb]
  generalize binomOptionPrice ot .american s0 k t r sigma q fut n = a
  generalize binomOptionPrice ot .european s0 k t r sigma q fut n = e
  generalize bsmOptionPrice ot s0 k r sigma t none q fut = b
  cases a with
  | error x => rfl
  | ok a =>
    cases cv with
    | false => rfl
    | true =>
      cases e with
      | error x => rfl
      | ok e =>
        cases b with
        | error x => rfl
        | ok b =>
          show Except.ok _ = Except.ok _
          congr 1
          cases a <;> cases b <;> cases e <;> try rfl
          next a b e =>
          show some _ = some _
          congr 1
          ring

/-! ## Strikes, Black-Scholes-Merton -/

theorem bs_strictConvex {a s : ℝ} (ha : 0 < a) (hs : 0 < s) :
    StrictConvexOn ℝ (Set.Ioi 0) fun b => bs a b s := by
  apply StrictMonoOn.strictConvexOn_of_deriv (convex_Ioi 0)
  · intro b hb
    exact (bs_hasDerivAt_right ha hb hs).continuousAt.continuousWithinAt
  · rw [interior_Ioi]
    intro x hx y hy hxy
    rw [(bs_hasDerivAt_right ha hx hs).deriv, (bs_hasDerivAt_right ha hy hs).deriv]
    apply neg_lt_neg
    apply normCdf_strictMono
    have hx' : (0 : ℝ) < x := hx
    have : Real.log (a / y) < Real.log (a / x) := Real.log_lt_log (div_pos ha hy)
      (div_lt_div_of_pos_left ha hx' hxy)
    have := div_lt_div_of_pos_right this hs
    linarith

theorem bs_spread {a s b b' : ℝ} (ha : 0 < a) (hs : 0 < s) (hb : 0 < b) (h : b < b') :
    0 < bs a b s - bs a b' s ∧ bs a b s - bs a b' s < b' - b := by
  obtain ⟨z, hz, he⟩ := exists_hasDerivAt_eq_slope (fun b => bs a b s)
    (fun b => -normCdf (Real.log (a / b) / s - s / 2)) h
    (fun x hx => (bs_hasDerivAt_right ha (lt_of_lt_of_le hb hx.1) hs).continuousAt.continuousWithinAt)
    (fun x hx => bs_hasDerivAt_right ha (hb.trans hx.1) hs)
  have h1 := normCdf_pos (Real.log (a / z) / s - s / 2)
  have h2 := normCdf_lt_one (Real.log (a / z) / s - s / 2)
  have hd : 0 < b' - b := sub_pos.2 h
  rw [eq_div_iff hd.ne'] at he
  constructor <;> nlinarith

/-- C170.  Two strikes: the call on the lower strike is dearer, by less than the present value of the
difference of the strikes. -/
theorem C170_call_spread {s0 k k' r sigma t q c c' : ℝ} {divs : Option (List (ℝ × ℝ))} {fut : Bool}
    (hs0 : pv r divs < s0) (hk : 0 < k) (hkk : k < k') (hs : 0 < sigma) (ht : 0 < t)
    (hc : bsmOptionPrice .call s0 k r sigma t divs q fut = .ok (some c))
    (hc' : bsmOptionPrice .call s0 k' r sigma t divs q fut = .ok (some c')) :
    0 < c - c' ∧ c - c' < (k' - k) * Real.exp (-(r * t)) := by
  obtain ⟨-, -, h⟩ := call_cases hc
  obtain ⟨-, -, h'⟩ := call_cases hc'
  rw [bsmCall_eq (sub_pos.2 hs0) hk hs ht, Option.some.injEq] at h
  rw [bsmCall_eq (sub_pos.2 hs0) (hk.trans hkk) hs ht, Option.some.injEq] at h'
  have he := Real.exp_pos (-r * t)
  have := bs_spread (mul_pos (sub_pos.2 hs0) (Real.exp_pos (-(if fut then r else q) * t)))
    (mul_pos hs (Real.sqrt_pos.2 ht)) (mul_pos hk he) (mul_lt_mul_of_pos_right hkk he)
  rw [← h, ← h'] at this
  rw [← neg_mul]
  exact ⟨this.1, by linarith [this.2]⟩

theorem call_of_put {s0 k r sigma t q p : ℝ} {divs : Option (List (ℝ × ℝ))} {fut : Bool}
    (h : bsmOptionPrice .put s0 k r sigma t divs q fut = .ok (some p)) :
    ∃ c, bsmOptionPrice .call s0 k r sigma t divs q fut = .ok (some c) ∧
      p = c - ((s0 - pv r divs) * Real.exp (-((if fut then r else q) * t)) - k * Real.exp (-(r * t))) := by
  have h0 := h
  unfold bsmOptionPrice at h
  split at h
  · exact absurd h (by simp)
  · next h1 =>
    split at h
    · exact absurd h (by simp)
    · next h2 =>
      simp only [Except.ok.injEq] at h
      rw [bsmPut_eq, Option.map_eq_some_iff] at h
      obtain ⟨c, hc, -⟩ := h
      have : bsmOptionPrice .call s0 k r sigma t divs q fut = .ok (some c) := by
        unfold bsmOptionPrice
        rw [if_neg h1, if_neg h2]
        simp only [hc]
      exact ⟨c, this, by linarith [C108_parity this h0]⟩

/-- C170.  Two strikes: the put on the higher strike is dearer, by less than the present value of the
difference of the strikes. -/
theorem C170_put_spread {s0 k k' r sigma t q p p' : ℝ} {divs : Option (List (ℝ × ℝ))} {fut : Bool}
    (hs0 : pv r divs < s0) (hk : 0 < k) (hkk : k < k') (hs : 0 < sigma) (ht : 0 < t)
    (hp : bsmOptionPrice .put s0 k r sigma t divs q fut = .ok (some p))
    (hp' : bsmOptionPrice .put s0 k' r sigma t divs q fut = .ok (some p')) :
    0 < p' - p ∧ p' - p < (k' - k) * Real.exp (-(r * t)) := by
  obtain ⟨c, hc, e⟩ := call_of_put hp
  obtain ⟨c', hc', e'⟩ := call_of_put hp'
  have := C170_call_spread hs0 hk hkk hs ht hc hc'
  rw [e, e']
  constructor
  · nlinarith [this.2]
  · nlinarith [this.1]

/-- C170.  A butterfly, that is the excess of two outer options over one in the middle, costs something,
for calls and for puts. -/
theorem C170_butterfly {ot : OptionType} {s0 k k' w r sigma t q v v' b : ℝ}
    {divs : Option (List (ℝ × ℝ))} {fut : Bool}
    (hs0 : pv r divs < s0) (hk : 0 < k) (hkk : k < k') (hw : 0 < w) (hw1 : w < 1) (hs : 0 < sigma)
    (ht : 0 < t)
    (hv : bsmOptionPrice ot s0 k r sigma t divs q fut = .ok (some v))
    (hv' : bsmOptionPrice ot s0 k' r sigma t divs q fut = .ok (some v'))
    (hb : bsmOptionPrice ot s0 (w * k + (1 - w) * k') r sigma t divs q fut = .ok (some b)) :
    b < w * v + (1 - w) * v' := by
  have hm : 0 < w * k + (1 - w) * k' :=
    add_pos (mul_pos hw hk) (mul_pos (sub_pos.2 hw1) (hk.trans hkk))
  have key : ∀ {v v' b : ℝ}, bsmOptionPrice .call s0 k r sigma t divs q fut = .ok (some v) →
      bsmOptionPrice .call s0 k' r sigma t divs q fut = .ok (some v') →
      bsmOptionPrice .call s0 (w * k + (1 - w) * k') r sigma t divs q fut = .ok (some b) →
      b < w * v + (1 - w) * v' := by
    intro v v' b hv hv' hb
    obtain ⟨-, -, h⟩ := call_cases hv
    obtain ⟨-, -, h'⟩ := call_cases hv'
    obtain ⟨-, -, h''⟩ := call_cases hb
    rw [bsmCall_eq (sub_pos.2 hs0) hk hs ht, Option.some.injEq] at h
    rw [bsmCall_eq (sub_pos.2 hs0) (hk.trans hkk) hs ht, Option.some.injEq] at h'
    rw [bsmCall_eq (sub_pos.2 hs0) hm hs ht, Option.some.injEq] at h''
    have he := Real.exp_pos (-r * t)
    have := (bs_strictConvex (mul_pos (sub_pos.2 hs0) (Real.exp_pos (-(if fut then r else q) * t)))
      (mul_pos hs (Real.sqrt_pos.2 ht))).2 (mul_pos hk he : _ ∈ Set.Ioi (0:ℝ))
      (mul_pos (hk.trans hkk) he : _ ∈ Set.Ioi (0:ℝ)) (mul_lt_mul_of_pos_right hkk he).ne hw
      (sub_pos.2 hw1) (by ring)
    simp only [smul_eq_mul] at this
    rw [← h, ← h', ← mul_assoc, ← mul_assoc, ← add_mul, ← h''] at this
    exact this
  cases ot with
  | call => exact key hv hv' hb
  | put =>
    obtain ⟨c, hc, e⟩ := call_of_put hv
    obtain ⟨c', hc', e'⟩ := call_of_put hv'
    obtain ⟨c'', hc'', e''⟩ := call_of_put hb
    have := key hc hc' hc''
    rw [e, e', e'']
    nlinarith
  | american => unfold bsmOptionPrice at hv; split at hv <;> [skip; split at hv] <;> simp at hv
  | european => unfold bsmOptionPrice at hv; split at hv <;> [skip; split at hv] <;> simp at hv

/-! ## Strikes and spots on the tree -/

theorem X_le_of_le {tr : Tree} {pay pay' early early' : ℝ → ℝ} (hd : 0 ≤ tr.disc) (hp : 0 ≤ tr.p)
    (hp1 : tr.p ≤ 1) (hpay : ∀ s : ℝ, pay s ≤ pay' s) (he : ∀ s : ℝ, early s ≤ early' s) (m : ℕ) (s : ℝ) :
    X tr pay early m s ≤ X tr pay' early' m s := by
  induction m generalizing s with
  | zero => exact hpay s
  | succ m ih =>
    exact max_le_max (mul_le_mul_of_nonneg_left (avg_mono hp hp1 (ih _) (ih _)) hd) (he s)

/-- A payoff higher by at most `b` is worth at most `b` more, if discounting shrinks. -/
theorem X_le_add {tr : Tree} {pay pay' early early' : ℝ → ℝ} (hd : 0 ≤ tr.disc) (hd1 : tr.disc ≤ 1)
    (hp : 0 ≤ tr.p) (hp1 : tr.p ≤ 1) {b : ℝ} (hb : 0 ≤ b) (hpay : ∀ s : ℝ, pay' s ≤ pay s + b)
    (he : ∀ s : ℝ, early' s ≤ early s + b) (m : ℕ) (s : ℝ) :
    X tr pay' early' m s ≤ X tr pay early m s + b := by
  induction m generalizing s with
  | zero => exact hpay s
  | succ m ih =>
    simp only [X]
    apply max_le
    · refine le_trans ?_ (add_le_add_left (le_max_left _ _) b)
      have h1 := avg_mono hp hp1 (ih (s * tr.u)) (ih (s * tr.d))
      have h2 := mul_le_mul_of_nonneg_left h1 hd
      refine le_trans h2 ?_
      have : tr.disc * b ≤ b := mul_le_of_le_one_left hb hd1
      nlinarith
    · exact le_trans (he s) (add_le_add_left (le_max_right _ _) b)

/-- The same for European exercise, whatever the sign of the rate: the difference is discounted. -/
theorem X_eur_le_add {tr : Tree} {pay pay' : ℝ → ℝ} (hd : 0 ≤ tr.disc) (hp : 0 ≤ tr.p)
    (hp1 : tr.p ≤ 1) {b : ℝ} (hb : 0 ≤ b) (hpay : ∀ s : ℝ, pay' s ≤ pay s + b) (m : ℕ) (s : ℝ) :
    X tr pay' (fun _ => 0) m s ≤ X tr pay (fun _ => 0) m s + tr.disc ^ m * b := by
  induction m generalizing s with
  | zero => simpa [X] using hpay s
  | succ m ih =>
    simp only [X]
    apply max_le
    · refine le_trans ?_ (add_le_add_left (le_max_left _ _) _)
      have h1 := avg_mono hp hp1 (ih (s * tr.u)) (ih (s * tr.d))
      have h2 := mul_le_mul_of_nonneg_left h1 hd
      refine le_trans h2 (le_of_eq ?_)
      ring
    · exact add_nonneg (le_max_right _ _) (mul_nonneg (pow_nonneg hd _) hb)

/-- Values are convex along any segment of (strike, spot) along which payoffs are. -/
theorem X_convex {tr : Tree} {pay pay' pay'' early early' early'' : ℝ → ℝ} (hd : 0 ≤ tr.disc)
    (hp : 0 ≤ tr.p) (hp1 : tr.p ≤ 1) {w : ℝ} (hw : 0 ≤ w) (hw1 : w ≤ 1)
    (hpay : ∀ s s' : ℝ, pay'' (w * s + (1 - w) * s') ≤ w * pay s + (1 - w) * pay' s')
    (he : ∀ s s' : ℝ, early'' (w * s + (1 - w) * s') ≤ w * early s + (1 - w) * early' s')
    (m : ℕ) (s s' : ℝ) :
    X tr pay'' early'' m (w * s + (1 - w) * s') ≤
      w * X tr pay early m s + (1 - w) * X tr pay' early' m s' := by
  induction m generalizing s s' with
  | zero => exact hpay s s'
  | succ m ih =>
    simp only [X]
    have hw2 : 0 ≤ 1 - w := sub_nonneg.2 hw1
    apply max_le
    · have e1 : (w * s + (1 - w) * s') * tr.u = w * (s * tr.u) + (1 - w) * (s' * tr.u) := by ring
      have e2 : (w * s + (1 - w) * s') * tr.d = w * (s * tr.d) + (1 - w) * (s' * tr.d) := by ring
      rw [e1, e2]
      refine le_trans (mul_le_mul_of_nonneg_left (avg_mono hp hp1 (ih (s * tr.u) (s' * tr.u))
        (ih (s * tr.d) (s' * tr.d))) hd) ?_
      refine le_trans (le_of_eq ?_) (add_le_add
        (mul_le_mul_of_nonneg_left (le_max_left (tr.disc * (tr.p * X tr pay early m (s * tr.u) +
          (1 - tr.p) * X tr pay early m (s * tr.d))) (early s)) hw)
        (mul_le_mul_of_nonneg_left (le_max_left (tr.disc * (tr.p * X tr pay' early' m (s' * tr.u) +
          (1 - tr.p) * X tr pay' early' m (s' * tr.d))) (early' s')) hw2))
      ring
    · exact le_trans (he s s') (add_le_add (mul_le_mul_of_nonneg_left (le_max_right _ _) hw)
        (mul_le_mul_of_nonneg_left (le_max_right _ _) hw2))

theorem payoff_convex (ot : OptionType) {w : ℝ} (hw : 0 ≤ w) (hw1 : w ≤ 1) (k k' s s' : ℝ) :
    payoff ot (w * k + (1 - w) * k') (w * s + (1 - w) * s') ≤
      w * payoff ot k s + (1 - w) * payoff ot k' s' := by
  have hw2 : 0 ≤ 1 - w := sub_nonneg.2 hw1
  cases ot <;> simp only [payoff, exercise, Option.getD_some, Option.getD_none, mul_zero, add_zero, le_refl]
  · apply max_le
    · have h1 := mul_le_mul_of_nonneg_left (le_max_left (s - k) 0) hw
      have h2 := mul_le_mul_of_nonneg_left (le_max_left (s' - k') 0) hw2
      linarith
    · exact add_nonneg (mul_nonneg hw (le_max_right _ _)) (mul_nonneg hw2 (le_max_right _ _))
  · apply max_le
    · have h1 := mul_le_mul_of_nonneg_left (le_max_left (k - s) 0) hw
      have h2 := mul_le_mul_of_nonneg_left (le_max_left (k' - s') 0) hw2
      linarith
    · exact add_nonneg (mul_nonneg hw (le_max_right _ _)) (mul_nonneg hw2 (le_max_right _ _))

/-- C170.  On the tree, a mixture of two positions (spot and strike) is worth at most the mixture of
their values: convexity in the strike, in the spot, and in both together; European and American. -/
theorem C170_binom_convex {ot style : OptionType} {s0 s0' k k' w t r sigma q v v' b : ℝ} {fut : Bool}
    {n : ℕ} (hd : DriftOk t r sigma (yieldUsed q r fut) n) (hw : 0 ≤ w) (hw1 : w ≤ 1)
    (hv : binomOptionPrice ot style s0 k t r sigma q fut n = .ok (some v))
    (hv' : binomOptionPrice ot style s0' k' t r sigma q fut n = .ok (some v'))
    (hb : binomOptionPrice ot style (w * s0 + (1 - w) * s0') (w * k + (1 - w) * k') t r sigma q fut n =
      .ok (some b)) :
    b ≤ w * v + (1 - w) * v' := by
  obtain ⟨m, tr, hm, -, -, ok, ht, e, he, rfl⟩ := binom_cases hv
  obtain ⟨m', tr', hm', -, -, -, ht', e', he', rfl⟩ := binom_cases hv'
  obtain ⟨m'', tr'', hm'', -, -, -, ht'', e'', he'', rfl⟩ := binom_cases hb
  obtain rfl : n = m := by exact_mod_cast hm
  obtain rfl : n = m' := by exact_mod_cast hm'
  obtain rfl : n = m'' := by exact_mod_cast hm''
  obtain rfl := Option.some.inj (ht.symm.trans ht')
  obtain rfl := Option.some.inj (ht.symm.trans ht'')
  obtain ⟨hp, hp1⟩ := ok.probability hd
  apply X_convex ok.disc_pos.le hp hp1 hw hw1 (payoff_convex ot hw hw1 k k')
  cases style <;> simp only [earlyValue, Option.some.injEq, reduceCtorEq] at he he' he''
  · subst he he' he''
    exact payoff_convex ot hw hw1 k k'
  · subst he he' he''
    intro s s'
    simp

theorem call_strike {k k' : ℝ} (h : k ≤ k') (s : ℝ) :
    payoff .call k' s ≤ payoff .call k s ∧ payoff .call k s ≤ payoff .call k' s + (k' - k) := by
  simp only [payoff, exercise, Option.getD_some]
  refine ⟨max_le_max (by linarith) le_rfl, max_le ?_ ?_⟩
  · have := le_max_left (s - k') 0; linarith
  · have := le_max_right (s - k') 0; linarith

theorem put_strike {k k' : ℝ} (h : k ≤ k') (s : ℝ) :
    payoff .put k s ≤ payoff .put k' s ∧ payoff .put k' s ≤ payoff .put k s + (k' - k) := by
  simp only [payoff, exercise, Option.getD_some]
  refine ⟨max_le_max (by linarith) le_rfl, max_le ?_ ?_⟩
  · have := le_max_left (k - s) 0; linarith
  · have := le_max_right (k - s) 0; linarith

/-- C170.  Two strikes on the tree.  The call falls and the put rises with the strike; European prices
differ by at most the discounted difference of the strikes, American prices, if the rate is not negative,
by at most the difference. -/
theorem C170_binom_spread {style : OptionType} {s0 k k' t r sigma q c c' p p' : ℝ} {fut : Bool}
    {n : ℕ} (hd : DriftOk t r sigma (yieldUsed q r fut) n) (hk : k ≤ k')
    (hc : binomOptionPrice .call style s0 k t r sigma q fut n = .ok (some c))
    (hc' : binomOptionPrice .call style s0 k' t r sigma q fut n = .ok (some c'))
    (hp : binomOptionPrice .put style s0 k t r sigma q fut n = .ok (some p))
    (hp' : binomOptionPrice .put style s0 k' t r sigma q fut n = .ok (some p')) :
    c' ≤ c ∧ p ≤ p' ∧
    (style = .european → c - c' ≤ (k' - k) * Real.exp (-(r * t)) ∧ p' - p ≤ (k' - k) * Real.exp (-(r * t))) ∧
    (style = .american → 0 ≤ r → c - c' ≤ k' - k ∧ p' - p ≤ k' - k) := by
  obtain ⟨m, tr, hm, hm0, -, ok, ht, e1, he1, rfl⟩ := binom_cases hc
  obtain ⟨m', tr', hm', -, -, -, ht', e2, he2, rfl⟩ := binom_cases hc'
  obtain ⟨m'', tr'', hm'', -, -, -, ht'', e3, he3, rfl⟩ := binom_cases hp
  obtain ⟨m''', tr''', hm''', -, -, -, ht''', e4, he4, rfl⟩ := binom_cases hp'
  obtain rfl : n = m := by exact_mod_cast hm
  obtain rfl : n = m' := by exact_mod_cast hm'
  obtain rfl : n = m'' := by exact_mod_cast hm''
  obtain rfl : n = m''' := by exact_mod_cast hm'''
  obtain rfl := Option.some.inj (ht.symm.trans ht')
  obtain rfl := Option.some.inj (ht.symm.trans ht'')
  obtain rfl := Option.some.inj (ht.symm.trans ht''')
  obtain ⟨h0, h1⟩ := ok.probability hd
  have hdp := ok.disc_pos.le
  have hkk : 0 ≤ k' - k := sub_nonneg.2 hk
  have hn : (0 : ℝ) < n := by exact_mod_cast hm0
  have hpow : tr.disc ^ n = Real.exp (-(r * t)) := by
    rw [ok.disc_eq, ok.dt_eq, ← Real.exp_nat_mul]
    congr 1
    field_simp
  cases style <;> simp only [earlyValue, Option.some.injEq, reduceCtorEq] at he1 he2 he3 he4
  · subst he1 he2 he3 he4
    refine ⟨X_le_of_le hdp h0 h1 (fun s => (call_strike hk s).1) (fun s => (call_strike hk s).1) _ _,
      X_le_of_le hdp h0 h1 (fun s => (put_strike hk s).1) (fun s => (put_strike hk s).1) _ _,
      fun h => absurd h (by simp), fun _ hr => ?_⟩
    have hd1 : tr.disc ≤ 1 := by
      rw [ok.disc_eq, Real.exp_le_one_iff]
      have := mul_nonneg hr ok.dt_nonneg
      linarith
    have a := X_le_add hdp hd1 h0 h1 hkk (fun s => (call_strike hk s).2) (fun s => (call_strike hk s).2) n s0
    have b := X_le_add hdp hd1 h0 h1 hkk (fun s => (put_strike hk s).2) (fun s => (put_strike hk s).2) n s0
    constructor <;> linarith
  · subst he1 he2 he3 he4
    refine ⟨X_le_of_le hdp h0 h1 (fun s => (call_strike hk s).1) (fun _ => le_rfl) _ _,
      X_le_of_le hdp h0 h1 (fun s => (put_strike hk s).1) (fun _ => le_rfl) _ _,
      fun _ => ?_, fun h => absurd h (by simp)⟩
    have a := X_eur_le_add hdp h0 h1 hkk (fun s => (call_strike hk s).2) n s0
    have b := X_eur_le_add hdp h0 h1 hkk (fun s => (put_strike hk s).2) n s0
    rw [hpow] at a b
    constructor <;> linarith

theorem X_monotone {tr : Tree} {pay early : ℝ → ℝ} (hd : 0 ≤ tr.disc) (hp : 0 ≤ tr.p)
    (hp1 : tr.p ≤ 1) (hu : 0 ≤ tr.u) (hdn : 0 ≤ tr.d) (hpay : Monotone pay) (he : Monotone early) (m : ℕ) :
    Monotone (X tr pay early m) := by
  induction m with
  | zero => exact hpay
  | succ m ih =>
    intro s s' h
    exact max_le_max (mul_le_mul_of_nonneg_left (avg_mono hp hp1
      (ih (mul_le_mul_of_nonneg_right h hu)) (ih (mul_le_mul_of_nonneg_right h hdn))) hd) (he h)

theorem X_antitone {tr : Tree} {pay early : ℝ → ℝ} (hd : 0 ≤ tr.disc) (hp : 0 ≤ tr.p)
    (hp1 : tr.p ≤ 1) (hu : 0 ≤ tr.u) (hdn : 0 ≤ tr.d) (hpay : Antitone pay) (he : Antitone early) (m : ℕ) :
    Antitone (X tr pay early m) := by
  induction m with
  | zero => exact hpay
  | succ m ih =>
    intro s s' h
    exact max_le_max (mul_le_mul_of_nonneg_left (avg_mono hp hp1
      (ih (mul_le_mul_of_nonneg_right h hu)) (ih (mul_le_mul_of_nonneg_right h hdn))) hd) (he h)

/-- C170.  On the tree the call rises and the put falls with the price of the underlying. -/
theorem C170_binom_spot {style : OptionType} {s0 s0' k t r sigma q c c' p p' : ℝ} {fut : Bool}
    {n : ℕ} (hd : DriftOk t r sigma (yieldUsed q r fut) n) (hs : s0 ≤ s0')
    (hc : binomOptionPrice .call style s0 k t r sigma q fut n = .ok (some c))
    (hc' : binomOptionPrice .call style s0' k t r sigma q fut n = .ok (some c'))
    (hp : binomOptionPrice .put style s0 k t r sigma q fut n = .ok (some p))
    (hp' : binomOptionPrice .put style s0' k t r sigma q fut n = .ok (some p')) :
    c ≤ c' ∧ p' ≤ p := by
  obtain ⟨m, tr, hm, hm0, -, ok, ht, e1, he1, rfl⟩ := binom_cases hc
  obtain ⟨m', tr', hm', -, -, -, ht', e2, he2, rfl⟩ := binom_cases hc'
  obtain ⟨m'', tr'', hm'', -, -, -, ht'', e3, he3, rfl⟩ := binom_cases hp
  obtain ⟨m''', tr''', hm''', -, -, -, ht''', e4, he4, rfl⟩ := binom_cases hp'
  obtain rfl : n = m := by exact_mod_cast hm
  obtain rfl : n = m' := by exact_mod_cast hm'
  obtain rfl : n = m'' := by exact_mod_cast hm''
  obtain rfl : n = m''' := by exact_mod_cast hm'''
  obtain rfl := Option.some.inj (ht.symm.trans ht')
  obtain rfl := Option.some.inj (ht.symm.trans ht'')
  obtain rfl := Option.some.inj (ht.symm.trans ht''')
  obtain rfl := Option.some.inj (he1.symm.trans he2)
  obtain rfl := Option.some.inj (he3.symm.trans he4)
  obtain ⟨h0, h1⟩ := ok.probability hd
  have mc : Monotone (payoff .call k) := fun a b h => by
    simp only [payoff, exercise, Option.getD_some]; exact max_le_max (by linarith) le_rfl
  have mp : Antitone (payoff .put k) := fun a b h => by
    simp only [payoff, exercise, Option.getD_some]; exact max_le_max (by linarith) le_rfl
  cases style <;> simp only [earlyValue, Option.some.injEq, reduceCtorEq] at he1 he3
  · subst he1 he3
    exact ⟨X_monotone ok.disc_pos.le h0 h1 ok.u_pos.le ok.d_pos.le mc mc n hs,
      X_antitone ok.disc_pos.le h0 h1 ok.u_pos.le ok.d_pos.le mp mp n hs⟩
  · subst he1 he3
    exact ⟨X_monotone ok.disc_pos.le h0 h1 ok.u_pos.le ok.d_pos.le mc (fun _ _ _ => le_rfl) n hs,
      X_antitone ok.disc_pos.le h0 h1 ok.u_pos.le ok.d_pos.le mp (fun _ _ _ => le_rfl) n hs⟩

/-- The theorems above apply to any positive spot, strikes, volatility and time. -/
example : ∃ c c' b : ℝ, bsmOptionPrice .call 100 90 0.02 0.3 1 none 0.01 false = .ok (some c) ∧
    bsmOptionPrice .call 100 110 0.02 0.3 1 none 0.01 false = .ok (some c') ∧
    bsmOptionPrice .call 100 (1 / 2 * 90 + (1 - 1 / 2) * 110) 0.02 0.3 1 none 0.01 false = .ok (some b) ∧
    c' < c ∧ b < 1 / 2 * c + (1 - 1 / 2) * c' := by
  obtain ⟨c, hc⟩ : ∃ c, bsmOptionPrice .call 100 90 0.02 0.3 1 none 0.01 false = .ok (some c) :=
    ⟨_, by rw [call_ok (.inl rfl) (by norm_num), bsmCall_eq (by norm_num [pv]) (by norm_num) (by norm_num) (by norm_num)]⟩
  obtain ⟨c', hc'⟩ : ∃ c, bsmOptionPrice .call 100 110 0.02 0.3 1 none 0.01 false = .ok (some c) :=
    ⟨_, by rw [call_ok (.inl rfl) (by norm_num), bsmCall_eq (by norm_num [pv]) (by norm_num) (by norm_num) (by norm_num)]⟩
  obtain ⟨b, hb⟩ : ∃ c, bsmOptionPrice .call 100 (1 / 2 * 90 + (1 - 1 / 2) * 110) 0.02 0.3 1 none 0.01 false =
      .ok (some c) :=
    ⟨_, by rw [call_ok (.inl rfl) (by norm_num), bsmCall_eq (by norm_num [pv]) (by norm_num) (by norm_num) (by norm_num)]⟩
  refine ⟨c, c', b, hc, hc', hb, ?_, ?_⟩
  · have := (C170_call_spread (by norm_num [pv]) (by norm_num) (by norm_num) (by norm_num) (by norm_num) hc hc').1
    linarith
  · exact C170_butterfly (by norm_num [pv]) (by norm_num) (by norm_num) (by norm_num) (by norm_num) (by norm_num)
      (by norm_num) hc hc' hb

example : DriftOk 1 0.02 0.3 (yieldUsed 0.01 0.02 false) 1 := by
  unfold DriftOk yieldUsed
  norm_num

end FinML.Options
