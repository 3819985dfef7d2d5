import Verif.Options.BsmLemmas
import Verif.Py.Lemmas
import Mathlib.Probability.Distributions.Gaussian.Real

/-!
# Black-Scholes prices, implied volatility, return distributions and forward rates:
C108, C109, C110, C112, C113, C142
-/

namespace FinML.Options

open Set MeasureTheory ProbabilityTheory

/-! ## C108 -/

/-- The present value of dividends. -/
noncomputable def pv (r : ℝ) : Option (List (ℝ × ℝ)) → ℝ
  | none => 0
  | some l => (l.map fun v : ℝ × ℝ => v.1 * Real.exp (-(r * v.2))).sum

theorem spotLess_eq (s0 r : ℝ) (divs : Option (List (ℝ × ℝ))) : spotLess s0 r divs = s0 - pv r divs := by
  cases divs with
  | none => simp [spotLess, pv]
  | some l => simp [spotLess, pv, divsPresent]

theorem call_cases {s0 k r sigma t q : ℝ} {divs : Option (List (ℝ × ℝ))} {fut : Bool} {c : Option ℝ}
    (h : bsmOptionPrice .call s0 k r sigma t divs q fut = .ok c) :
    (divs = none ∨ q = 0) ∧ (k = 0 → divs.getD [] ≠ []) ∧
      c = bsmCall (s0 - pv r divs) k r sigma t (if fut then r else q) := by
  unfold bsmOptionPrice at h
  split at h
  · exact absurd h (by simp)
  · next h1 =>
    split at h
    · exact absurd h (by simp)
    · next h2 =>
      simp only [Except.ok.injEq, spotLess_eq] at h
      refine ⟨?_, not_and.1 h2, h.symm⟩
      cases divs with
      | none => exact .inl rfl
      | some l => right; by_contra hq; exact h1 ⟨rfl, hq⟩

theorem call_ok' {s0 k r sigma t q : ℝ} {divs : Option (List (ℝ × ℝ))} {fut : Bool}
    (hd : divs = none ∨ q = 0) (hk : k = 0 → divs.getD [] ≠ []) : bsmOptionPrice .call s0 k r sigma t divs q fut =
      .ok (bsmCall (s0 - pv r divs) k r sigma t (if fut then r else q)) := by
  unfold bsmOptionPrice
  rw [if_neg, if_neg (not_and.2 hk)]
  · simp only [spotLess_eq]; rfl
  · rintro ⟨h1, h2⟩; rcases hd with h | h
    · simp [h] at h1
    · exact h2 h

theorem put_ok' {s0 k r sigma t q : ℝ} {divs : Option (List (ℝ × ℝ))} {fut : Bool}
    (hd : divs = none ∨ q = 0) (hk : k = 0 → divs.getD [] ≠ []) : bsmOptionPrice .put s0 k r sigma t divs q fut =
      .ok (bsmPut (s0 - pv r divs) k r sigma t (if fut then r else q)) := by
  unfold bsmOptionPrice
  rw [if_neg, if_neg (not_and.2 hk)]
  · simp only [spotLess_eq]; rfl
  · rintro ⟨h1, h2⟩; rcases hd with h | h
    · simp [h] at h1
    · exact h2 h

theorem call_ok {s0 k r sigma t q : ℝ} {divs : Option (List (ℝ × ℝ))} {fut : Bool}
    (hd : divs = none ∨ q = 0) (hk : k ≠ 0) : bsmOptionPrice .call s0 k r sigma t divs q fut =
      .ok (bsmCall (s0 - pv r divs) k r sigma t (if fut then r else q)) := call_ok' hd fun h => absurd h hk

theorem put_ok {s0 k r sigma t q : ℝ} {divs : Option (List (ℝ × ℝ))} {fut : Bool}
    (hd : divs = none ∨ q = 0) (hk : k ≠ 0) : bsmOptionPrice .put s0 k r sigma t divs q fut =
      .ok (bsmPut (s0 - pv r divs) k r sigma t (if fut then r else q)) := put_ok' hd fun h => absurd h hk

/-- C108: put-call parity, for whatever parameters the prices are numbers. -/
theorem C108_parity {s0 k r sigma t q c p : ℝ} {divs : Option (List (ℝ × ℝ))} {fut : Bool}
    (hc : bsmOptionPrice .call s0 k r sigma t divs q fut = .ok (some c))
    (hp : bsmOptionPrice .put s0 k r sigma t divs q fut = .ok (some p)) :
    c - p = (s0 - pv r divs) * Real.exp (-((if fut then r else q) * t)) - k * Real.exp (-(r * t)) := by
  obtain ⟨h1, h2, h3⟩ := call_cases hc
  rw [put_ok' h1 h2, bsmPut_eq, ← h3] at hp
  simp only [Option.map_some, Except.ok.injEq, Option.some.injEq] at hp
  rw [← hp, neg_mul, neg_mul]
  ring

/-- C108: both kinds of dividends at once are rejected, whatever the type. -/
theorem C108_dividends (ot : OptionType) (s0 k r sigma t q : ℝ) (l : List (ℝ × ℝ)) (fut : Bool) (hq : q ≠ 0) :
    bsmOptionPrice ot s0 k r sigma t (some l) q fut = .error .assertionError := by
  unfold bsmOptionPrice
  rw [if_pos ⟨rfl, hq⟩]

/-- C108: the call is a number exactly if the put is. -/
theorem C108_both (s0 k r sigma t q : ℝ) (divs : Option (List (ℝ × ℝ))) (fut : Bool) :
    (∃ c, bsmOptionPrice .call s0 k r sigma t divs q fut = .ok (some c)) ↔
      ∃ p, bsmOptionPrice .put s0 k r sigma t divs q fut = .ok (some p) := by
  by_cases hd : divs = none ∨ q = 0
  · by_cases hk : k = 0 ∧ divs.getD [] = []
    · have : ¬ (divs.isSome ∧ q ≠ 0) := by rcases hd with h | h <;> simp [h]
      unfold bsmOptionPrice
      rw [if_neg this, if_pos hk, if_neg this, if_pos hk]
    · have hk := not_and.1 hk
      rw [call_ok' hd hk, put_ok' hd hk, bsmPut_eq]
      cases bsmCall (s0 - pv r divs) k r sigma t (if fut then r else q) <;> simp
  · push Not at hd
    obtain ⟨l, rfl⟩ := Option.ne_none_iff_exists'.1 hd.1
    simp [C108_dividends _ _ _ _ _ _ _ _ _ hd.2]

/-! ## C109 -/

/-- C109: no-arbitrage bounds; `a` is the discounted forward and `b` the discounted strike. -/
theorem C109_bounds {s0 k r sigma t q a b : ℝ} {divs : Option (List (ℝ × ℝ))} {fut : Bool}
    (hd : divs = none ∨ q = 0) (hs0 : 0 < s0 - pv r divs) (hk : 0 < k) (hs : 0 < sigma) (ht : 0 < t)
    (ha : a = (s0 - pv r divs) * Real.exp (-((if fut then r else q) * t))) (hb : b = k * Real.exp (-(r * t))) :
    ∃ c p, bsmOptionPrice .call s0 k r sigma t divs q fut = .ok (some c) ∧
      bsmOptionPrice .put s0 k r sigma t divs q fut = .ok (some p) ∧
      max 0 (a - b) < c ∧ c < a ∧ max 0 (b - a) < p ∧ p < b := by
  rw [call_ok hd hk.ne', put_ok hd hk.ne', bsmPut_eq, bsmCall_eq hs0 hk hs ht]
  simp only [neg_mul, Option.map_some]
  rw [← ha, ← hb]
  have ha0 : 0 < a := by rw [ha]; exact mul_pos hs0 (Real.exp_pos _)
  have hb0 : 0 < b := by rw [hb]; exact mul_pos hk (Real.exp_pos _)
  have hσ : 0 < sigma * √t := mul_pos hs (Real.sqrt_pos.2 ht)
  have h1 := bs_gt ha0 hb0 hσ
  have h2 := bs_lt (s := sigma * √t) ha0 hb0
  refine ⟨_, _, rfl, rfl, by rw [max_comm]; exact h1, h2, ?_, by linarith⟩
  exact max_lt (by linarith [le_max_left (a - b) 0]) (by linarith [le_max_right (a - b) 0])

/-- C109: without volatility a call is worth the discounted forward less the discounted strike, or 0 if
that is negative (and NaN if they are equal). -/
theorem C109_no_volatility {s0 k r t q a b : ℝ} {divs : Option (List (ℝ × ℝ))} {fut : Bool}
    (hd : divs = none ∨ q = 0) (hs0 : 0 < s0 - pv r divs) (hk : 0 < k) (ht : 0 < t)
    (ha : a = (s0 - pv r divs) * Real.exp (-((if fut then r else q) * t))) (hb : b = k * Real.exp (-(r * t))) :
    bsmOptionPrice .call s0 k r 0 t divs q fut = .ok (if a = b then none else some (max (a - b) 0)) := by
  rw [call_ok hd hk.ne']
  congr 1
  generalize s0 - pv r divs = s at *
  generalize (if fut = true then r else q) = y at *
  have ha0 : 0 < a := by rw [ha]; exact mul_pos hs0 (Real.exp_pos _)
  have hb0 : 0 < b := by rw [hb]; exact mul_pos hk (Real.exp_pos _)
  have e : Real.log (s / k) + (r - y + 0 ^ 2 / 2) * t = Real.log a - Real.log b := by
    rw [ha, hb, Real.log_mul hs0.ne' (Real.exp_pos _).ne', Real.log_mul hk.ne' (Real.exp_pos _).ne',
      Real.log_exp, Real.log_exp, Real.log_div hs0.ne' hk.ne']
    ring
  have e1 : bsmD1 s k r 0 t y = if 0 < Real.log a - Real.log b then .posInf
      else if Real.log a - Real.log b < 0 then .negInf else .nan := by
    unfold bsmD1 logRatio npLog
    rw [if_neg (not_lt.2 ht.le), if_neg hk.ne', if_pos (div_pos hs0 hk)]
    simp only [FExt.add, FExt.div, zero_mul, if_true]
    rw [e]
  unfold bsmCall bsmD2
  rw [e1]
  simp only [neg_mul, ← ha, ← hb]
  rcases lt_trichotomy a b with h | h | h
  · have := Real.log_lt_log ha0 h
    rw [if_neg (by linarith), if_pos (by linarith), if_neg h.ne, max_eq_right (by linarith)]
    simp [FExt.cdf, FExt.add]
  · subst h
    simp [FExt.cdf]
  · have := Real.log_lt_log hb0 h
    rw [if_pos (by linarith), if_neg h.ne', max_eq_left (by linarith)]
    simp [FExt.cdf, FExt.add]

/-- The hypotheses of C109 can be met. -/
example : (0 : ℝ) < 100 - pv 0 (some [(5, 1 / 2)]) := by simp [pv]; norm_num

/-! ## C110 -/

/-- C110: the price of a call, and of a put, increases strictly with volatility. -/
theorem C110_increasing {ot : OptionType} {s0 k r t q s1 s2 v1 v2 : ℝ} {divs : Option (List (ℝ × ℝ))}
    {fut : Bool} (ho : ot = .call ∨ ot = .put) (hs0 : 0 < s0 - pv r divs) (hk : 0 < k) (ht : 0 < t)
    (h1 : 0 < s1) (h12 : s1 < s2)
    (e1 : bsmOptionPrice ot s0 k r s1 t divs q fut = .ok (some v1))
    (e2 : bsmOptionPrice ot s0 k r s2 t divs q fut = .ok (some v2)) : v1 < v2 := by
  have hst := Real.sqrt_pos.2 ht
  have hm : bs ((s0 - pv r divs) * Real.exp (-(if fut then r else q) * t)) (k * Real.exp (-r * t)) (s1 * √t) <
      bs ((s0 - pv r divs) * Real.exp (-(if fut then r else q) * t)) (k * Real.exp (-r * t)) (s2 * √t) :=
    bs_strictMonoOn (mul_pos hs0 (Real.exp_pos _)) (mul_pos hk (Real.exp_pos _)) (mul_pos h1 hst)
      (mul_pos (h1.trans h12) hst) (mul_lt_mul_of_pos_right h12 hst)
  have hd : divs = none ∨ q = 0 := by
    by_contra hc
    push Not at hc
    obtain ⟨l, rfl⟩ := Option.ne_none_iff_exists'.1 hc.1
    rw [C108_dividends _ _ _ _ _ _ _ _ _ hc.2] at e1
    simp at e1
  rcases ho with rfl | rfl
  · rw [call_ok hd hk.ne', bsmCall_eq hs0 hk (by linarith) ht] at e1 e2
    simp only [Except.ok.injEq, Option.some.injEq] at e1 e2
    rw [← e1, ← e2]
    exact hm
  · rw [put_ok hd hk.ne', bsmPut_eq, bsmCall_eq hs0 hk (by linarith) ht] at e1 e2
    simp only [Except.ok.injEq, Option.some.injEq, Option.map_some] at e1 e2
    rw [← e1, ← e2]
    linarith

/-- C110: every price within the bounds of C109 is that of exactly one volatility. -/
theorem C110_exists_unique {s0 k r t q a b v : ℝ} {divs : Option (List (ℝ × ℝ))} {fut : Bool}
    (hd : divs = none ∨ q = 0) (hs0 : 0 < s0 - pv r divs) (hk : 0 < k) (ht : 0 < t)
    (ha : a = (s0 - pv r divs) * Real.exp (-((if fut then r else q) * t))) (hb : b = k * Real.exp (-(r * t)))
    (h1 : max 0 (a - b) < v) (h2 : v < a) :
    ∃! sigma, 0 < sigma ∧ bsmOptionPrice .call s0 k r sigma t divs q fut = .ok (some v) := by
  have ha0 : 0 < a := by rw [ha]; exact mul_pos hs0 (Real.exp_pos _)
  have hb0 : 0 < b := by rw [hb]; exact mul_pos hk (Real.exp_pos _)
  have hst := Real.sqrt_pos.2 ht
  rw [max_comm] at h1
  obtain ⟨s, ⟨hs, hv⟩, hu⟩ := bs_exists_unique ha0 hb0 h1 h2
  have key : ∀ x : ℝ, 0 < x → (bsmOptionPrice .call s0 k r x t divs q fut = .ok (some v) ↔ bs a b (x * √t) = v) := by
    intro x hx
    rw [call_ok hd hk.ne', bsmCall_eq hs0 hk hx ht]
    simp only [Except.ok.injEq, Option.some.injEq, neg_mul]
    rw [← ha, ← hb]
  refine ⟨s / √t, ⟨div_pos hs hst, (key _ (div_pos hs hst)).2 (by rw [div_mul_cancel₀ _ hst.ne']; exact hv)⟩, ?_⟩
  rintro y ⟨hy, hyv⟩
  have := hu _ ⟨mul_pos hy hst, (key y hy).1 hyv⟩
  rw [← this]
  field_simp

/-- C110: `implied_volatility` rejects exactly the prices that no volatility in the bracket explains, and
what it returns is close to the one volatility that gives the observed price. -/
theorem C110_implied {brentq : (ℝ → Py (Option ℝ)) → ℝ → ℝ → ℕ → Py ℝ} {xtol rtol : ℝ}
    (hB : BrentOk brentq xtol rtol) {ot : OptionType} (ho : ot = .call ∨ ot = .put)
    {s0 k r t q observed lo hi : ℝ} {divs : Option (List (ℝ × ℝ))} {fut : Bool} {maxiter : ℕ}
    (hd : divs = none ∨ q = 0) (hs0 : 0 < s0 - pv r divs) (hk : 0 < k) (ht : 0 < t) (hlo : 0 < lo) (hlh : lo < hi)
    {iv : Py ℝ} (hiv : iv = impliedVolatility brentq observed
      (fun sigma => bsmOptionPrice ot s0 k r sigma t divs q fut) lo hi maxiter) :
    (iv = .error .valueError ↔
      ¬ ∃ sigma ∈ Icc lo hi, bsmOptionPrice ot s0 k r sigma t divs q fut = .ok (some observed)) ∧
    (∀ x, iv = .ok x → ∃ sigma ∈ Icc lo hi, |x - sigma| ≤ xtol + rtol * sigma ∧
      ∀ y : ℝ, 0 < y → (bsmOptionPrice ot s0 k r y t divs q fut = .ok (some observed) ↔ y = sigma)) ∧
    (∀ e, iv = .error e → e = .valueError ∨ e = .runtimeError) := by
  have hst := Real.sqrt_pos.2 ht
  set a := (s0 - pv r divs) * Real.exp (-(if fut then r else q) * t) with ha
  set b := k * Real.exp (-r * t) with hb
  have ha0 : 0 < a := mul_pos hs0 (Real.exp_pos _)
  have hb0 : 0 < b := mul_pos hk (Real.exp_pos _)
  -- the price as a function
  obtain ⟨c, hc⟩ : ∃ c : ℝ, ∀ x : ℝ, 0 < x →
      bsmOptionPrice ot s0 k r x t divs q fut = .ok (some (bs a b (x * √t) - c)) := by
    rcases ho with rfl | rfl
    · exact ⟨0, fun x hx => by rw [call_ok hd hk.ne', bsmCall_eq hs0 hk hx ht, sub_zero]⟩
    · exact ⟨a - b, fun x hx => by rw [put_ok hd hk.ne', bsmPut_eq, bsmCall_eq hs0 hk hx ht]; rfl⟩
  have hmono : StrictMonoOn (fun x : ℝ => bs a b (x * √t) - c) (Ioi 0) := by
    intro x hx y hy hxy
    have := bs_strictMonoOn ha0 hb0 (mul_pos hx hst : x * √t ∈ Ioi 0) (mul_pos hy hst : y * √t ∈ Ioi 0)
      (mul_lt_mul_of_pos_right hxy hst)
    simp only
    linarith
  set g : ℝ → ℝ := fun x => bs a b (x * √t) - c - observed with hg
  set f : ℝ → Py (Option ℝ) := fun sigma => (bsmOptionPrice ot s0 k r sigma t divs q fut).map
    fun p => p.map fun x => x - observed with hf
  have hfg : ∀ x ∈ Icc lo hi, f x = .ok (some (g x)) := by
    intro x hx
    rw [hf]
    simp only
    rw [hc x (lt_of_lt_of_le hlo hx.1)]
    rfl
  have hcont : ContinuousOn g (Icc lo hi) := by
    have h1 : ContinuousOn (fun x : ℝ => bs a b (x * √t)) (Icc lo hi) :=
      (bs_continuousOn ha0 hb0).comp (continuous_id.mul continuous_const).continuousOn
        fun x hx => mul_pos (lt_of_lt_of_le hlo hx.1) hst
    exact (h1.sub continuousOn_const).sub continuousOn_const
  have hroot : ∀ z ∈ Icc lo hi, g z = 0 →
      ∀ y : ℝ, 0 < y → (bsmOptionPrice ot s0 k r y t divs q fut = .ok (some observed) ↔ y = z) := by
    intro z hz hgz y hy
    have hz0 : 0 < z := lt_of_lt_of_le hlo hz.1
    rw [hc y hy]
    simp only [Except.ok.injEq, Option.some.injEq]
    have e : bs a b (z * √t) - c = observed := by simp only [hg] at hgz; linarith
    rw [← e]
    constructor
    · intro h; exact hmono.injOn hy hz0 h
    · rintro rfl; rfl
  have hiv' : iv = brentq f lo hi maxiter := hiv
  have hiff : (∃ sigma ∈ Icc lo hi, bsmOptionPrice ot s0 k r sigma t divs q fut = .ok (some observed)) ↔
      g lo * g hi ≤ 0 := by
    have hm : ∀ x ∈ Icc lo hi, ∀ y ∈ Icc lo hi, x ≤ y → g x ≤ g y := by
      intro x hx y hy hxy
      have := hmono.monotoneOn (lt_of_lt_of_le hlo hx.1 : x ∈ Ioi 0) (lt_of_lt_of_le hlo hy.1 : y ∈ Ioi 0) hxy
      simp only [hg] at this ⊢
      linarith
    constructor
    · rintro ⟨z, hz, hzv⟩
      have hgz : g z = 0 := by
        rw [hc z (lt_of_lt_of_le hlo hz.1)] at hzv
        simp only [Except.ok.injEq, Option.some.injEq] at hzv
        simp only [hg]; linarith
      have h1 := hm lo ⟨le_refl _, hlh.le⟩ z hz hz.1
      have h2 := hm z hz hi ⟨hlh.le, le_refl _⟩ hz.2
      rw [hgz] at h1 h2
      exact mul_nonpos_of_nonpos_of_nonneg h1 h2
    · intro h
      have hle := hm lo ⟨le_refl _, hlh.le⟩ hi ⟨hlh.le, le_refl _⟩ hlh.le
      have h12 : g lo ≤ 0 ∧ 0 ≤ g hi := by
        constructor
        · by_contra hn
          have := mul_pos (not_le.1 hn) (lt_of_lt_of_le (not_le.1 hn) hle)
          linarith
        · by_contra hn
          have := mul_pos_of_neg_of_neg (lt_of_le_of_lt hle (not_le.1 hn)) (not_le.1 hn)
          linarith
      obtain ⟨z, hz, hgz⟩ := intermediate_value_Icc hlh.le hcont h12
      exact ⟨z, hz, (hroot z hz hgz z (lt_of_lt_of_le hlo hz.1)).2 rfl⟩
  rw [hiff, not_le, hiv']
  rcases lt_or_ge 0 (g lo * g hi) with h | h
  · have := hB.same_sign f g lo hi maxiter hlh hfg h
    rw [this]
    exact ⟨⟨fun _ => h, fun _ => rfl⟩, fun x hx => by simp at hx, fun e he => by simp at he; exact .inl he.symm⟩
  · rcases hB.root f g lo hi maxiter hlh hfg hcont h with h1 | ⟨x, h1, z, hz, hgz, hxz⟩
    · rw [h1]
      exact ⟨⟨fun h => by simp at h, fun h' => absurd h' (not_lt.2 h)⟩, fun x hx => by simp at hx,
        fun e he => by simp at he; exact .inr he.symm⟩
    · rw [h1]
      refine ⟨⟨fun h => by simp at h, fun h' => absurd h' (not_lt.2 h)⟩, fun y hy => ?_, fun e he => by simp at he⟩
      obtain rfl : x = y := by simpa using hy
      refine ⟨z, hz, ?_, hroot z hz hgz⟩
      rwa [abs_of_pos (lt_of_lt_of_le hlo hz.1)] at hxz

open Classical in
/-- The contract of the solver can be met, by an exact solver. -/
example : ∃ brentq, BrentOk brentq 0 0 := by
  refine ⟨fun f a b _ =>
    if ∃ x y : ℝ, f a = .ok (some x) ∧ f b = .ok (some y) ∧ 0 < x * y then .error .valueError
    else if h : ∃ z ∈ Icc a b, f z = .ok (some 0) then .ok h.choose else .error .runtimeError,
    ⟨fun f g a b m hab hfg hpos => ?_, fun f g a b m hab hfg hc hle => ?_⟩⟩
  · exact if_pos ⟨_, _, hfg a ⟨le_refl _, hab.le⟩, hfg b ⟨hab.le, le_refl _⟩, hpos⟩
  · rw [if_neg]
    · split
      · next h =>
        obtain ⟨h1, h2⟩ := h.choose_spec
        refine .inr ⟨_, rfl, _, h1, ?_, by simp⟩
        rw [hfg _ h1] at h2
        simpa using h2
      · exact .inl rfl
    · rintro ⟨x, y, h1, h2, h3⟩
      rw [hfg a ⟨le_refl _, hab.le⟩] at h1
      rw [hfg b ⟨hab.le, le_refl _⟩] at h2
      simp only [Except.ok.injEq, Option.some.injEq] at h1 h2
      subst h1 h2
      exact absurd h3 (not_lt.2 hle)

/-! ## C142 -/

/-- C142: the slope of the call in the price of the underlying is between 0 and the discount factor of
the yield, and that in the strike between minus the discount factor and 0. -/
theorem C142_slopes {s0 k r sigma t q : ℝ} {fut : Bool} (hs0 : 0 < s0) (hk : 0 < k) (hs : 0 < sigma) (ht : 0 < t) :
    ∃ f g : ℝ → ℝ,
      (∀ x : ℝ, 0 < x → bsmOptionPrice .call x k r sigma t none q fut = .ok (some (f x))) ∧
      (∀ x : ℝ, 0 < x → bsmOptionPrice .call s0 x r sigma t none q fut = .ok (some (g x))) ∧
      (∃ m, HasDerivAt f m s0 ∧ 0 < m ∧ m < Real.exp (-((if fut then r else q) * t))) ∧
      (∃ m, HasDerivAt g m k ∧ -Real.exp (-(r * t)) < m ∧ m < 0) := by
  set y := (if fut = true then r else q) with hy
  set A := Real.exp (-y * t) with hA
  set B := Real.exp (-r * t) with hB
  have hA0 : 0 < A := Real.exp_pos _
  have hB0 : 0 < B := Real.exp_pos _
  have hσ : 0 < sigma * √t := mul_pos hs (Real.sqrt_pos.2 ht)
  refine ⟨fun x => bs (x * A) (k * B) (sigma * √t), fun x => bs (s0 * A) (x * B) (sigma * √t), ?_, ?_, ?_, ?_⟩
  · intro x hx
    rw [call_ok (.inl rfl) hk.ne', bsmCall_eq (by simpa [pv] using hx) hk hs ht]
    simp only [pv, sub_zero, ← hy, ← hA, ← hB]
  · intro x hx
    rw [call_ok (.inl rfl) hx.ne', bsmCall_eq (by simpa [pv] using hs0) hx hs ht]
    simp only [pv, sub_zero, ← hy, ← hA, ← hB]
  · have h1 := bs_hasDerivAt_left (mul_pos hs0 hA0) (mul_pos hk hB0) hσ
    have h2 : HasDerivAt (fun x : ℝ => x * A) A s0 := by simpa using (hasDerivAt_id s0).mul_const A
    have h3 := h1.comp s0 h2
    refine ⟨_, h3, mul_pos (normCdf_pos _) hA0, ?_⟩
    have := mul_lt_mul_of_pos_right
      (normCdf_lt_one (Real.log (s0 * A / (k * B)) / (sigma * √t) + sigma * √t / 2)) hA0
    rw [one_mul, hA, neg_mul] at this
    rw [hA, neg_mul]
    exact this
  · have h1 := bs_hasDerivAt_right (mul_pos hs0 hA0) (mul_pos hk hB0) hσ
    have h2 : HasDerivAt (fun x : ℝ => x * B) B k := by simpa using (hasDerivAt_id k).mul_const B
    have h3 := h1.comp k h2
    have h4 := normCdf_pos (Real.log (s0 * A / (k * B)) / (sigma * √t) - sigma * √t / 2)
    have h5 := normCdf_lt_one (Real.log (s0 * A / (k * B)) / (sigma * √t) - sigma * √t / 2)
    refine ⟨_, h3, ?_, ?_⟩
    · rw [← neg_mul, ← hB]
      have := mul_lt_mul_of_pos_right h5 hB0
      linarith
    · have := mul_pos h4 hB0
      linarith

/-- C142: every positive option price is that of exactly one price of the underlying, so a root found by
`implied_asset_price` is the only one. -/
theorem C142_asset_price {k r sigma t q v : ℝ} {fut : Bool} (hk : 0 < k) (hs : 0 < sigma) (ht : 0 < t)
    (hv : 0 < v) : ∃! s0, 0 < s0 ∧ bsmOptionPrice .call s0 k r sigma t none q fut = .ok (some v) := by
  set y := (if fut = true then r else q) with hy
  set A := Real.exp (-y * t) with hA
  set B := Real.exp (-r * t) with hB
  have hA0 : 0 < A := Real.exp_pos _
  have hB0 : 0 < B := Real.exp_pos _
  have hb : 0 < k * B := mul_pos hk hB0
  have hσ : 0 < sigma * √t := mul_pos hs (Real.sqrt_pos.2 ht)
  have key : ∀ x : ℝ, 0 < x → (bsmOptionPrice .call x k r sigma t none q fut = .ok (some v) ↔
      bs (x * A) (k * B) (sigma * √t) = v) := by
    intro x hx
    rw [call_ok (.inl rfl) hk.ne', bsmCall_eq (by simpa [pv] using hx) hk hs ht]
    simp only [pv, sub_zero, ← hy, ← hA, ← hB, Except.ok.injEq, Option.some.injEq]
  have hmono : StrictMonoOn (fun a => bs a (k * B) (sigma * √t)) (Ioi 0) := by
    apply strictMonoOn_of_deriv_pos (convex_Ioi _)
      fun x hx => (bs_hasDerivAt_left hx hb hσ).continuousAt.continuousWithinAt
    intro x hx
    rw [interior_Ioi] at hx
    rw [(bs_hasDerivAt_left hx hb hσ).deriv]
    exact normCdf_pos _
  have hlo : bs v (k * B) (sigma * √t) < v := bs_lt hv hb
  have hhi : v < bs (v + k * B) (k * B) (sigma * √t) := by
    have := bs_gt (add_pos hv hb) hb hσ
    have := lt_of_le_of_lt (le_max_left _ _) this
    linarith
  have hc : ContinuousOn (fun a => bs a (k * B) (sigma * √t)) (Icc v (v + k * B)) :=
    fun x hx => (bs_hasDerivAt_left (lt_of_lt_of_le hv hx.1) hb hσ).continuousAt.continuousWithinAt
  obtain ⟨a, ha, hav⟩ := intermediate_value_Icc (by linarith) hc ⟨hlo.le, hhi.le⟩
  have ha0 : 0 < a := lt_of_lt_of_le hv ha.1
  refine ⟨a / A, ⟨div_pos ha0 hA0, (key _ (div_pos ha0 hA0)).2 (by rw [div_mul_cancel₀ _ hA0.ne']; exact hav)⟩, ?_⟩
  rintro x ⟨hx, hxv⟩
  have := hmono.injOn (mul_pos hx hA0 : x * A ∈ Ioi 0) ha0 (((key x hx).1 hxv).trans hav.symm)
  rw [← this]
  field_simp

/-! ## C143 -/

theorem integral_Ioi_normPdf (x : ℝ) : ∫ z in Ioi x, normPdf z = normCdf (-x) := by
  have h := integral_add_compl (measurableSet_Iic (a := x)) integrable_normPdf
  rw [compl_Iic, integral_normPdf] at h
  rw [normCdf_neg]
  have e : ∫ z in Iic x, normPdf z = normCdf x := rfl
  linarith

theorem integral_Ioi_normPdf_shift (x s : ℝ) : ∫ z in Ioi x, normPdf (z - s) = normCdf (s - x) := by
  have h := integral_indicator (f := fun z => normPdf (z - s)) (μ := volume) (measurableSet_Ioi (a := x))
  rw [← h]
  have e : (Ioi x).indicator (fun z => normPdf (z - s)) = fun z => (Ioi (x - s)).indicator normPdf (z - s) := by
    funext z
    by_cases hz : x < z
    · rw [indicator_of_mem (by exact hz), indicator_of_mem (by simp only [mem_Ioi]; linarith)]
    · rw [indicator_of_notMem (by exact hz), indicator_of_notMem (by simp only [mem_Ioi]; linarith)]
  rw [e, integral_sub_right_eq_self (fun z => (Ioi (x - s)).indicator normPdf z) s,
    integral_indicator measurableSet_Ioi, integral_Ioi_normPdf, neg_sub]

/-- The expectation of the payoff in terms of `bs`. -/
theorem bs_expectation {a b s : ℝ} (ha : 0 < a) (hb : 0 < b) (hs : 0 < s) :
    ∫ z, max (a * Real.exp (s * z - s ^ 2 / 2) - b) 0 ∂gaussianReal 0 1 = bs a b s := by
  set x := -(Real.log (a / b) / s - s / 2) with hx
  rw [integral_gaussianReal_eq_integral_smul one_ne_zero]
  have e : (fun z : ℝ => gaussianPDFReal 0 1 z • max (a * Real.exp (s * z - s ^ 2 / 2) - b) 0) =
      (Ioi x).indicator fun z => a * normPdf (z - s) - b * normPdf z := by
    funext z
    have hsh : normPdf (z - s) = normPdf z * Real.exp (s * z - s ^ 2 / 2) := by
      have := normPdf_shift z (-s)
      rw [← sub_eq_add_neg] at this
      rw [this]
      congr 2
      ring
    have hsgn := gval_deriv_sign ha hb hs (-z)
    have e1 : -(-z * s) - s ^ 2 / 2 = s * z - s ^ 2 / 2 := by ring
    rw [e1] at hsgn
    change normPdf z • _ = _
    rw [smul_eq_mul]
    rcases lt_trichotomy x z with h | h | h
    · rw [indicator_of_mem (by exact h), max_eq_left, hsh]
      · ring
      · have := hsgn.1 (by rw [hx] at h; linarith)
        linarith
    · rw [indicator_of_notMem (by simp [h]), max_eq_right, mul_zero]
      have : s * z - s ^ 2 / 2 = -Real.log (a / b) := by rw [← h, hx]; field_simp; ring
      rw [this, Real.exp_neg, Real.exp_log (div_pos ha hb)]
      apply le_of_eq
      field_simp
      ring
    · rw [indicator_of_notMem (by simp only [mem_Ioi]; linarith), max_eq_right, mul_zero]
      have := hsgn.2 (by rw [hx] at h; linarith)
      linarith
  rw [e, integral_indicator measurableSet_Ioi, integral_sub, integral_const_mul, integral_const_mul,
    integral_Ioi_normPdf, integral_Ioi_normPdf_shift, bs]
  · congr 3 <;> rw [hx] <;> ring
  · exact ((integrable_normPdf.comp_sub_right s).const_mul a).integrableOn
  · exact (integrable_normPdf.const_mul b).integrableOn

/-- C143: the call is the discounted expected payoff if the underlying grows by a normal log return whose
drift makes the expected growth that of the forward, with the law of `bsm_return_distribution`. -/
theorem C143_expectation {s0 k r sigma t q : ℝ} {divs : Option (List (ℝ × ℝ))} {fut : Bool}
    (hd : divs = none ∨ q = 0) (hs0 : 0 < s0 - pv r divs) (hk : 0 < k) (hs : 0 < sigma) (ht : 0 < t) :
    ∃ loc scale, (bsmReturnDistribution (r - if fut then r else q) sigma t).1 = some (loc, scale) ∧
      bsmOptionPrice .call s0 k r sigma t divs q fut = .ok (some (Real.exp (-(r * t)) *
        ∫ z, max ((s0 - pv r divs) * Real.exp (loc + scale * z) - k) 0 ∂gaussianReal 0 1)) := by
  have hst := Real.sqrt_pos.2 ht
  have hsq : √t ^ 2 = t := Real.sq_sqrt ht.le
  rw [call_ok hd hk.ne', bsmCall_eq hs0 hk hs ht]
  set y := (if fut = true then r else q) with hy
  refine ⟨(r - y - sigma ^ 2 / 2) * t, sigma * √t, ?_, ?_⟩
  · unfold bsmReturnDistribution frozen
    rw [if_neg (not_le.2 ht), if_pos (mul_pos hs hst)]
  · rw [← bs_expectation (mul_pos hs0 (Real.exp_pos _)) (mul_pos hk (Real.exp_pos _)) (mul_pos hs hst),
      ← integral_const_mul]
    congr 3
    funext z
    rw [mul_max_of_nonneg _ _ (Real.exp_pos _).le, mul_zero]
    congr 1
    have e1 : (s0 - pv r divs) * Real.exp (-y * t) * Real.exp (sigma * √t * z - (sigma * √t) ^ 2 / 2) =
        Real.exp (-(r * t)) * ((s0 - pv r divs) * Real.exp ((r - y - sigma ^ 2 / 2) * t + sigma * √t * z)) := by
      rw [mul_assoc, ← Real.exp_add, mul_left_comm, ← Real.exp_add, mul_pow, hsq]
      congr 2
      ring
    rw [e1, neg_mul]
    ring

/-! ## C112 -/

/-- C112: the implied rate is the growth rate from spot to forward. -/
theorem C112_forward_rate {s0 t : ℝ} (hs0 : 0 < s0) (ht : t ≠ 0) (r : ℝ) :
    impliedForwardRate s0 (s0 * Real.exp (r * t)) t = .ok (some r) := by
  unfold impliedForwardRate
  have e : s0 * Real.exp (r * t) / s0 = Real.exp (r * t) := by field_simp
  rw [if_neg hs0.ne', e, if_pos (Real.exp_pos _), Real.log_exp]
  simp only [fdiv, if_neg ht]
  rw [mul_div_cancel_right₀ _ ht]

/-- C112: every pair of positive prices has a rate, and compounding at it gives the forward price. -/
theorem C112_compound {s0 f t : ℝ} (hs0 : 0 < s0) (hf : 0 < f) (ht : t ≠ 0) :
    ∃ r, impliedForwardRate s0 f t = .ok (some r) ∧ s0 * Real.exp (r * t) = f := by
  unfold impliedForwardRate
  rw [if_neg hs0.ne', if_pos (div_pos hf hs0)]
  refine ⟨Real.log (f / s0) / t, by simp only [fdiv, if_neg ht], ?_⟩
  rw [div_mul_cancel₀ _ ht, Real.exp_log (div_pos hf hs0)]
  field_simp

/-! ## C113 -/

/-- The law with a location and scale in a family generated by the law of `z`. -/
noncomputable def law (base : Measure ℝ) (d : ℝ × ℝ) : Measure ℝ := base.map fun z => d.1 + d.2 * z

/-- C113: both distributions exist exactly for positive time and volatility; the log return is `t` times
the annual return in law, whatever the generating distribution. -/
theorem C113_scaling (base : Measure ℝ) {mu sigma t : ℝ} (hs : 0 < sigma) (ht : 0 < t) :
    ∃ l a, bsmReturnDistribution mu sigma t = (some l, some a) ∧
      l.1 = t * a.1 ∧ l.2 = t * a.2 ∧ law base l = (law base a).map fun x => t * x := by
  have hst := Real.sqrt_pos.2 ht
  have hsq : √t ^ 2 = t := Real.sq_sqrt ht.le
  refine ⟨((mu - sigma ^ 2 / 2) * t, sigma * √t), (mu - sigma ^ 2 / 2, sigma / √t), ?_, ?_, ?_, ?_⟩
  · unfold bsmReturnDistribution frozen
    rw [if_neg (not_le.2 ht), if_pos (mul_pos hs hst), if_pos (div_pos hs hst)]
  · simp only; ring
  · simp only
    field_simp
    exact hsq
  · unfold law
    rw [Measure.map_map (by fun_prop) (by fun_prop)]
    congr 1
    funext z
    simp only [Function.comp_apply]
    field_simp
    linear_combination (sigma * 2 * z) * hsq

/-- The normal law of a location and scale. -/
theorem law_normal (d : ℝ × ℝ) : law (gaussianReal 0 1) d = gaussianReal d.1 (Real.toNNReal (d.2 ^ 2)) := by
  unfold law
  have h1 := gaussianReal_map_const_mul (μ := 0) (v := 1) d.2
  have h2 := gaussianReal_map_const_add (μ := d.2 * 0) (v := NNReal.mk (d.2 ^ 2) (sq_nonneg _) * 1) d.1
  rw [← h1, Measure.map_map (by fun_prop) (by fun_prop)] at h2
  rw [show (fun z : ℝ => d.1 + d.2 * z) = (fun x => d.1 + x) ∘ fun x => d.2 * x from rfl, h2]
  congr 1
  · ring
  · rw [mul_one]
    exact (Real.toNNReal_of_nonneg (sq_nonneg _)).symm

/-- C113: with the normal distribution, the log return over two periods is the sum of independent log
returns over each, and the expected gross return is `exp (mu * t)`. -/
theorem C113_normal {mu sigma t1 t2 : ℝ} (hs : 0 < sigma) (h1 : 0 < t1) (h2 : 0 < t2) :
    ∃ l1 l2 l, (bsmReturnDistribution mu sigma t1).1 = some l1 ∧ (bsmReturnDistribution mu sigma t2).1 = some l2 ∧
      (bsmReturnDistribution mu sigma (t1 + t2)).1 = some l ∧
      l.2 ^ 2 = l1.2 ^ 2 + l2.2 ^ 2 ∧
      law (gaussianReal 0 1) l = Measure.conv (law (gaussianReal 0 1) l1) (law (gaussianReal 0 1) l2) ∧
      ∫ x, Real.exp x ∂law (gaussianReal 0 1) l1 = Real.exp (mu * t1) := by
  have key : ∀ t : ℝ, 0 < t → (bsmReturnDistribution mu sigma t).1 = some ((mu - sigma ^ 2 / 2) * t, sigma * √t) := by
    intro t ht
    unfold bsmReturnDistribution frozen
    rw [if_neg (not_le.2 ht), if_pos (mul_pos hs (Real.sqrt_pos.2 ht))]
  have e : ∀ t : ℝ, 0 < t → (sigma * √t) ^ 2 = sigma ^ 2 * t := fun t ht => by rw [mul_pow, Real.sq_sqrt ht.le]
  refine ⟨_, _, _, key t1 h1, key t2 h2, key _ (add_pos h1 h2), ?_, ?_, ?_⟩
  · simp only [e t1 h1, e t2 h2, e _ (add_pos h1 h2)]; ring
  · rw [law_normal, law_normal, law_normal, gaussianReal_conv_gaussianReal]
    simp only [e t1 h1, e t2 h2, e _ (add_pos h1 h2)]
    rw [← Real.toNNReal_add (by positivity) (by positivity)]
    congr 1
    · ring
    · congr 1; ring
  · rw [law_normal]
    have := congrFun (mgf_id_gaussianReal (μ := (mu - sigma ^ 2 / 2) * t1)
      (v := Real.toNNReal ((sigma * √t1) ^ 2))) 1
    simp only [mgf, id_eq, one_mul] at this
    rw [this, Real.coe_toNNReal _ (sq_nonneg _), e t1 h1]
    congr 1
    ring

end FinML.Options
