import Verif.Default.FirmProps
import Verif.Options.BsmProps

/-!
# Property C153: excess returns of the market

Both `fit` and `predict_default` document the return of the market as annualised, so that over a debt that
lasts `T` years the excess return of the market is `(market return - r)·T`.
-/

namespace FinML.Default

open FinML.Options

/-- What a root finder promises: the number it returns is a positive root. -/
def FindsRoots (newton : (ℝ → Py (Option ℝ)) → ℝ → ℝ → ℕ → Py ℝ) : Prop :=
  ∀ f x tol n v, newton f x tol n = .ok v → 0 < v ∧ f v = .ok (some 0)

/-- `x` is the probability of default of a firm with equity `equity` when the excess return of the market
over the life of the debt is `m`: for the asset value that explains the equity. -/
def DefaultGiven (p : FirmParams) (equity debt maturity riskFree m x : ℝ) : Prop :=
  ∃ v, 0 < v ∧ condEquityValue v (max 1 debt) riskFree p.sigma maturity p.alpha p.beta m = some equity ∧
    x = normCdf (-((Real.log (v / max 1 debt) + (riskFree + p.alpha - p.sigma ^ 2 / 2) * maturity +
      p.beta * m) / (p.sigma * √maturity)))

/-- C153, the full claim for `predict_default`: the market return is annualised. -/
def PredictAnnualised : Prop :=
  ∀ newton (p : FirmParams) (equity debt maturity riskFree marketRet x : ℝ), FindsRoots newton →
    0 < p.sigma → 0 < maturity →
    predictDefault newton p equity debt maturity riskFree marketRet = .ok (some x) →
    DefaultGiven p equity debt maturity riskFree ((marketRet - riskFree) * maturity) x

/-- C153, the full claim for `fit`: the asset values explain the equity under an annualised expected
return of the market. -/
def FitAnnualised : Prop :=
  ∀ newton (d : FitData) (p : FirmParams) (f : FirmDate) (v : ℝ), FindsRoots newton →
    0 < p.sigma → 0 < f.maturity → assetValue newton d p f = .ok v →
    condEquityValue v (max 1 f.debt) f.riskFree p.sigma f.maturity p.alpha p.beta
      ((d.expectedMarketRet - f.riskFree) * f.maturity) = some f.equity

/-- A root finder that finds a positive root when there is one. -/
noncomputable def idealNewton (f : ℝ → Py (Option ℝ)) (_ _ : ℝ) (_ : ℕ) : Py ℝ :=
  open Classical in
  if h : ∃ v, 0 < v ∧ f v = .ok (some 0) then .ok h.choose else .error .runtimeError

theorem idealNewton_finds : FindsRoots idealNewton := by
  intro f x tol n v h
  unfold idealNewton at h
  split_ifs at h with hf
  cases h
  exact hf.choose_spec

theorem idealNewton_ok (f : ℝ → Py (Option ℝ)) (x tol : ℝ) (n : ℕ) (hf : ∃ v, 0 < v ∧ f v = .ok (some 0)) :
    ∃ v, idealNewton f x tol n = .ok v := by
  unfold idealNewton
  rw [dif_pos hf]
  exact ⟨_, rfl⟩

theorem map_sub_eq_zero {o : Option ℝ} {e : ℝ} (h : (.ok (o.map (· - e)) : Py (Option ℝ)) = .ok (some 0)) :
    o = some e := by
  cases o with
  | none => simp at h
  | some a =>
    simp only [Option.map_some, Except.ok.injEq, Option.some.injEq] at h
    rw [sub_eq_zero.1 h]

/-- C153. What `predict_default` computes: the probability for an excess return `market_ret - r·T`, which is
the documented one for debt of one year and for a market return of 0. -/
theorem C153_predict_partial (newton : (ℝ → Py (Option ℝ)) → ℝ → ℝ → ℕ → Py ℝ) (hn : FindsRoots newton)
    (p : FirmParams) (equity debt maturity riskFree marketRet x : ℝ) (hs : 0 < p.sigma) (ht : 0 < maturity)
    (h : predictDefault newton p equity debt maturity riskFree marketRet = .ok (some x)) :
    DefaultGiven p equity debt maturity riskFree (marketRet - riskFree * maturity) x ∧
      (maturity = 1 ∨ marketRet = 0 →
        DefaultGiven p equity debt maturity riskFree ((marketRet - riskFree) * maturity) x) := by
  have key : DefaultGiven p equity debt maturity riskFree (marketRet - riskFree * maturity) x := by
    cases hv : newton (fun s => .ok ((condEquityValue s (max 1 debt) riskFree p.sigma maturity p.alpha p.beta
        (marketRet - riskFree * maturity)).map (· - equity))) (equity + max 1 debt) (1 / 100) 100 with
    | error e =>
      unfold predictDefault impliedAssetPrice at h
      simp only [Except.map] at h
      rw [hv] at h
      cases h
    | ok v =>
      obtain ⟨h1, h2⟩ := hn _ _ _ _ _ hv
      have h3 := (C117_probability newton p equity debt maturity riskFree marketRet v _ hs ht h1 hv h).1
      exact ⟨v, h1, map_sub_eq_zero h2, Option.some.inj h3⟩
  refine ⟨key, ?_⟩
  have e : maturity = 1 ∨ marketRet = 0 →
      (marketRet - riskFree) * maturity = marketRet - riskFree * maturity := by
    rintro (h | h) <;> rw [h] <;> ring
  intro hc
  rw [e hc]
  exact key

/-- C153. What `fit` computes: the asset values for an expected excess return `(E - r·interval)·T`, which is
the documented one when the interval is a year. -/
theorem C153_fit_partial (newton : (ℝ → Py (Option ℝ)) → ℝ → ℝ → ℕ → Py ℝ) (hn : FindsRoots newton)
    (d : FitData) (p : FirmParams) (f : FirmDate) (v : ℝ) (h : assetValue newton d p f = .ok v) :
    0 < v ∧ condEquityValue v (max 1 f.debt) f.riskFree p.sigma f.maturity p.alpha p.beta
      ((d.expectedMarketRet - f.riskFree * d.interval) * f.maturity) = some f.equity ∧
    (d.interval = 1 → condEquityValue v (max 1 f.debt) f.riskFree p.sigma f.maturity p.alpha p.beta
      ((d.expectedMarketRet - f.riskFree) * f.maturity) = some f.equity) := by
  unfold assetValue impliedAssetPrice at h
  simp only [Except.map] at h
  obtain ⟨h1, h2⟩ := hn _ _ _ _ _ h
  have h3 := map_sub_eq_zero h2
  refine ⟨h1, h3, fun hi => ?_⟩
  unfold FitData.exMkt at h3
  rwa [hi, mul_one] at h3

/-- Equity of a firm with assets 1 and debt 1. -/
theorem condEquity_some (r sigma t alpha beta m : ℝ) (hs : 0 < sigma) (ht : 0 < t) :
    ∃ e, condEquityValue 1 (max 1 1) r sigma t alpha beta m = some e :=
  ⟨_, condEquity_eq one_pos (by norm_num) hs ht⟩

/-- With no excess return and `alpha = 0` the value is that of a call, and more than for another return. -/
theorem call_of_zero {v k r sigma t beta m e : ℝ} (hv : 0 < v) (hk : 0 < k) (hs : 0 < sigma) (ht : 0 < t)
    (h : condEquityValue v k r sigma t 0 beta m = some e) :
    ∃ c, bsmOptionPrice .call v k r sigma t none 0 false = .ok (some c) ∧ e ≤ c ∧
      (e = c ↔ beta * m = 0) := by
  obtain ⟨-, -, -, c, h1, h2, h3⟩ := C146_bounds_partial v k r sigma t 0 beta m e hv hk hs ht h
  rw [zero_mul, zero_add] at h3
  exact ⟨c, h1, h2, h3⟩

theorem callPrice_mono {k r sigma t s₁ s₂ c₁ c₂ : ℝ} (hk : 0 < k) (hs : 0 < sigma) (ht : 0 < t) (h₁ : 0 < s₁)
    (h₂ : 0 < s₂) (hle : s₁ ≤ s₂) (e₁ : bsmOptionPrice .call s₁ k r sigma t none 0 false = .ok (some c₁))
    (e₂ : bsmOptionPrice .call s₂ k r sigma t none 0 false = .ok (some c₂)) : c₁ ≤ c₂ := by
  have hb : 0 < k * Real.exp (-r * t) := mul_pos hk (Real.exp_pos _)
  have hσ : 0 < sigma * √t := mul_pos hs (Real.sqrt_pos.2 ht)
  have key : ∀ x c : ℝ, 0 < x → bsmOptionPrice .call x k r sigma t none 0 false = .ok (some c) →
      bs x (k * Real.exp (-r * t)) (sigma * √t) = c := by
    intro x c hx h
    rw [call_ok (.inl rfl) hk.ne', bsmCall_eq (by simpa [pv] using hx) hk hs ht] at h
    simpa [pv] using h
  have hmono : StrictMonoOn (fun a => bs a (k * Real.exp (-r * t)) (sigma * √t)) (Set.Ioi 0) := by
    apply strictMonoOn_of_deriv_pos (convex_Ioi _)
      fun x hx => (bs_hasDerivAt_left hx hb hσ).continuousAt.continuousWithinAt
    intro x hx
    rw [interior_Ioi] at hx
    rw [(bs_hasDerivAt_left hx hb hσ).deriv]
    exact normCdf_pos _
  rw [← key s₁ c₁ h₁ e₁, ← key s₂ c₂ h₂ e₂]
  exact hmono.monotoneOn h₁ h₂ hle

/-- C153. An expected market return equal to the interest rate, of 100% a year, is taken for an excess return
when the data is quarterly. -/
theorem C153_fit_counterexample : ¬ FitAnnualised := by
  intro H
  obtain ⟨e, he⟩ := condEquity_some 1 1 1 0 1 (3 / 4) one_pos one_pos
  set d : FitData := ⟨1, [], [], [], [], 1 / 4, []⟩ with hd
  set f : FirmDate := ⟨e, 1, 1, 1⟩ with hf
  obtain ⟨v, hv⟩ : ∃ v, assetValue idealNewton d ⟨0, 1, 1⟩ f = .ok v := by
    unfold assetValue impliedAssetPrice
    refine idealNewton_ok _ _ _ _ ⟨1, one_pos, ?_⟩
    have : d.exMkt f = 3 / 4 := by simp only [FitData.exMkt, hd, hf]; norm_num
    simp only [Except.map, this]
    simp only [hf, he, Option.map_some, sub_self]
  obtain ⟨h1, h2, -⟩ := C153_fit_partial _ idealNewton_finds d ⟨0, 1, 1⟩ f v hv
  have h3 := H _ d ⟨0, 1, 1⟩ f v idealNewton_finds one_pos one_pos hv
  obtain ⟨c, c1, -, c3⟩ := call_of_zero h1 (lt_of_lt_of_le one_pos (le_max_left _ _)) one_pos one_pos h2
  obtain ⟨c', d1, -, d3⟩ := call_of_zero h1 (lt_of_lt_of_le one_pos (le_max_left _ _)) one_pos one_pos h3
  rw [c1] at d1
  simp only [Except.ok.injEq, Option.some.injEq] at d1
  have h4 : f.equity = c' := d3.2 (by simp only [hd, hf]; norm_num)
  have h5 := c3.1 (h4.trans d1.symm)
  simp only [hd, hf] at h5
  norm_num at h5

/-- C153. A market that returns the interest rate, 100% a year, over a debt of two years is taken for an excess
return of -100%. -/
theorem C153_predict_counterexample : ¬ PredictAnnualised := by
  intro H
  obtain ⟨e, he⟩ := condEquity_some 1 1 2 0 (-1) (-1) one_pos two_pos
  obtain ⟨v, hv⟩ : ∃ v, idealNewton (fun s => .ok ((condEquityValue s (max 1 1) 1 1 2 0 (-1) (-1)).map (· - e)))
      (e + max 1 1) (1 / 100) 100 = .ok v :=
    idealNewton_ok _ _ _ _ ⟨1, one_pos, by simp only [he, Option.map_some, sub_self]⟩
  obtain ⟨h1, -⟩ := idealNewton_finds _ _ _ _ _ hv
  have hm : (1 : ℝ) - 1 * 2 = -1 := by norm_num
  obtain ⟨y, hy⟩ : ∃ y, predictDefault idealNewton ⟨0, -1, 1⟩ e 1 2 1 1 = .ok y := by
    unfold predictDefault impliedAssetPrice
    simp only [Except.map, hm, hv, py_bind_ok]
    exact ⟨_, rfl⟩
  obtain ⟨-, x, rfl, -⟩ := C117_probability idealNewton ⟨0, -1, 1⟩ e 1 2 1 1 v y one_pos two_pos h1
    (by simp only [hm]; exact hv) hy
  obtain ⟨⟨v1, p1, q1, r1⟩, -⟩ :=
    C153_predict_partial _ idealNewton_finds ⟨0, -1, 1⟩ e 1 2 1 1 x one_pos two_pos hy
  obtain ⟨v0, p0, q0, r0⟩ := H _ ⟨0, -1, 1⟩ e 1 2 1 1 x idealNewton_finds one_pos two_pos hy
  have hk : (0 : ℝ) < max 1 1 := lt_of_lt_of_le one_pos (le_max_left _ _)
  have hlt : v0 < v1 := by
    obtain ⟨c1, a1, b1, e1⟩ := call_of_zero p1 hk one_pos two_pos q1
    obtain ⟨c0, a0, b0, e0⟩ := call_of_zero p0 hk one_pos two_pos q0
    have h3 : e = c0 := e0.2 (by norm_num)
    have h4 : e < c1 := lt_of_le_of_ne b1 fun h => by
      have := e1.1 h
      norm_num at this
    by_contra hle
    have := callPrice_mono hk one_pos two_pos p1 p0 (not_lt.1 hle) a1 a0
    linarith
  rw [r0] at r1
  have h6 := normCdf_strictMono.injective r1
  have hl : Real.log (v0 / max 1 1) < Real.log (v1 / max 1 1) :=
    Real.log_lt_log (by positivity) (by gcongr)
  have hs2 : (0 : ℝ) < √2 := by positivity
  simp only [one_mul] at h6
  rw [neg_inj, div_left_inj' hs2.ne'] at h6
  nlinarith

end FinML.Default
