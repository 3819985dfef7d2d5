import Verif.Default.Model
import Verif.Options.BsmLemmas
import Verif.Py.Lemmas
import Mathlib.Algebra.Order.Chebyshev

/-!
# Properties C116, C117, C146 and C147
-/

namespace FinML.Default

open FinML.Options

/-! ## C116: the loop -/

/-- Every parameter differs by less than `tol`. -/
def Close (p q : FirmParams) (tol : ℝ) : Prop :=
  |p.alpha - q.alpha| < tol ∧ |p.beta - q.beta| < tol ∧ |p.sigma - q.sigma| < tol

/-- A history of a loop: `ps` are the parameters before each round, `as` what each round computed; the
`n`-th round is the first after which the parameters are close to those before it. -/
structure History {A : Type} (round : FirmParams → Py (A × FirmParams)) (tol : ℝ) (p0 : FirmParams)
    (n : ℕ) (ps : ℕ → FirmParams) (as : ℕ → A) : Prop where
  start : ps 0 = p0
  rounds : ∀ j ≤ n, round (ps j) = .ok (as j, ps (j + 1))
  apart : ∀ j < n, ¬ Close (ps j) (ps (j + 1)) tol
  close : Close (ps n) (ps (n + 1)) tol

theorem fitLoop_ok_iff {A : Type} (round : FirmParams → Py (A × FirmParams)) (tol : ℝ) (m : ℕ)
    (p q : FirmParams) (a : A) : fitLoop round tol m p = .ok (q, a) ↔
      ∃ n < m, ∃ ps as, History round tol p n ps as ∧ q = ps (n + 1) ∧ a = as n := by
  classical
  induction m generalizing p with
  | zero => simp [fitLoop]
  | succ m ih =>
    unfold fitLoop
    cases hr : round p with
    | error e =>
      simp only [reduceCtorEq, false_iff]
      rintro ⟨n, -, ps, as, h, -, -⟩
      have := h.rounds 0 (Nat.zero_le _)
      rw [h.start, hr] at this
      cases this
    | ok x =>
      obtain ⟨a1, q1⟩ := x
      simp only
      by_cases hc : p.ApproxEqual q1 tol
      · rw [if_pos hc]
        constructor
        · intro h
          obtain ⟨rfl, rfl⟩ : q1 = q ∧ a1 = a := by
            simp only [Except.ok.injEq, Prod.mk.injEq] at h
            exact h
          refine ⟨0, Nat.succ_pos _, fun j => if j = 0 then p else q1, fun _ => a1, ⟨rfl, ?_, ?_, ?_⟩, rfl, rfl⟩
          · intro j hj
            obtain rfl : j = 0 := by omega
            simpa using hr
          · intro j hj; omega
          · exact hc
        · rintro ⟨n, -, ps, as, h, rfl, rfl⟩
          have h0 := h.rounds 0 (Nat.zero_le _)
          rw [h.start, hr] at h0
          cases h0
          rcases Nat.eq_zero_or_pos n with rfl | hn
          · rfl
          · exact absurd (h.start ▸ hc) (h.apart 0 hn)
      · rw [if_neg hc, ih]
        constructor
        · rintro ⟨n, hn, ps, as, h, rfl, rfl⟩
          refine ⟨n + 1, by omega, fun j => if j = 0 then p else ps (j - 1),
            fun j => if j = 0 then a1 else as (j - 1), ⟨rfl, ?_, ?_, ?_⟩, rfl, rfl⟩
          · intro j hj
            rcases Nat.eq_zero_or_pos j with rfl | hj0
            · simpa [h.start] using hr
            · have := h.rounds (j - 1) (by omega)
              rw [show j - 1 + 1 = j by omega] at this
              simpa [show j ≠ 0 by omega] using this
          · intro j hj
            rcases Nat.eq_zero_or_pos j with rfl | hj0
            · simp only [if_true, zero_add, one_ne_zero, if_false, Nat.sub_self, h.start]
              exact hc
            · have := h.apart (j - 1) (by omega)
              rw [show j - 1 + 1 = j by omega] at this
              simpa [show j ≠ 0 by omega] using this
          · simpa using h.close
        · rintro ⟨n, hn, ps, as, h, rfl, rfl⟩
          have h0 := h.rounds 0 (Nat.zero_le _)
          rw [h.start, hr] at h0
          simp only [Except.ok.injEq, Prod.mk.injEq] at h0
          rcases Nat.eq_zero_or_pos n with rfl | hn0
          · exact absurd (show p.ApproxEqual q1 tol by rw [h0.2, ← h.start]; exact h.close) hc
          · refine ⟨n - 1, by omega, fun j => ps (j + 1), fun j => as (j + 1), ⟨h0.2.symm, ?_, ?_, ?_⟩, ?_, ?_⟩
            · intro j hj; exact h.rounds (j + 1) (by omega)
            · intro j hj; exact h.apart (j + 1) (by omega)
            · rw [show n - 1 + 1 = n by omega]; exact h.close
            · change ps (n + 1) = ps (n - 1 + 1 + 1)
              rw [show n - 1 + 1 + 1 = n + 1 by omega]
            · change as n = as (n - 1 + 1)
              rw [show n - 1 + 1 = n by omega]

theorem fitLoop_exception {A : Type} (round : FirmParams → Py (A × FirmParams)) (tol : ℝ) (m : ℕ)
    (p : FirmParams) (ps : ℕ → FirmParams) (as : ℕ → A) (h0 : ps 0 = p)
    (h1 : ∀ j < m, round (ps j) = .ok (as j, ps (j + 1))) (h2 : ∀ j < m, ¬ Close (ps j) (ps (j + 1)) tol) :
    fitLoop round tol m p = .error .exception := by
  classical
  induction m generalizing p ps as with
  | zero => rfl
  | succ m ih =>
    unfold fitLoop
    have hr := h1 0 (Nat.succ_pos _)
    rw [h0] at hr
    rw [hr]
    simp only
    rw [if_neg (by have := h2 0 (Nat.succ_pos _); rw [h0] at this; exact this)]
    exact ih (ps 1) (fun j => ps (j + 1)) (fun j => as (j + 1)) rfl (fun j hj => h1 (j + 1) (by omega))
      (fun j hj => h2 (j + 1) (by omega))

/-- C116. `fit` returns exactly when, within `maxiter` rounds, the parameters of two successive rounds
differ by less than `tol` in every component; it stores the last parameters, and returns the asset returns
and values of the last round. -/
theorem C116_fit (newton : (ℝ → Py (Option ℝ)) → ℝ → ℝ → ℕ → Py ℝ) (ols : List (List ℝ) → List ℝ → List ℝ)
    (d : FitData) (hd : d.Aligned) (tol : ℝ) (maxiter : ℕ) (q : FirmParams) (a : List ℝ × List ℝ) :
    fit newton ols d tol maxiter = .ok (q, a) ↔
      ∃ rets p, logDiff d.equity = .ok rets ∧
        regressFirmParams ols rets d.marketRets d.riskFree d.interval = .ok p ∧
        ∃ n < maxiter, ∃ ps as, History (fitRound newton ols d rets) tol p n ps as ∧
          q = ps (n + 1) ∧ a = as n := by
  classical
  unfold fit
  rw [py_bind_eq_ok]
  refine exists_congr fun rets => ?_
  constructor
  · rintro ⟨h1, h⟩
    rw [py_bind_eq_ok] at h
    obtain ⟨p, h2, h⟩ := h
    unfold fitAligned at h
    rw [if_pos hd] at h
    exact ⟨p, h1, h2, (fitLoop_ok_iff _ _ _ _ _ _).1 h⟩
  · rintro ⟨p, h1, h2, h⟩
    refine ⟨h1, ?_⟩
    rw [py_bind_eq_ok]
    refine ⟨p, h2, ?_⟩
    unfold fitAligned
    rw [if_pos hd]
    exact (fitLoop_ok_iff _ _ _ _ _ _).2 h

/-- C116. If the rounds succeed but no two successive parameter sets are close, `fit` raises. -/
theorem C116_raises (newton : (ℝ → Py (Option ℝ)) → ℝ → ℝ → ℕ → Py ℝ)
    (ols : List (List ℝ) → List ℝ → List ℝ) (d : FitData) (hd : d.Aligned) (tol : ℝ) (maxiter : ℕ)
    (rets : List ℝ) (ps : ℕ → FirmParams) (as : ℕ → List ℝ × List ℝ) (hr : logDiff d.equity = .ok rets)
    (h0 : regressFirmParams ols rets d.marketRets d.riskFree d.interval = .ok (ps 0))
    (h1 : ∀ j < maxiter, fitRound newton ols d rets (ps j) = .ok (as j, ps (j + 1)))
    (h2 : ∀ j < maxiter, ¬ Close (ps j) (ps (j + 1)) tol) :
    fit newton ols d tol maxiter = .error .exception := by
  classical
  unfold fit fitAligned
  rw [hr, py_bind_ok, h0, py_bind_ok, if_pos hd]
  exact fitLoop_exception _ _ _ _ ps as rfl h1 h2

/-- C116. What a round computes at each date: the asset value found by the root finder for the price of the
equity, and the equity return divided by the elasticity `Φ(d₁)·V/E` of equity with respect to assets. -/
theorem C116_round (newton : (ℝ → Py (Option ℝ)) → ℝ → ℝ → ℕ → Py ℝ)
    (ols : List (List ℝ) → List ℝ → List ℝ) (d : FitData) (hd : d.Aligned) (equityRets : List ℝ)
    (hr : logDiff d.equity = .ok equityRets) (p q : FirmParams) (rets values : List ℝ)
    (h : fitRound newton ols d equityRets p = .ok ((rets, values), q)) :
    values.length + 1 = d.equity.length ∧ rets.length = values.length ∧
    regressFirmParams ols rets d.marketRets d.riskFree d.interval = .ok q ∧
    ∀ (i : ℕ) (e e' b t r v x : ℝ), d.equity[i]? = some e → d.equity[i + 1]? = some e' →
      d.debt[i]? = some b → d.maturity[i]? = some t → d.riskFree[i]? = some r → values[i]? = some v →
      rets[i]? = some x →
      newton (fun s => .ok ((condEquityValue s (max 1 b) r p.sigma t p.alpha p.beta
          ((d.expectedMarketRet - r * d.interval) * t)).map (· - e))) (e + b) (1 / 100) 100 = .ok v ∧
      ∃ delta, (condD1 v (max 1 b) r p.sigma t p.alpha p.beta
          ((d.expectedMarketRet - r * d.interval) * t)).cdf = some delta ∧ delta ≠ 0 ∧ v ≠ 0 ∧
        x * (delta * v) = (Real.log e' - Real.log e) * e := by
  obtain ⟨hd1, hd2, hd3⟩ := hd
  unfold fitRound at h
  simp only [py_bind_eq_ok] at h
  obtain ⟨vs, hv, rs, hrs, q', hq, h⟩ := h
  cases h
  rw [mapM_eq_ok_iff] at hv hrs
  have hdates : d.dates.length = d.riskFree.length := by
    simp [FitData.dates]
    omega
  have hrl : equityRets.length = d.riskFree.length ∧ ∀ i e e', d.equity[i]? = some e → d.equity[i + 1]? = some e' →
      equityRets[i]? = some (Real.log e' - Real.log e) := by
    unfold logDiff at hr
    split_ifs at hr
    cases hr
    refine ⟨by simp; omega, ?_⟩
    intro i e e' h1 h2
    rw [List.getElem?_zipWith, h1, List.getElem?_tail, h2]
  have l1 := hv.length_eq
  have l2 := hrs.length_eq
  simp only [List.length_zip] at l2
  refine ⟨by omega, by omega, hq, ?_⟩
  intro i e e' b t r v x he he' hb ht hr' hvi hx
  have hdi : d.dates[i]? = some ⟨e, b, t, r⟩ := by
    simp [FitData.dates, List.getElem?_zipWith, List.zip, he, hb, ht, hr']
  have hi : i < d.dates.length := (List.getElem?_eq_some_iff.1 hdi).1
  have hi1 := (List.getElem?_eq_some_iff.1 hvi).1
  have hi2 := (List.getElem?_eq_some_iff.1 hx).1
  have a1 := hv.get hi hi1
  have e1 : d.dates[i] = ⟨e, b, t, r⟩ := (List.getElem?_eq_some_iff.1 hdi).2
  have e2 : values[i] = v := (List.getElem?_eq_some_iff.1 hvi).2
  have e3 : rets[i] = x := (List.getElem?_eq_some_iff.1 hx).2
  have e4 := hrl.2 i e e' he he'
  have hi3 := (List.getElem?_eq_some_iff.1 e4).1
  have e5 := (List.getElem?_eq_some_iff.1 e4).2
  have a2 := hrs.get (i := i) (by simp; omega) hi2
  simp only [List.get_eq_getElem, List.getElem_zip, e1, e2, e3, e5] at a1 a2
  refine ⟨a1, ?_⟩
  unfold assetRet at a2
  simp only [FitData.exMkt] at a2
  split at a2
  · cases a2
  · next delta hdelta =>
    refine ⟨delta, hdelta, ?_⟩
    split_ifs at a2 with hz
    push Not at hz
    obtain ⟨hz1, hz2⟩ := hz
    have hdn : delta ≠ 0 := by rintro rfl; simp at hz2
    have hvn : v ≠ 0 := by rintro rfl; simp at hz2
    refine ⟨hdn, hvn, ?_⟩
    cases a2
    field_simp

/-- A fit that converges in the first round: constant equity has no returns, whatever the assets are worth.
(The root finder answers 2 and the regression `[0, 1]`.) -/
theorem fit_converges (tol : ℝ) (htol : 0 < tol) (n : ℕ) : fit (fun _ _ _ _ => .ok 2) (fun _ _ => [0, 1])
    ⟨0, [1, 2], [1, 1, 1], [1, 1, 1], [1, 1, 1], 1, [0, 0]⟩ tol (n + 1) =
      .ok (⟨1 / 8, 1, 1 / 2⟩, ([0, 0], [2, 2])) := by
  classical
  have hl : logDiff [1, 1, 1] = .ok [0, 0] := by
    unfold logDiff
    rw [if_pos (by simp)]
    simp
  have hX : addConstant [1, 2] = .ok [[1, 1], [1, 2]] := by
    unfold addConstant
    rw [if_neg (by simp), if_neg (by simp)]
    simp
  have hstd : npStd [-1, -2] = 1 / 2 := by
    unfold npStd
    rw [show (([-1, -2] : List ℝ).map fun v => (v - ([-1, -2] : List ℝ).sum / (([-1, -2] : List ℝ).length : ℝ)) ^ 2).sum
        / (([-1, -2] : List ℝ).length : ℝ) = (1 / 2) ^ 2 by norm_num]
    exact Real.sqrt_sq (by norm_num)
  have hreg : regressFirmParams (fun _ _ => [0, 1]) [0, 0] [1, 2] [0, 0] 1 = .ok ⟨1 / 8, 1, 1 / 2⟩ := by
    unfold regressFirmParams npZip
    simp only [List.length_cons, List.length_nil, if_true, List.zipWith_cons_cons, List.zipWith_nil_left,
      py_bind_ok, zero_mul, sub_zero, hX, pyGet, List.getElem?_cons_succ, List.getElem?_cons_zero]
    simp only [dotL, List.zipWith_cons_cons, List.zipWith_nil_left, List.sum_cons, List.sum_nil]
    norm_num
    rw [show (-1 : ℝ) = -1 from rfl, hstd]
    unfold annualise
    norm_num
  rw [C116_fit _ _ _ ⟨rfl, rfl, rfl⟩]
  refine ⟨[0, 0], ⟨1 / 8, 1, 1 / 2⟩, hl, hreg, 0, n.succ_pos, fun _ => ⟨1 / 8, 1, 1 / 2⟩,
    fun _ => ([0, 0], [2, 2]), ⟨rfl, ?_, by simp, by simp [Close, htol]⟩, rfl, rfl⟩
  intro j _
  have ha : ∀ f ∈ [(⟨1, 1, 1, 0⟩ : FirmDate)], assetRet ⟨0, [1, 2], [1, 1, 1], [1, 1, 1], [1, 1, 1], 1, [0, 0]⟩
      ⟨1 / 8, 1, 1 / 2⟩ f 2 0 = .ok 0 := by
    intro f hf
    obtain rfl := List.mem_singleton.1 hf
    unfold assetRet condD1 npLog
    rw [if_neg (by norm_num), if_pos (by norm_num)]
    simp only [FExt.add, FExt.div]
    rw [if_neg (by norm_num)]
    simp only [FExt.cdf]
    rw [if_neg (by simp [(normCdf_pos _).ne'])]
    simp
  have ha := ha _ (List.mem_singleton_self _)
  unfold fitRound
  have hd : (FitData.dates ⟨0, [1, 2], [1, 1, 1], [1, 1, 1], [1, 1, 1], 1, [0, 0]⟩) =
      [⟨1, 1, 1, 0⟩, ⟨1, 1, 1, 0⟩] := rfl
  rw [hd]
  simp only [mapM_cons_py, List.mapM_nil, assetValue, impliedAssetPrice, py_bind_ok, py_pure, List.zip_cons_cons,
    List.zip_nil_left, ha, hreg]

/-- C116. `create_firm_model` passes on aligned arrays: it has one debt value and maturity for each market
capitalisation and one rate less, so `C116_fit` applies to it. -/
theorem C116_firm_model (newton : (ℝ → Py (Option ℝ)) → ℝ → ℝ → ℕ → Py ℝ)
    (ols : List (List ℝ) → List ℝ → List ℝ) (rows : List FirmRow) (hne : rows ≠ [])
    (interval expectedMarketRet ratio : ℝ) (q : FirmParams) (a : List ℝ × List ℝ)
    (h : createFirmModel newton ols rows interval expectedMarketRet ratio = .ok (q, a)) :
    ∃ d : FitData, d.Aligned ∧ d.marketRets.length + 1 = rows.length ∧
      (∀ (i : ℕ) r r', rows[i]? = some r → rows[i + 1]? = some r' →
        d.equity[i]? = some r.marketCap ∧ d.debt[i]? = some (r.shortDebt + r.longDebt / 2) ∧
        d.maturity[i]? = some 1 ∧ d.riskFree[i]? = some r.yield ∧
        d.marketRets[i]? = some (ratio * (Real.log r'.equities - Real.log r.equities) +
          (1 - ratio) * (Real.log r'.bonds - Real.log r.bonds))) ∧
      fit newton ols d (1 / 1000000) 100 = .ok (q, a) := by
  unfold createFirmModel at h
  rw [py_bind_eq_ok] at h
  obtain ⟨m, hm, h⟩ := h
  have hlen : 0 < rows.length := List.length_pos_iff.2 hne
  unfold marketRets logDiff at hm
  split_ifs at hm with h1 h2
  · simp only [py_bind_ok, npZip] at hm
    rw [if_pos (by simp)] at hm
    cases hm
    refine ⟨_, ⟨?_, ?_, ?_⟩, ?_, ?_, h⟩
    · simp [debtValues]
    · simp
    · simp; omega
    · simp; omega
    · intro i r r' hr hr'
      refine ⟨by simp [hr], ?_, ?_, ?_, ?_⟩
      · simp [debtValues, hr]
      · rw [List.getElem?_map, hr]; rfl
      · have := (List.getElem?_eq_some_iff.1 hr').1
        simp [List.getElem?_dropLast, hr]
        omega
      · simp [List.getElem?_zipWith, hr, hr']
  · cases hm
  · cases hm
  · cases hm

/-! ## C117 and C146: equity as an option -/

theorem condD1_fin {s0 k r sigma t alpha beta m : ℝ} (hs0 : 0 < s0) (hk : 0 < k) (hs : 0 < sigma)
    (ht : 0 < t) : condD1 s0 k r sigma t alpha beta m =
      .fin (Real.log (s0 / (k * Real.exp (-r * t))) / (sigma * √t) + sigma * √t / 2 +
        (alpha * t + beta * m) / (sigma * √t)) := by
  have h1 : 0 < √t := Real.sqrt_pos.2 ht
  have h2 : √t ^ 2 = t := Real.sq_sqrt ht.le
  unfold condD1 npLog
  rw [if_neg (not_lt.2 ht.le), if_pos (div_pos hs0 hk)]
  simp only [FExt.add, FExt.div]
  rw [if_neg (mul_pos hs h1).ne']
  congr 1
  have e : Real.log (s0 / (k * Real.exp (-r * t))) = Real.log (s0 / k) + r * t := by
    rw [Real.log_div hs0.ne' (by positivity), Real.log_mul hk.ne' (by positivity), Real.log_exp,
      Real.log_div hs0.ne' hk.ne']
    ring
  rw [e]
  generalize Real.log (s0 / k) = L
  have : sigma * √t ≠ 0 := (mul_pos hs h1).ne'
  rw [eq_comm, ← sub_eq_zero]
  field_simp
  rw [h2]
  ring

/-- The value of equity as a function of the threshold `d₂`. -/
theorem condEquity_eq {s0 k r sigma t alpha beta m : ℝ} (hs0 : 0 < s0) (hk : 0 < k) (hs : 0 < sigma)
    (ht : 0 < t) : condEquityValue s0 k r sigma t alpha beta m =
      some (gval s0 (k * Real.exp (-r * t)) (sigma * √t)
        (Real.log (s0 / (k * Real.exp (-r * t))) / (sigma * √t) - sigma * √t / 2 +
          (alpha * t + beta * m) / (sigma * √t))) := by
  unfold condEquityValue condD2
  rw [condD1_fin hs0 hk hs ht]
  simp only [FExt.add, FExt.cdf, gval, Option.bind_eq_bind, Option.bind_some, Option.pure_def]
  generalize Real.log (s0 / (k * Real.exp (-r * t))) / (sigma * √t) = x
  generalize (alpha * t + beta * m) / (sigma * √t) = c
  generalize sigma * √t = y
  rw [show x + y / 2 + c + -y = x - y / 2 + c by ring, show x - y / 2 + c + y = x + y / 2 + c by ring]

/-- C117. With `alpha = beta = 0` the value of equity is the Black-Scholes-Merton price of a call on the
assets with the debt as strike. -/
theorem C117_call (s0 k r sigma t m : ℝ) (hk : k ≠ 0) :
    .ok (condEquityValue s0 k r sigma t 0 0 m) = bsmOptionPrice .call s0 k r sigma t none 0 false := by
  have h1 : condD1 s0 k r sigma t 0 0 m = bsmD1 s0 k r sigma t 0 := by
    unfold condD1 bsmD1 logRatio
    rw [if_neg hk]
    split_ifs
    · rfl
    · rw [zero_mul, add_zero, sub_zero]
      congr 1
      cases (npLog (s0 / k)).add ((r + sigma ^ 2 / 2) * t) <;> simp [FExt.add]
  unfold bsmOptionPrice
  rw [if_neg (by simp), if_neg (by simp [hk])]
  unfold bsmCall condEquityValue condD2 bsmD2
  simp [h1, spotLess, yieldUsed]

/-- C117. With a positive asset value, volatility and maturity, `predict_default` is the probability that a
normal variable with mean `log(V/D) + (r + alpha - sigma²/2)T + beta·m` and standard deviation `sigma·√T`
is negative; it is strictly between 0 and 1. -/
theorem C117_probability (newton : (ℝ → Py (Option ℝ)) → ℝ → ℝ → ℕ → Py ℝ) (p : FirmParams)
    (equity debt maturity riskFree marketRet v : ℝ) (y : Option ℝ) (hs : 0 < p.sigma) (ht : 0 < maturity)
    (hv : 0 < v)
    (hn : newton (fun s => .ok ((condEquityValue s (max 1 debt) riskFree p.sigma maturity p.alpha p.beta
        (marketRet - riskFree * maturity)).map (· - equity))) (equity + max 1 debt) (1 / 100) 100 = .ok v)
    (h : predictDefault newton p equity debt maturity riskFree marketRet = .ok y) :
    y = some (normCdf (-((Real.log (v / max 1 debt) + (riskFree + p.alpha - p.sigma ^ 2 / 2) * maturity +
        p.beta * (marketRet - riskFree * maturity)) / (p.sigma * √maturity)))) ∧
      ∃ x, y = some x ∧ 0 < x ∧ x < 1 := by
  unfold predictDefault impliedAssetPrice at h
  simp only at h
  have hk : 0 < max 1 debt := lt_of_lt_of_le one_pos (le_max_left _ _)
  have h1 : 0 < √maturity := Real.sqrt_pos.2 ht
  have h2 : √maturity ^ 2 = maturity := Real.sq_sqrt ht.le
  simp only [Except.map] at h
  rw [hn, py_bind_ok, condD2, condD1_fin hv hk hs ht] at h
  simp only [FExt.add, FExt.cdf, Option.map_some, py_pure, Except.ok.injEq] at h
  have key : y = some (normCdf (-((Real.log (v / max 1 debt) + (riskFree + p.alpha - p.sigma ^ 2 / 2) * maturity +
        p.beta * (marketRet - riskFree * maturity)) / (p.sigma * √maturity)))) := by
    rw [← h, normCdf_neg]
    congr 3
    have e : Real.log (v / (max 1 debt * Real.exp (-riskFree * maturity))) =
        Real.log (v / max 1 debt) + riskFree * maturity := by
      rw [Real.log_div hv.ne' (by positivity), Real.log_mul hk.ne' (by positivity), Real.log_exp,
        Real.log_div hv.ne' hk.ne']
      ring
    rw [e]
    generalize Real.log (v / max 1 debt) = L
    rw [eq_comm, ← sub_eq_zero]
    field_simp
    rw [h2]
    ring
  exact ⟨key, _, key, normCdf_pos _, normCdf_lt_one _⟩

/-- C117. For given asset value and `beta > 0` the probability of default decreases with the return of the
market. -/
theorem C117_decreasing (newton : (ℝ → Py (Option ℝ)) → ℝ → ℝ → ℕ → Py ℝ) (p : FirmParams)
    (equity debt maturity riskFree m₁ m₂ v x₁ x₂ : ℝ) (hs : 0 < p.sigma) (ht : 0 < maturity)
    (hb : 0 < p.beta) (hv : 0 < v) (hm : m₁ < m₂)
    (hn : ∀ m ∈ [m₁, m₂], newton (fun s => .ok ((condEquityValue s (max 1 debt) riskFree p.sigma maturity
        p.alpha p.beta (m - riskFree * maturity)).map (· - equity))) (equity + max 1 debt) (1 / 100) 100 =
          .ok v)
    (h₁ : predictDefault newton p equity debt maturity riskFree m₁ = .ok (some x₁))
    (h₂ : predictDefault newton p equity debt maturity riskFree m₂ = .ok (some x₂)) : x₂ < x₁ := by
  have e₁ := (C117_probability newton p equity debt maturity riskFree m₁ v _ hs ht hv (hn _ (by simp)) h₁).1
  have e₂ := (C117_probability newton p equity debt maturity riskFree m₂ v _ hs ht hv (hn _ (by simp)) h₂).1
  simp only [Option.some.injEq] at e₁ e₂
  rw [e₁, e₂]
  have hpos : 0 < p.sigma * √maturity := mul_pos hs (Real.sqrt_pos.2 ht)
  apply normCdf_strictMono
  gcongr

/-- The hypotheses can be met: a root finder that always answers 3. -/
example : predictDefault (fun _ _ _ _ => .ok 3) ⟨0, 1, 1⟩ 1 2 1 0 (-Real.log (3 / 2)) =
    .ok (some (normCdf (1 / 2))) := by
  obtain ⟨y, hy⟩ : ∃ y, predictDefault (fun _ _ _ _ => .ok 3) ⟨0, 1, 1⟩ 1 2 1 0 (-Real.log (3 / 2)) = .ok y := by
    unfold predictDefault impliedAssetPrice
    exact ⟨_, rfl⟩
  have h := (C117_probability (fun _ _ _ _ => .ok 3) ⟨0, 1, 1⟩ 1 2 1 0 (-Real.log (3 / 2)) 3 y (by norm_num)
    (by norm_num) (by norm_num) rfl hy).1
  rw [hy, h]
  norm_num

/-- C146, the full claim: equity has limited liability, is worth at least what remains after paying the
present value of the debt, and less than the assets. -/
def EquityBounds : Prop :=
  ∀ s0 k r sigma t alpha beta m v : ℝ, 0 < s0 → 0 < k → 0 < sigma → 0 < t →
    condEquityValue s0 k r sigma t alpha beta m = some v →
    max (s0 - k * Real.exp (-r * t)) 0 ≤ v ∧ v < s0

/-- C146. The value can be negative: assets 1, debt 2, `r = 0`, `sigma = 1`, one year and `alpha = 10`. -/
theorem C146_bounds_counterexample : ¬ EquityBounds := by
  intro h
  have e := condEquity_eq (s0 := 1) (k := 2) (r := 0) (sigma := 1) (t := 1) (alpha := 10) (beta := 0) (m := 0)
    one_pos two_pos one_pos one_pos
  have h1 := (h 1 2 0 1 1 10 0 0 _ one_pos two_pos one_pos one_pos e).1
  have h2 := le_trans (le_max_right _ _) h1
  unfold gval at h2
  simp only [neg_zero, zero_mul, Real.exp_zero, mul_one, Real.sqrt_one, div_one, add_zero, one_mul] at h2
  have h3 : (0 : ℝ) ≤ Real.log (1 / 2) - 1 / 2 + 10 := by
    have := Real.one_sub_inv_le_log_of_pos (show (0 : ℝ) < 1 / 2 by norm_num)
    norm_num at this ⊢
    linarith
  have h4 : (1 : ℝ) / 2 ≤ normCdf (Real.log (1 / 2) - 1 / 2 + 10) := by
    exact normCdf_zero.symm.le.trans (normCdf_strictMono.monotone h3)
  have h5 := normCdf_lt_one (Real.log (1 / 2) - 1 / 2 + 10 + 1)
  linarith

/-- C146, what holds: the value is less than the assets and at most the Black-Scholes-Merton price of the
call, with equality only if `alpha·t + beta·m = 0`; it is positive if `alpha·t + beta·m ≤ 0` and exceeds
assets less the present value of the debt if `alpha·t + beta·m ≥ 0`.

Missing: both lower bounds at once unless `alpha·t + beta·m = 0` (refuted by
`C146_bounds_counterexample`). -/
theorem C146_bounds_partial (s0 k r sigma t alpha beta m v : ℝ) (hs0 : 0 < s0) (hk : 0 < k)
    (hs : 0 < sigma) (ht : 0 < t) (h : condEquityValue s0 k r sigma t alpha beta m = some v) :
    v < s0 ∧ (alpha * t + beta * m ≤ 0 → 0 < v) ∧
    (0 ≤ alpha * t + beta * m → s0 - k * Real.exp (-r * t) < v) ∧
    ∃ c, bsmOptionPrice .call s0 k r sigma t none 0 false = .ok (some c) ∧ v ≤ c ∧
      (v = c ↔ alpha * t + beta * m = 0) := by
  have hb : 0 < k * Real.exp (-r * t) := mul_pos hk (Real.exp_pos _)
  have hσ : 0 < sigma * √t := mul_pos hs (Real.sqrt_pos.2 ht)
  rw [condEquity_eq hs0 hk hs ht, Option.some.injEq] at h
  have hc : bsmOptionPrice .call s0 k r sigma t none 0 false =
      .ok (some (gval s0 (k * Real.exp (-r * t)) (sigma * √t)
        (Real.log (s0 / (k * Real.exp (-r * t))) / (sigma * √t) - sigma * √t / 2))) := by
    rw [← C117_call s0 k r sigma t 0 hk.ne', condEquity_eq hs0 hk hs ht]
    simp
  have hmono := gval_strictMonoOn hs0 hb hσ
  have hanti := gval_strictAntiOn hs0 hb hσ
  generalize hD : Real.log (s0 / (k * Real.exp (-r * t))) / (sigma * √t) - sigma * √t / 2 = D at *
  generalize hB : k * Real.exp (-r * t) = B at *
  have hlt : (alpha * t + beta * m) / (sigma * √t) < 0 ↔ alpha * t + beta * m < 0 := by
    rw [div_lt_iff₀ hσ, zero_mul]
  have hgt : 0 < (alpha * t + beta * m) / (sigma * √t) ↔ 0 < alpha * t + beta * m := by
    rw [lt_div_iff₀ hσ, zero_mul]
  generalize hu : (alpha * t + beta * m) / (sigma * √t) = u at *
  subst h
  refine ⟨?_, ?_, ?_, _, hc, ?_⟩
  · unfold gval
    have h1 := mul_lt_mul_of_pos_left (normCdf_lt_one (D + u + sigma * √t)) hs0
    have h2 := mul_pos hb (normCdf_pos (D + u))
    linarith
  · intro h
    apply gval_pos hs0 hb hσ
    rw [hD]
    have := not_lt.1 (mt hgt.1 (not_lt.2 h))
    linarith
  · intro h
    apply gval_gt hs0 hb hσ
    rw [hD]
    have := not_lt.1 (mt hlt.1 (not_lt.2 h))
    linarith
  · rcases lt_trichotomy (alpha * t + beta * m) 0 with h | h | h
    · have hu := hlt.2 h
      have := hmono (by simp only [Set.mem_Iic]; linarith) (by simp) (show D + u < D by linarith)
      exact ⟨this.le, iff_of_false this.ne h.ne⟩
    · have : u = 0 := by rw [← hu, h, zero_div]
      rw [this, add_zero]
      exact ⟨le_refl _, iff_of_true rfl h⟩
    · have hu := hgt.2 h
      have := hanti (by simp) (by simp only [Set.mem_Ici]; linarith) (show D < D + u by linarith)
      exact ⟨this.le, iff_of_false this.ne h.ne'⟩

/-! ## C147: the regression -/

theorem sum_sq_shift (r : List ℝ) (t : ℝ) :
    (r.map fun e => (e - t) ^ 2).sum = (r.map fun e => e ^ 2).sum - 2 * t * r.sum + r.length * t ^ 2 := by
  induction r with
  | nil => simp
  | cons a r ih => simp only [List.map_cons, List.sum_cons, ih, List.length_cons]; push_cast; ring

/-- Residuals of the line `c + b·m`. -/
def residuals (m y : List ℝ) (c b : ℝ) : List ℝ := List.zipWith (fun u v => v - (c + b * u)) m y

theorem ssr_residuals (m y : List ℝ) (c b : ℝ) :
    ssr (m.map fun v => [1, v]) y [c, b] = ((residuals m y c b).map fun e => e ^ 2).sum := by
  unfold ssr residuals
  rw [List.zipWith_map_left, List.map_zipWith]
  congr 2
  funext u v
  simp [dotL, mul_comm]

theorem residuals_shift (m y : List ℝ) (c b t : ℝ) :
    residuals m y (c + t) b = (residuals m y c b).map fun e => e - t := by
  unfold residuals
  rw [List.map_zipWith]
  congr 1
  funext u v
  ring

/-- C147. The parameters are those of the least-squares line of excess asset returns on excess market
returns: `beta` is its slope, `sigma²·interval` is the mean squared residual, which no other line
makes smaller, and `(alpha - sigma²/2)·interval` is the intercept. -/
theorem C147_regression (ols : List (List ℝ) → List ℝ → List ℝ) (hols : IsOls ols)
    (assetRets marketRets riskFree : List ℝ) (interval : ℝ) (p : FirmParams)
    (h : regressFirmParams ols assetRets marketRets riskFree interval = .ok p) :
    ∃ n : ℕ, 0 < n ∧ assetRets.length = n ∧ marketRets.length = n ∧ riskFree.length = n ∧ 0 < interval ∧
      0 ≤ p.sigma ∧
      p.sigma ^ 2 * interval * n = ((residuals (List.zipWith (fun a r => a - r * interval) marketRets riskFree)
        (List.zipWith (fun a r => a - r * interval) assetRets riskFree)
        ((p.alpha - p.sigma ^ 2 / 2) * interval) p.beta).map fun e => e ^ 2).sum ∧
      ∀ c b : ℝ, p.sigma ^ 2 * interval * n ≤
        ((residuals (List.zipWith (fun a r => a - r * interval) marketRets riskFree)
          (List.zipWith (fun a r => a - r * interval) assetRets riskFree) c b).map fun e => e ^ 2).sum := by
  unfold regressFirmParams npZip at h
  split_ifs at h with h1 h2
  · simp only [py_bind_ok] at h
    set y := List.zipWith (fun a r => a - r * interval) assetRets riskFree with hy
    set m := List.zipWith (fun a r => a - r * interval) marketRets riskFree with hm
    have hyl : y.length = riskFree.length := by simp [hy, h1]
    have hml : m.length = riskFree.length := by simp [hm, h2]
    unfold addConstant at h
    split_ifs at h with h3 h4
    · cases h
    · exfalso
      rw [py_bind_ok] at h
      have hl := (hols (m.map fun v => [v]) y 1 (by simpa using h3) (by simp; omega)
        (by intro r hr; obtain ⟨v, -, rfl⟩ := List.mem_map.1 hr; rfl)).1
      simp only [pyGet] at h
      rw [List.getElem?_eq_none (by omega)] at h
      cases h
    · rw [py_bind_ok] at h
      have hl := hols (m.map fun v => [1, v]) y 2 (by simpa using h3) (by simp; omega)
        (by intro r hr; obtain ⟨v, -, rfl⟩ := List.mem_map.1 hr; rfl)
      obtain ⟨hl1, hl2⟩ := hl
      generalize ols (m.map fun v => [1, v]) y = params at *
      obtain ⟨c0, b0, rfl⟩ : ∃ c0 b0, params = [c0, b0] := by
        match params, hl1 with
        | [p, q], _ => exact ⟨p, q, rfl⟩
      simp only [pyGet, List.getElem?_cons_zero, List.getElem?_cons_succ, py_bind_ok] at h
      have hres : List.zipWith (fun row v => v - dotL row [c0, b0]) (m.map fun v => [1, v]) y =
          residuals m y c0 b0 := by
        unfold residuals
        rw [List.zipWith_map_left]
        congr 1
        funext u v
        simp [dotL, mul_comm]
      rw [hres] at h
      unfold annualise at h
      split_ifs at h with hi
      cases h
      have hn : 0 < riskFree.length := by
        rw [← hml]
        exact List.length_pos_iff.2 h3
      have hn' : (0 : ℝ) < (riskFree.length : ℝ) := by exact_mod_cast hn
      have hrl : (residuals m y c0 b0).length = riskFree.length := by simp [residuals, hyl, hml]
      have hsum : (residuals m y c0 b0).sum = 0 := by
        have := hl2 [c0 + (residuals m y c0 b0).sum / riskFree.length, b0] rfl
        rw [ssr_residuals, ssr_residuals, residuals_shift, List.map_map] at this
        simp only [Function.comp_def] at this
        rw [sum_sq_shift, hrl] at this
        generalize (residuals m y c0 b0).sum = S at *
        have h5 : S ^ 2 / riskFree.length ≤ 0 := by
          have e : -2 * (S / (riskFree.length : ℝ)) * S + riskFree.length * (S / riskFree.length) ^ 2 =
              -(S ^ 2 / riskFree.length) := by
            field_simp
            ring
          linarith
        have h6 : S ^ 2 ≤ 0 := by
          rw [div_le_iff₀ hn', zero_mul] at h5
          exact h5
        exact pow_eq_zero_iff (two_ne_zero) |>.1 (le_antisymm h6 (sq_nonneg _))
      have hstd : npStd (residuals m y c0 b0) =
          √(((residuals m y c0 b0).map fun e => e ^ 2).sum / riskFree.length) := by
        unfold npStd
        rw [hsum, hrl]
        simp
      have hq : 0 ≤ ((residuals m y c0 b0).map fun e => e ^ 2).sum :=
        List.sum_nonneg (by intro x hx; obtain ⟨e, -, rfl⟩ := List.mem_map.1 hx; positivity)
      have hmain : (npStd (residuals m y c0 b0) / √interval) ^ 2 * interval * riskFree.length =
          ((residuals m y c0 b0).map fun e => e ^ 2).sum := by
        rw [div_pow, Real.sq_sqrt hi.le, hstd, Real.sq_sqrt (div_nonneg hq hn'.le)]
        field_simp
      refine ⟨riskFree.length, hn, h1, h2, rfl, hi, ?_, ?_, ?_⟩
      · exact div_nonneg (Real.sqrt_nonneg _) (Real.sqrt_nonneg _)
      · simp only
        rw [hmain, show (c0 / interval + (npStd (residuals m y c0 b0) / √interval) ^ 2 / 2 -
          (npStd (residuals m y c0 b0) / √interval) ^ 2 / 2) * interval = c0 by field_simp; ring]
      · intro c b
        simp only
        rw [hmain, ← ssr_residuals, ← ssr_residuals]
        exact hl2 [c, b] rfl
  all_goals cases h

/-- The hypotheses can be met. -/
example : ∃ ols, IsOls ols ∧ ∃ p, regressFirmParams ols [1, 3] [0, 1] [0, 0] 1 = .ok p := by
  obtain ⟨ols, hols⟩ := exists_isOls
  refine ⟨ols, hols, ?_⟩
  have hX : addConstant [0, 1] = .ok [[1, 0], [1, 1]] := by
    unfold addConstant
    rw [if_neg (by simp), if_neg (by simp)]
    simp
  have hl := (hols [[1, 0], [1, 1]] [1, 3] 2 (by simp) rfl (by simp)).1
  unfold regressFirmParams npZip
  simp only [List.length_cons, List.length_nil, if_true, List.zipWith_cons_cons, List.zipWith_nil_left,
    py_bind_ok, zero_mul, sub_zero, hX, pyGet]
  generalize ols [[1, 0], [1, 1]] [1, 3] = params at hl
  match params, hl with
  | [a, b], _ =>
    simp only [List.getElem?_cons_succ, List.getElem?_cons_zero, py_bind_ok, annualise, one_pos, if_true]
    exact ⟨_, rfl⟩

/-- C147. A market without variation in its excess returns (other than at zero) is an IndexError. -/
theorem C147_constant_market (ols : List (List ℝ) → List ℝ → List ℝ) (hols : IsOls ols)
    (assetRets marketRets riskFree : List ℝ) (interval c : ℝ) (hc : c ≠ 0)
    (h1 : assetRets.length = riskFree.length) (h2 : marketRets.length = riskFree.length)
    (hne : riskFree ≠ [])
    (h : ∀ x ∈ List.zipWith (fun a r => a - r * interval) marketRets riskFree, x = c) :
    regressFirmParams ols assetRets marketRets riskFree interval = .error .indexError := by
  unfold regressFirmParams npZip
  rw [if_pos h1, if_pos h2, py_bind_ok, py_bind_ok]
  set y := List.zipWith (fun a r => a - r * interval) assetRets riskFree with hy
  set m := List.zipWith (fun a r => a - r * interval) marketRets riskFree with hm
  have hn := List.length_pos_iff.2 hne
  have hyl : y.length = riskFree.length := by simp [hy, h1]
  have hml : m.length = riskFree.length := by simp [hm, h2]
  have hmne : m ≠ [] := by
    intro h0
    rw [h0] at hml
    simp at hml
    omega
  unfold addConstant
  rw [if_neg hmne, if_pos ⟨fun a ha b hb => by rw [h a ha, h b hb], fun a ha => by rw [h a ha]; exact hc⟩,
    py_bind_ok]
  have hl := (hols (m.map fun v => [v]) y 1 (by simpa using hmne) (by simp; omega)
    (by intro r hr; obtain ⟨v, -, rfl⟩ := List.mem_map.1 hr; rfl)).1
  simp only [pyGet]
  rw [List.getElem?_eq_none (by omega)]
  rfl

end FinML.Default
