import Verif.Default.AnnualProps
import Verif.Default.AssetProps

/-!
# Property C339: default probabilities have no currency

The root finder is exact here (`FindsRoots`).  The one of the code stops at a distance of 1/100 units of the currency,
which is a dependence of its own.
-/

namespace FinML.Default

open FinML.Options

/-- C339, the full claim: equity and debt in another currency give the same probability of default. -/
def NoCurrency : Prop :=
  ∀ newton newton' (p : FirmParams) (c equity debt maturity riskFree marketRet x y : ℝ), FindsRoots newton →
    FindsRoots newton' → 0 < p.sigma → 0 < maturity → 0 < c → 0 < equity → 0 < debt →
    predictDefault newton p equity debt maturity riskFree marketRet = .ok (some x) →
    predictDefault newton' p (c * equity) (c * debt) maturity riskFree marketRet = .ok (some y) → x = y

/-! ## Scaling -/

theorem condD1_scale {c s0 k r sigma t alpha beta m : ℝ} (hc : c ≠ 0) :
    condD1 (c * s0) (c * k) r sigma t alpha beta m = condD1 s0 k r sigma t alpha beta m := by
  unfold condD1
  rw [mul_div_mul_left _ _ hc]

theorem condEquity_scale {c s0 k r sigma t alpha beta m v : ℝ} (hc : c ≠ 0)
    (h : condEquityValue s0 k r sigma t alpha beta m = some v) :
    condEquityValue (c * s0) (c * k) r sigma t alpha beta m = some (c * v) := by
  unfold condEquityValue condD2 at *
  rw [condD1_scale hc]
  cases h1 : (condD1 s0 k r sigma t alpha beta m).cdf with
  | none => rw [h1] at h; cases h
  | some a =>
    cases h2 : ((condD1 s0 k r sigma t alpha beta m).add (-(sigma * √t))).cdf with
    | none => rw [h1, h2] at h; cases h
    | some b =>
      rw [h1, h2] at h
      simp only [Option.bind_eq_bind, Option.bind_some, Option.pure_def, Option.some.injEq] at h ⊢
      rw [← h]
      ring

/-- Without volatility a firm with equity has paid its debt. -/
theorem condEquity_flat {s0 k r t alpha beta m v : ℝ} (hs0 : 0 < s0) (hk : 0 < k) (ht : 0 < t) (hv : 0 < v)
    (h : condEquityValue s0 k r 0 t alpha beta m = some v) : v = s0 - k * Real.exp (-r * t) := by
  unfold condEquityValue condD2 condD1 npLog at h
  rw [if_neg (not_lt.2 ht.le), if_pos (div_pos hs0 hk)] at h
  simp only [FExt.add, FExt.div, zero_mul, if_pos] at h
  split_ifs at h
  · simp only [FExt.cdf, Option.bind_eq_bind, Option.bind_some, Option.pure_def, Option.some.injEq] at h
    linarith
  · simp only [FExt.cdf, Option.bind_eq_bind, Option.bind_some, Option.pure_def, Option.some.injEq] at h
    linarith
  · cases h

theorem equity_unique {x y k r sigma t alpha beta m v : ℝ} (hx : 0 < x) (hy : 0 < y) (hk : 0 < k) (hs : 0 ≤ sigma)
    (ht : 0 < t) (hv : 0 < v) (h : condEquityValue x k r sigma t alpha beta m = some v)
    (h' : condEquityValue y k r sigma t alpha beta m = some v) : x = y := by
  rcases hs.lt_or_eq with hs | rfl
  · exact (C332_unique hk hs ht hv).unique ⟨hx, h⟩ ⟨hy, h'⟩
  · have e1 := condEquity_flat hx hk ht hv h
    have e2 := condEquity_flat hy hk ht hv h'
    linarith

/-! ## Prediction -/

/-- C339, what holds: the claim for debts of at least one unit in both currencies.  Missing: smaller debts, which count
as one unit, for which the claim is false (`C339_currency_counterexample`). -/
theorem C339_currency_partial (newton newton' : (ℝ → Py (Option ℝ)) → ℝ → ℝ → ℕ → Py ℝ) (p : FirmParams)
    (c equity debt maturity riskFree marketRet x y : ℝ) (hn : FindsRoots newton) (hn' : FindsRoots newton')
    (hs : 0 < p.sigma) (ht : 0 < maturity) (hc : 0 < c) (he : 0 < equity) (hd : 1 ≤ debt) (hd' : 1 ≤ c * debt)
    (hx : predictDefault newton p equity debt maturity riskFree marketRet = .ok (some x))
    (hy : predictDefault newton' p (c * equity) (c * debt) maturity riskFree marketRet = .ok (some y)) : x = y := by
  obtain ⟨⟨v, h1, h2, rfl⟩, -⟩ := C153_predict_partial newton hn p _ _ _ _ _ _ hs ht hx
  obtain ⟨⟨w, k1, k2, rfl⟩, -⟩ := C153_predict_partial newton' hn' p _ _ _ _ _ _ hs ht hy
  rw [max_eq_right hd] at h2 ⊢
  rw [max_eq_right hd'] at k2 ⊢
  have := equity_unique (mul_pos hc h1) k1 (by linarith) hs.le ht (mul_pos hc he) (condEquity_scale hc.ne' h2) k2
  rw [← this, mul_div_mul_left _ _ hc.ne']

/-- A root finder that finds roots gives every firm with equity a probability of default. -/
theorem idealNewton_predict {p : FirmParams} {equity debt maturity riskFree marketRet : ℝ} (hs : 0 < p.sigma)
    (ht : 0 < maturity) (he : 0 < equity) :
    ∃ x, predictDefault idealNewton p equity debt maturity riskFree marketRet = .ok (some x) := by
  have hk : 0 < max 1 debt := lt_of_lt_of_le one_pos (le_max_left _ _)
  obtain ⟨v, hv⟩ : ∃ v, idealNewton (fun s => .ok ((condEquityValue s (max 1 debt) riskFree p.sigma maturity p.alpha
      p.beta (marketRet - riskFree * maturity)).map (· - equity))) (equity + max 1 debt) (1 / 100) 100 = .ok v := by
    obtain ⟨x, ⟨hx, h⟩, -⟩ := C332_unique (r := riskFree) (alpha := p.alpha) (beta := p.beta)
      (m := marketRet - riskFree * maturity) hk hs ht he
    exact idealNewton_ok _ _ _ _ ⟨x, hx, by simp only [h, Option.map_some, sub_self]⟩
  obtain ⟨h1, -⟩ := idealNewton_finds _ _ _ _ _ hv
  obtain ⟨y, hy⟩ : ∃ y, predictDefault idealNewton p equity debt maturity riskFree marketRet = .ok y := by
    unfold predictDefault impliedAssetPrice
    simp only [Except.map, hv, py_bind_ok]
    exact ⟨_, rfl⟩
  obtain ⟨-, x, rfl, -⟩ := C117_probability idealNewton p equity debt maturity riskFree marketRet v y hs ht h1 hv hy
  exact ⟨x, hy⟩

/-- C339, the claim is false: a firm with an equity and a debt of half a billion has, counted in billions, a debt of
one billion, and more risk than counted in units of half a billion. -/
theorem C339_currency_counterexample : ¬ NoCurrency := by
  intro H
  have h1 : (0 : ℝ) < 1 / 2 := by norm_num
  obtain ⟨x, hx⟩ := idealNewton_predict (p := ⟨0, 0, 1⟩) (equity := 1 / 2) (debt := 1 / 2) (maturity := 1)
    (riskFree := 0) (marketRet := 0) one_pos one_pos h1
  obtain ⟨y, hy⟩ := idealNewton_predict (p := ⟨0, 0, 1⟩) (equity := 2 * (1 / 2)) (debt := 2 * (1 / 2)) (maturity := 1)
    (riskFree := 0) (marketRet := 0) one_pos one_pos (by norm_num)
  have e := H idealNewton idealNewton ⟨0, 0, 1⟩ 2 (1 / 2) (1 / 2) 1 0 0 x y idealNewton_finds idealNewton_finds
    one_pos one_pos two_pos h1 h1 hx hy
  obtain ⟨⟨v, a1, a2, a3⟩, -⟩ := C153_predict_partial _ idealNewton_finds ⟨0, 0, 1⟩ _ _ _ _ _ _ one_pos one_pos hx
  obtain ⟨⟨w, b1, b2, b3⟩, -⟩ := C153_predict_partial _ idealNewton_finds ⟨0, 0, 1⟩ _ _ _ _ _ _ one_pos one_pos hy
  rw [max_eq_left (by norm_num)] at a2 a3 b2 b3
  have hlt := C332_ordered one_pos one_pos one_pos h1 (show (1 / 2 : ℝ) < 2 * (1 / 2) by norm_num) a1 b1 a2 b2
    (by rw [condD2, condD1_fin a1 one_pos one_pos one_pos]; rfl)
    (by rw [condD2, condD1_fin b1 one_pos one_pos one_pos]; rfl)
  rw [a3, b3] at e
  have h6 := normCdf_strictMono.injective e
  rw [neg_inj, div_left_inj' (by norm_num)] at h6
  have hl : Real.log (v / 1) < Real.log (w / 1) := Real.log_lt_log (by positivity) (by rw [div_one, div_one]; exact hlt.1)
  linarith

/-- The hypotheses of `C339_currency_partial` are met by a firm with an equity of 1 and a debt of 1 in one currency and
of 7 in another. -/
example : ∃ x y, predictDefault idealNewton ⟨0, 0, 1⟩ 1 1 1 0 0 = .ok (some x) ∧
    predictDefault idealNewton ⟨0, 0, 1⟩ (7 * 1) (7 * 1) 1 0 0 = .ok (some y) := by
  obtain ⟨x, hx⟩ := idealNewton_predict (p := ⟨0, 0, 1⟩) (equity := 1) (debt := 1) (maturity := 1) (riskFree := 0)
    (marketRet := 0) one_pos one_pos one_pos
  obtain ⟨y, hy⟩ := idealNewton_predict (p := ⟨0, 0, 1⟩) (equity := 7 * 1) (debt := 7 * 1) (maturity := 1)
    (riskFree := 0) (marketRet := 0) one_pos one_pos (by norm_num)
  exact ⟨x, y, hx, hy⟩

/-! ## Estimation -/

/-- The same firm in another currency. -/
def FitData.convert (c : ℝ) (d : FitData) : FitData :=
  { d with equity := d.equity.map (c * ·), debt := d.debt.map (c * ·) }

/-- A date of the same firm in another currency. -/
def FirmDate.convert (c : ℝ) (f : FirmDate) : FirmDate := { f with equity := c * f.equity, debt := c * f.debt }

theorem dates_convert (c : ℝ) (d : FitData) : (d.convert c).dates = d.dates.map (FirmDate.convert c) := by
  unfold FitData.dates FitData.convert
  simp only [List.zip_map, List.zipWith_map_left, List.map_zipWith]
  rfl

theorem dates_mem {d : FitData} {f : FirmDate} (hf : f ∈ d.dates) :
    f.equity ∈ d.equity ∧ f.debt ∈ d.debt ∧ f.maturity ∈ d.maturity := by
  unfold FitData.dates at hf
  rw [List.mem_iff_getElem] at hf
  obtain ⟨i, hi, rfl⟩ := hf
  simp only [List.getElem_zipWith, List.getElem_zip]
  exact ⟨List.getElem_mem _, List.getElem_mem _, List.getElem_mem _⟩

theorem logDiff_convert {c : ℝ} (hc : 0 < c) {l r r' : List ℝ} (h : logDiff l = .ok r)
    (h' : logDiff (l.map (c * ·)) = .ok r') : r' = r ∧ ∀ v ∈ l, 0 < v := by
  unfold logDiff at h h'
  split_ifs at h with h1
  split_ifs at h' with h2
  cases h
  cases h'
  refine ⟨?_, h1⟩
  rw [← List.map_tail, List.zipWith_map]
  apply List.ext_getElem (by simp)
  intro i hi hi'
  rw [List.getElem_zipWith, List.getElem_zipWith,
    Real.log_mul hc.ne' (h1 _ (List.mem_of_mem_tail (List.getElem_mem _))).ne', Real.log_mul hc.ne' (h1 _ (List.getElem_mem _)).ne']
  ring

theorem regress_sigma {ols : List (List ℝ) → List ℝ → List ℝ} {a m r : List ℝ} {i : ℝ} {q : FirmParams}
    (h : regressFirmParams ols a m r i = .ok q) : 0 ≤ q.sigma := by
  unfold regressFirmParams at h
  simp only [py_bind_eq_ok] at h
  obtain ⟨y, -, m', -, X, -, b, -, k, -, h⟩ := h
  unfold annualise at h
  split_ifs at h with hi
  cases h
  exact div_nonneg (Real.sqrt_nonneg _) (Real.sqrt_nonneg _)

theorem assetValue_root {newton : (ℝ → Py (Option ℝ)) → ℝ → ℝ → ℕ → Py ℝ} (hn : FindsRoots newton) {d : FitData}
    {p : FirmParams} {f : FirmDate} {v : ℝ} (h : assetValue newton d p f = .ok v) : 0 < v ∧
      condEquityValue v (max 1 f.debt) f.riskFree p.sigma f.maturity p.alpha p.beta (d.exMkt f) = some f.equity := by
  unfold assetValue impliedAssetPrice at h
  obtain ⟨h1, h2⟩ := hn _ _ _ _ _ h
  exact ⟨h1, map_sub_eq_zero h2⟩

theorem assetValue_convert {newton newton' : (ℝ → Py (Option ℝ)) → ℝ → ℝ → ℕ → Py ℝ} (hn : FindsRoots newton)
    (hn' : FindsRoots newton') {d : FitData} {p : FirmParams} {f : FirmDate} {c v w : ℝ} (hs : 0 ≤ p.sigma) (hc : 0 < c)
    (ht : 0 < f.maturity) (he : 0 < f.equity) (hd : 1 ≤ f.debt) (hd' : 1 ≤ c * f.debt)
    (h : assetValue newton d p f = .ok v) (h' : assetValue newton' (d.convert c) p (f.convert c) = .ok w) : w = c * v := by
  obtain ⟨h1, h2⟩ := assetValue_root hn h
  obtain ⟨k1, k2⟩ := assetValue_root hn' h'
  change condEquityValue w (max 1 (c * f.debt)) f.riskFree p.sigma f.maturity p.alpha p.beta (d.exMkt f) =
    some (c * f.equity) at k2
  rw [max_eq_right hd] at h2
  rw [max_eq_right hd'] at k2
  exact equity_unique k1 (mul_pos hc h1) (by linarith) hs ht (mul_pos hc he) k2 (condEquity_scale hc.ne' h2)

theorem assetRet_convert {d : FitData} {p : FirmParams} {f : FirmDate} {c v e : ℝ} (hc : 0 < c) (hd : 1 ≤ f.debt)
    (hd' : 1 ≤ c * f.debt) : assetRet (d.convert c) p (f.convert c) (c * v) e = assetRet d p f v e := by
  unfold assetRet
  have e1 : condD1 (c * v) (max 1 (f.convert c).debt) (f.convert c).riskFree p.sigma (f.convert c).maturity p.alpha p.beta
      ((d.convert c).exMkt (f.convert c)) =
      condD1 v (max 1 f.debt) f.riskFree p.sigma f.maturity p.alpha p.beta (d.exMkt f) := by
    change condD1 (c * v) (max 1 (c * f.debt)) f.riskFree p.sigma f.maturity p.alpha p.beta (d.exMkt f) = _
    rw [max_eq_right hd, max_eq_right hd', condD1_scale hc.ne']
  rw [e1, show (f.convert c).equity = c * f.equity from rfl]
  cases (condD1 v (max 1 f.debt) f.riskFree p.sigma f.maturity p.alpha p.beta (d.exMkt f)).cdf with
  | none => rfl
  | some a =>
    simp only
    rw [show a * (c * v) = c * (a * v) by ring, mul_div_mul_left _ _ hc.ne']
    simp only [mul_eq_zero, hc.ne', false_or]

theorem values_convert {newton newton' : (ℝ → Py (Option ℝ)) → ℝ → ℝ → ℕ → Py ℝ} (hn : FindsRoots newton)
    (hn' : FindsRoots newton') {d : FitData} {p : FirmParams} {c : ℝ} (hs : 0 ≤ p.sigma) (hc : 0 < c) :
    ∀ (l : List FirmDate) (vs ws : List ℝ),
      (∀ f ∈ l, 0 < f.maturity ∧ 0 < f.equity ∧ 1 ≤ f.debt ∧ 1 ≤ c * f.debt) →
      l.mapM (assetValue newton d p) = .ok vs →
      (l.map (FirmDate.convert c)).mapM (assetValue newton' (d.convert c) p) = .ok ws → ws = vs.map (c * ·)
  | [], vs, ws, _, h, h' => by
    simp only [List.map_nil, List.mapM_nil, py_pure, Except.ok.injEq] at h h'
    rw [← h, ← h', List.map_nil]
  | f :: l, vs, ws, hl, h, h' => by
    rw [List.map_cons] at h'
    rw [mapM_cons_py] at h h'
    simp only [py_bind_eq_ok, py_pure, Except.ok.injEq] at h h'
    obtain ⟨v, h1, vs', h2, rfl⟩ := h
    obtain ⟨w, k1, ws', k2, rfl⟩ := h'
    obtain ⟨a, b, e, g⟩ := hl f (by simp)
    rw [assetValue_convert hn hn' hs hc a b e g h1 k1,
      values_convert hn hn' hs hc l vs' ws' (fun f hf => hl f (by simp [hf])) h2 k2, List.map_cons]

theorem rets_convert {d : FitData} {p : FirmParams} {c : ℝ} (hc : 0 < c) :
    ∀ (l : List FirmDate) (vs es : List ℝ), (∀ f ∈ l, 1 ≤ f.debt ∧ 1 ≤ c * f.debt) →
      ((l.map (FirmDate.convert c)).zip ((vs.map (c * ·)).zip es)).mapM
          (fun x => assetRet (d.convert c) p x.1 x.2.1 x.2.2) =
        (l.zip (vs.zip es)).mapM fun x => assetRet d p x.1 x.2.1 x.2.2
  | [], _, _, _ => by simp
  | _ :: _, [], _, _ => by simp
  | _ :: _, _ :: _, [], _ => by simp
  | f :: l, v :: vs, e :: es, hl => by
    simp only [List.map_cons, List.zip_cons_cons]
    rw [mapM_cons_py, mapM_cons_py, rets_convert hc l vs es fun f hf => hl f (by simp [hf])]
    obtain ⟨a, b⟩ := hl f (by simp)
    simp only [assetRet_convert hc a b]

/-- Two loops whose rounds agree on the parameters. -/
theorem fitLoop_agree {A : Type} {round round' : FirmParams → Py (A × FirmParams)} (R : A → A → Prop) (tol : ℝ)
    (hR : ∀ p a a' q q', 0 ≤ p.sigma → round p = .ok (a, q) → round' p = .ok (a', q') → q' = q ∧ R a a' ∧ 0 ≤ q.sigma) :
    ∀ (n : ℕ) (p q q' : FirmParams) (a a' : A), 0 ≤ p.sigma → fitLoop round tol n p = .ok (q, a) →
      fitLoop round' tol n p = .ok (q', a') → q' = q ∧ R a a' := by
  classical
  intro n
  induction n with
  | zero => intro p q q' a a' _ h; cases h
  | succ n ih =>
    intro p q q' a a' hp h h'
    unfold fitLoop at h h'
    cases hr : round p with
    | error e => rw [hr] at h; cases h
    | ok x =>
      cases hr' : round' p with
      | error e => rw [hr'] at h'; cases h'
      | ok x' =>
        obtain ⟨b, s⟩ := x
        obtain ⟨b', s'⟩ := x'
        obtain ⟨rfl, h1, h2⟩ := hR p b b' s s' hp hr hr'
        rw [hr] at h
        rw [hr'] at h'
        simp only at h h'
        split_ifs at h h' with hc
        · cases h
          cases h'
          exact ⟨rfl, h1⟩
        · exact ih _ _ _ _ _ h2 h h'

/-- C339.  `fit` estimates the same parameters and asset returns in every currency in which no debt is below one unit, and
converts the asset values. -/
theorem C339_fit (newton newton' : (ℝ → Py (Option ℝ)) → ℝ → ℝ → ℕ → Py ℝ) (hn : FindsRoots newton)
    (hn' : FindsRoots newton') (ols : List (List ℝ) → List ℝ → List ℝ) (d : FitData) (c tol : ℝ) (maxiter : ℕ)
    (p p' : FirmParams) (rets rets' values values' : List ℝ) (hc : 0 < c) (ht : ∀ t ∈ d.maturity, 0 < t)
    (hd : ∀ b ∈ d.debt, 1 ≤ b ∧ 1 ≤ c * b) (h : fit newton ols d tol maxiter = .ok (p, rets, values))
    (h' : fit newton' ols (d.convert c) tol maxiter = .ok (p', rets', values')) :
    p' = p ∧ rets' = rets ∧ values' = values.map (c * ·) := by
  classical
  unfold fit at h h'
  rw [py_bind_eq_ok] at h h'
  obtain ⟨e, h1, h⟩ := h
  obtain ⟨e', k1, h'⟩ := h'
  obtain ⟨rfl, hpos⟩ := logDiff_convert hc h1 k1
  rw [py_bind_eq_ok] at h h'
  obtain ⟨q, h2, h⟩ := h
  obtain ⟨q', k2, h'⟩ := h'
  obtain rfl : q' = q := by
    change regressFirmParams ols e' d.marketRets d.riskFree d.interval = .ok q' at k2
    rw [h2] at k2
    exact (Except.ok.inj k2).symm
  unfold fitAligned at h h'
  split_ifs at h with ha
  split_ifs at h' with ha'
  have := fitLoop_agree (fun a a' => a'.1 = a.1 ∧ a'.2 = a.2.map (c * ·)) tol ?_ maxiter q' p p' (rets, values)
    (rets', values') (regress_sigma h2) h h'
  · exact this
  · rintro s ⟨a1, a2⟩ ⟨b1, b2⟩ s1 s2 hs r r'
    unfold fitRound at r r'
    simp only [py_bind_eq_ok, py_pure, Except.ok.injEq, Prod.mk.injEq] at r r'
    obtain ⟨vs, r1, rs, r2, t, r3, ⟨rfl, rfl⟩, rfl⟩ := r
    obtain ⟨ws, l1, rs', l2, t', l3, ⟨rfl, rfl⟩, rfl⟩ := r'
    rw [dates_convert] at l1 l2
    have hmem : ∀ f ∈ d.dates, 0 < f.maturity ∧ 0 < f.equity ∧ 1 ≤ f.debt ∧ 1 ≤ c * f.debt := fun f hf =>
      ⟨ht _ (dates_mem hf).2.2, hpos _ (dates_mem hf).1, hd _ (dates_mem hf).2.1⟩
    obtain rfl := values_convert hn hn' hs hc _ _ _ hmem r1 l1
    rw [rets_convert hc _ _ _ fun f hf => (hmem f hf).2.2, r2] at l2
    obtain rfl := Except.ok.inj l2
    change regressFirmParams ols rs d.marketRets d.riskFree d.interval = .ok t' at l3
    rw [r3] at l3
    exact ⟨(Except.ok.inj l3).symm, ⟨rfl, rfl⟩, regress_sigma r3⟩

/-- A row of the same dataset with other currencies and other bases of the indices. -/
def FirmRow.convert (c a b : ℝ) (row : FirmRow) : FirmRow :=
  { marketCap := c * row.marketCap
    shortDebt := c * row.shortDebt
    longDebt := c * row.longDebt
    yield := row.yield
    bonds := a * row.bonds
    equities := b * row.equities }

theorem debtValues_convert (c : ℝ) (x y : List ℝ) :
    debtValues (x.map (c * ·)) (y.map (c * ·)) = (debtValues x y).map (c * ·) := by
  unfold debtValues
  rw [List.zipWith_map, List.map_zipWith]
  congr 1
  funext s l
  ring

/-- C339.  `create_firm_model` estimates the same parameters and asset returns in every currency in which no debt is below
one unit, and for every base of the two indices. -/
theorem C339_firm_model (newton newton' : (ℝ → Py (Option ℝ)) → ℝ → ℝ → ℕ → Py ℝ) (hn : FindsRoots newton)
    (hn' : FindsRoots newton') (ols : List (List ℝ) → List ℝ → List ℝ) (rows : List FirmRow)
    (c a b interval expected ratio : ℝ) (p p' : FirmParams) (rets rets' values values' : List ℝ) (hc : 0 < c) (ha : 0 < a)
    (hb : 0 < b)
    (hd : ∀ r ∈ rows, 1 ≤ r.shortDebt + r.longDebt / 2 ∧ 1 ≤ c * (r.shortDebt + r.longDebt / 2))
    (h : createFirmModel newton ols rows interval expected ratio = .ok (p, rets, values))
    (h' : createFirmModel newton' ols (rows.map (FirmRow.convert c a b)) interval expected ratio =
      .ok (p', rets', values')) : p' = p ∧ rets' = rets ∧ values' = values.map (c * ·) := by
  unfold createFirmModel at h h'
  rw [py_bind_eq_ok] at h h'
  obtain ⟨m, h1, h⟩ := h
  obtain ⟨m', k1, h'⟩ := h'
  obtain rfl : m' = m := by
    unfold marketRets at h1 k1
    simp only [py_bind_eq_ok] at h1 k1
    obtain ⟨x, h2, y, h3, h1⟩ := h1
    obtain ⟨x', k2, y', k3, k1⟩ := k1
    simp only [List.map_map] at k2 k3
    have e2 : rows.map (FirmRow.equities ∘ FirmRow.convert c a b) = (rows.map FirmRow.equities).map (b * ·) := by
      rw [List.map_map]; rfl
    have e3 : rows.map (FirmRow.bonds ∘ FirmRow.convert c a b) = (rows.map FirmRow.bonds).map (a * ·) := by
      rw [List.map_map]; rfl
    rw [e2] at k2
    rw [e3] at k3
    obtain ⟨rfl, -⟩ := logDiff_convert hb h2 k2
    obtain ⟨rfl, -⟩ := logDiff_convert ha h3 k3
    rw [h1] at k1
    exact (Except.ok.inj k1).symm
  refine C339_fit newton newton' hn hn' ols _ c _ _ p p' rets rets' values values' hc ?_ ?_ h ?_
  · intro t ht
    simp only [List.mem_map] at ht
    obtain ⟨-, -, rfl⟩ := ht
    exact one_pos
  · intro x hx
    simp only [debtValues, List.zipWith_map, List.zipWith_self, List.mem_map] at hx
    obtain ⟨r, hr, rfl⟩ := hx
    exact hd r hr
  · rw [← h']
    congr 1
    simp only [FitData.convert, List.map_map, ← debtValues_convert]
    rfl

/-- A fit that converges in the first round, with a root finder that finds roots: constant equity has no returns. -/
theorem fit_constant (c tol : ℝ) (hc : 1 ≤ c) (htol : 0 < tol) (n : ℕ) : ∃ v, fit idealNewton (fun _ _ => [0, 1])
    ⟨0, [1, 2], [c, c, c], [c, c, c], [1, 1, 1], 1, [0, 0]⟩ tol (n + 1) = .ok (⟨1 / 8, 1, 1 / 2⟩, ([0, 0], [v, v])) := by
  classical
  have hc0 : 0 < c := by linarith
  have hl : logDiff [c, c, c] = .ok [0, 0] := by
    unfold logDiff
    rw [if_pos (by simpa using hc0)]
    simp
  have hX : addConstant [1, 2] = .ok [[1, 1], [1, 2]] := by
    unfold addConstant
    rw [if_neg (by simp), if_neg (by simp)]
    simp
  have hstd : npStd [-1, -2] = 1 / 2 := by
    unfold npStd
    rw [show (([-1, -2] : List ℝ).map fun v => (v - ([-1, -2] : List ℝ).sum / (([-1, -2] : List ℝ).length : ℝ)) ^ 2).sum
        / (([-1, -2] : List ℝ).length : ℝ) = (1 / 2) ^ 2 by norm_num]
    exact Real.sqrt_sq (by norm_num)
  have hreg : regressFirmParams (fun _ _ => [0, 1]) [0, 0] [1, 2] [0, 0] 1 = .ok ⟨1 / 8, 1, 1 / 2⟩ := by
    unfold regressFirmParams npZip
    simp only [List.length_cons, List.length_nil, if_true, List.zipWith_cons_cons, List.zipWith_nil_left,
      py_bind_ok, zero_mul, sub_zero, hX, pyGet, List.getElem?_cons_succ, List.getElem?_cons_zero]
    simp only [dotL, List.zipWith_cons_cons, List.zipWith_nil_left, List.sum_cons, List.sum_nil]
    norm_num
    rw [show (-1 : ℝ) = -1 from rfl, hstd]
    unfold annualise
    norm_num
  set d : FitData := ⟨0, [1, 2], [c, c, c], [c, c, c], [1, 1, 1], 1, [0, 0]⟩ with hd
  set f : FirmDate := ⟨c, c, 1, 0⟩ with hf
  have hk : 0 < max 1 c := lt_of_lt_of_le one_pos (le_max_left _ _)
  obtain ⟨v, hv⟩ : ∃ v, assetValue idealNewton d ⟨1 / 8, 1, 1 / 2⟩ f = .ok v := by
    unfold assetValue impliedAssetPrice
    obtain ⟨x, ⟨hx, h⟩, -⟩ := C332_unique (r := f.riskFree) (alpha := 1 / 8) (beta := 1) (m := d.exMkt f) hk
      (show (0 : ℝ) < 1 / 2 by norm_num) one_pos hc0
    exact idealNewton_ok _ _ _ _ ⟨x, hx, by
      show (.ok ((condEquityValue x (max 1 c) f.riskFree (1 / 2) 1 (1 / 8) 1 (d.exMkt f)).map (· - c)) : Py (Option ℝ)) = _
      rw [h, Option.map_some, sub_self]⟩
  have hpos := (assetValue_root idealNewton_finds hv).1
  have ha : assetRet d ⟨1 / 8, 1, 1 / 2⟩ f v 0 = .ok 0 := by
    unfold assetRet
    have := condD1_fin (r := f.riskFree) (alpha := 1 / 8) (beta := 1) (m := d.exMkt f) hpos hk
      (show (0 : ℝ) < 1 / 2 by norm_num) one_pos
    change condD1 v (max 1 f.debt) f.riskFree (1 / 2) f.maturity (1 / 8) 1 (d.exMkt f) = _ at this
    simp only [this, FExt.cdf]
    rw [if_neg]
    · rw [zero_div]
    · rintro (h | h)
      · exact hc0.ne' h
      · exact (div_pos (mul_pos (normCdf_pos _) hpos) hc0).ne' h
  refine ⟨v, ?_⟩
  rw [C116_fit _ _ _ ⟨rfl, rfl, rfl⟩]
  refine ⟨[0, 0], ⟨1 / 8, 1, 1 / 2⟩, hl, hreg, 0, n.succ_pos, fun _ => ⟨1 / 8, 1, 1 / 2⟩,
    fun _ => ([0, 0], [v, v]), ⟨rfl, ?_, by simp, by simp [Close, htol]⟩, rfl, rfl⟩
  intro j _
  unfold fitRound
  have hdates : d.dates = [f, f] := rfl
  rw [hdates]
  simp only [mapM_cons_py, List.mapM_nil, hv, py_bind_ok, py_pure, List.zip_cons_cons, List.zip_nil_right, ha]
  show (regressFirmParams (fun _ _ => [0, 1]) [0, 0] [1, 2] [0, 0] 1 >>= _) = _
  rw [hreg]
  rfl

/-- The hypotheses of `C339_fit` are met by a firm whose equity and debt are 1 in one currency and 7 in another. -/
example : let d : FitData := ⟨0, [1, 2], [1, 1, 1], [1, 1, 1], [1, 1, 1], 1, [0, 0]⟩
    (∃ r, fit idealNewton (fun _ _ => [0, 1]) d 1 1 = .ok r) ∧
      ∃ r, fit idealNewton (fun _ _ => [0, 1]) (d.convert 7) 1 1 = .ok r := by
  obtain ⟨v, hv⟩ := fit_constant 1 1 le_rfl one_pos 0
  obtain ⟨w, hw⟩ := fit_constant 7 1 (by norm_num) one_pos 0
  refine ⟨⟨_, hv⟩, ⟨(⟨1 / 8, 1, 1 / 2⟩, ([0, 0], [w, w])), ?_⟩⟩
  rw [← hw]
  simp only [FitData.convert, List.map_cons, List.map_nil, mul_one]

/-- The hypotheses of `C339_firm_model` are met by a firm with constant equity and debt in a market that grows by 1 and
then by 2. -/
example : let rows : List FirmRow := [⟨1, 1, 0, 0, 1, 1⟩, ⟨1, 1, 0, 0, 1, Real.exp 1⟩, ⟨1, 1, 0, 0, 1, Real.exp 3⟩]
    (∃ r, createFirmModel idealNewton (fun _ _ => [0, 1]) rows 1 0 1 = .ok r) ∧
      ∃ r, createFirmModel idealNewton (fun _ _ => [0, 1]) (rows.map (FirmRow.convert 7 2 3)) 1 0 1 = .ok r := by
  have key : ∀ c a b : ℝ, 1 ≤ c → 0 < a → 0 < b → ∃ r, createFirmModel idealNewton (fun _ _ => [0, 1])
      [⟨c, c, 0, 0, a, b⟩, ⟨c, c, 0, 0, a, b * Real.exp 1⟩, ⟨c, c, 0, 0, a, b * Real.exp 3⟩] 1 0 1 = .ok r := by
    intro c a b hc ha hb
    obtain ⟨v, hv⟩ := fit_constant c (1 / 1000000) hc (by norm_num) 99
    refine ⟨(⟨1 / 8, 1, 1 / 2⟩, ([0, 0], [v, v])), ?_⟩
    have hm : marketRets [b, b * Real.exp 1, b * Real.exp 3] [a, a, a] 1 = .ok [1, 2] := by
      have h1 : logDiff [b, b * Real.exp 1, b * Real.exp 3] = .ok [1, 2] := by
        unfold logDiff
        rw [if_pos (by simp [hb, Real.exp_pos])]
        simp only [List.tail_cons, List.zipWith_cons_cons, List.zipWith_nil_right, Real.log_mul hb.ne' (Real.exp_ne_zero _),
          Real.log_exp]
        norm_num
      have h2 : logDiff [a, a, a] = .ok [0, 0] := by
        unfold logDiff
        rw [if_pos (by simpa using ha)]
        simp
      unfold marketRets
      rw [h1, h2]
      simp [npZip]
    unfold createFirmModel
    simp only [List.map_cons, List.map_nil, hm, py_bind_ok, debtValues, List.zipWith_cons_cons, List.zipWith_nil_left,
      zero_div, add_zero, List.dropLast]
    exact hv
  refine ⟨?_, ?_⟩
  · have := key 1 1 1 le_rfl one_pos one_pos
    simpa only [one_mul] using this
  · have := key 7 2 3 (by norm_num) (by norm_num) (by norm_num)
    simpa only [List.map_cons, List.map_nil, FirmRow.convert, mul_one, mul_zero] using this

end FinML.Default
