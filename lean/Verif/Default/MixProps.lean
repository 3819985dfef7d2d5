import Verif.Default.FirmProps

/-! # Property C313: firms that are mixtures -/

namespace FinML.Default

/-- A date: return of the firm, return of the market, risk-free rate. -/
abbrev RetDate := ℝ × ℝ × ℝ

/-- The estimate from a list of dates. -/
noncomputable def estimate (ols : List (List ℝ) → List ℝ → List ℝ) (L : List RetDate) (interval : ℝ) : Py FirmParams :=
  regressFirmParams ols (L.map fun d => d.1) (L.map fun d => d.2.1) (L.map fun d => d.2.2) interval

/-- The excess return of the market over the risk-free rate differs between two dates. -/
def MarketMoves (L : List RetDate) (interval : ℝ) : Prop :=
  ∃ d ∈ L, ∃ e ∈ L, d.2.1 - d.2.2 * interval ≠ e.2.1 - e.2.2 * interval

/-- The sum of the squared residuals of the line `c + b·m`. -/
noncomputable def sse (L : List RetDate) (interval c b : ℝ) : ℝ :=
  (L.map fun d => (d.1 - d.2.2 * interval - (c + b * (d.2.1 - d.2.2 * interval))) ^ 2).sum

theorem residuals_dates (L : List RetDate) (interval c b : ℝ) :
    ((residuals (List.zipWith (fun a r => a - r * interval) (L.map fun d => d.2.1) (L.map fun d => d.2.2))
      (List.zipWith (fun a r => a - r * interval) (L.map fun d => d.1) (L.map fun d => d.2.2)) c b).map fun e => e ^ 2).sum =
      sse L interval c b := by
  unfold residuals sse
  induction L with
  | nil => rfl
  | cons d L ih => simp only [List.map_cons, List.zipWith_cons_cons, List.sum_cons, ih]

theorem estimate_spec (ols : List (List ℝ) → List ℝ → List ℝ) (hols : IsOls ols) (L : List RetDate) (interval : ℝ)
    (p : FirmParams) (h : estimate ols L interval = .ok p) :
    0 < L.length ∧ 0 < interval ∧ 0 ≤ p.sigma ∧
      p.sigma ^ 2 * interval * L.length = sse L interval ((p.alpha - p.sigma ^ 2 / 2) * interval) p.beta ∧
      ∀ c b, p.sigma ^ 2 * interval * L.length ≤ sse L interval c b := by
  obtain ⟨n, hn, hl, -, -, hi, hs, h1, h2⟩ := C147_regression ols hols _ _ _ _ p h
  rw [List.length_map] at hl
  subst hl
  refine ⟨hn, hi, hs, ?_, fun c b => ?_⟩
  · rw [h1, residuals_dates]
  · rw [← residuals_dates]
    exact h2 c b

theorem estimate_ok (ols : List (List ℝ) → List ℝ → List ℝ) (hols : IsOls ols) (L : List RetDate) (interval : ℝ)
    (hi : 0 < interval) (hm : MarketMoves L interval) : ∃ p, estimate ols L interval = .ok p := by
  unfold estimate regressFirmParams npZip
  rw [if_pos (by simp), if_pos (by simp), py_bind_ok, py_bind_ok]
  set y := List.zipWith (fun a r => a - r * interval) (L.map fun d => d.1) (L.map fun d => d.2.2) with hy
  have hmm : List.zipWith (fun a r => a - r * interval) (L.map fun d => d.2.1) (L.map fun d => d.2.2) =
      L.map fun d => d.2.1 - d.2.2 * interval := by
    rw [List.zipWith_map]
    induction L with
    | nil => rfl
    | cons a L _ => simp [List.zipWith_self]
  rw [hmm]
  obtain ⟨d, hd, e, he, hne⟩ := hm
  have hL : L ≠ [] := List.ne_nil_of_mem hd
  unfold addConstant
  rw [if_neg (by simpa using hL), if_neg (by
    rintro ⟨h, -⟩
    exact hne (h _ (List.mem_map_of_mem hd) _ (List.mem_map_of_mem he)))]
  rw [py_bind_ok]
  have hl := (hols ((L.map fun d => d.2.1 - d.2.2 * interval).map fun v => [1, v]) y 2 (by simpa using hL) (by simp [hy])
    (by intro r hr; obtain ⟨v, -, rfl⟩ := List.mem_map.1 hr; rfl)).1
  dsimp only
  generalize ols ((L.map fun d => d.2.1 - d.2.2 * interval).map fun v => [1, v]) y = params at hl
  match params, hl with
  | [a, b], _ =>
    simp only [pyGet, List.getElem?_cons_succ, List.getElem?_cons_zero, py_bind_ok, annualise, if_pos hi]
    exact ⟨_, rfl⟩

theorem sse_mid (L : List RetDate) (interval c b c' b' : ℝ) :
    4 * sse L interval ((c + c') / 2) ((b + b') / 2) +
      (L.map fun d => ((c - c') + (b - b') * (d.2.1 - d.2.2 * interval)) ^ 2).sum =
      2 * sse L interval c b + 2 * sse L interval c' b' := by
  unfold sse
  induction L with
  | nil => simp
  | cons d L ih =>
    simp only [List.map_cons, List.sum_cons]
    linear_combination ih

theorem sum_sq_zero {α : Type} (L : List α) (f : α → ℝ) (h : (L.map fun d => f d ^ 2).sum ≤ 0) : ∀ d ∈ L, f d = 0 := by
  induction L with
  | nil => simp
  | cons a L ih =>
    have h0 : 0 ≤ (L.map fun d => f d ^ 2).sum :=
      List.sum_nonneg (by intro x hx; obtain ⟨e, -, rfl⟩ := List.mem_map.1 hx; positivity)
    rw [List.map_cons, List.sum_cons] at h
    have h1 := sq_nonneg (f a)
    intro d hd
    rcases List.mem_cons.1 hd with rfl | hd
    · exact pow_eq_zero_iff two_ne_zero |>.1 (by linarith)
    · exact ih (by linarith) d hd

/-- The best line is the only one. -/
theorem line_unique (L : List RetDate) (interval : ℝ) (hm : MarketMoves L interval) (c b c' b' : ℝ)
    (h : ∀ u v, sse L interval c b ≤ sse L interval u v) (h' : ∀ u v, sse L interval c' b' ≤ sse L interval u v) :
    c = c' ∧ b = b' := by
  have hmid := sse_mid L interval c b c' b'
  have h1 := h ((c + c') / 2) ((b + b') / 2)
  have h2 := h' ((c + c') / 2) ((b + b') / 2)
  have hz := sum_sq_zero L (fun d => (c - c') + (b - b') * (d.2.1 - d.2.2 * interval)) (by linarith)
  obtain ⟨d, hd, e, he, hne⟩ := hm
  have hd' := hz d hd
  have he' := hz e he
  have hb : (b - b') * ((d.2.1 - d.2.2 * interval) - (e.2.1 - e.2.2 * interval)) = 0 := by linarith
  have hb0 : b - b' = 0 := (mul_eq_zero.1 hb).resolve_right (sub_ne_zero.2 hne)
  rw [hb0, zero_mul, add_zero] at hd'
  exact ⟨by linarith, by linarith⟩

/-- The estimate is what the best line says. -/
theorem estimate_of_line (ols : List (List ℝ) → List ℝ → List ℝ) (hols : IsOls ols) (L : List RetDate) (interval : ℝ)
    (hi : 0 < interval) (hm : MarketMoves L interval) (p : FirmParams) (hs : 0 ≤ p.sigma)
    (hmin : ∀ u v, sse L interval ((p.alpha - p.sigma ^ 2 / 2) * interval) p.beta ≤ sse L interval u v)
    (hsig : p.sigma ^ 2 * interval * L.length = sse L interval ((p.alpha - p.sigma ^ 2 / 2) * interval) p.beta) :
    estimate ols L interval = .ok p := by
  obtain ⟨q, hq⟩ := estimate_ok ols hols L interval hi hm
  obtain ⟨hn, -, hqs, h1, h2⟩ := estimate_spec ols hols L interval q hq
  obtain ⟨e1, e2⟩ := line_unique L interval hm _ _ _ _ hmin (fun u v => h1 ▸ h2 u v)
  have hn' : (0 : ℝ) < (L.length : ℝ) := by exact_mod_cast hn
  have hsq : p.sigma ^ 2 = q.sigma ^ 2 := by
    rw [← h1.symm.symm.trans (by rw [e1, e2] : _ = sse L interval ((p.alpha - p.sigma ^ 2 / 2) * interval) p.beta)] at hsig
    exact mul_right_cancel₀ hi.ne' (mul_right_cancel₀ hn'.ne' hsig)
  have hsg : p.sigma = q.sigma := by
    rwa [sq_eq_sq₀ hs hqs] at hsq
  have ha := mul_right_cancel₀ hi.ne' e1
  rw [hsq] at ha
  rw [hq]
  obtain ⟨a, b, s⟩ := p
  obtain ⟨a', b', s'⟩ := q
  simp only at hsg ha e2
  rw [hsg, e2, show a = a' by linarith]

/-- The dates of a firm that holds the fraction `w` of the old one, `u` of the market and the rest at the risk-free rate,
measured against a market with the fraction `s` of the old market and the rest at the risk-free rate. -/
def mixed (L : List RetDate) (interval w u s : ℝ) : List RetDate :=
  L.map fun d => (w * d.1 + u * d.2.1 + (1 - w - u) * (d.2.2 * interval), s * d.2.1 + (1 - s) * (d.2.2 * interval), d.2.2)

theorem sse_mixed (L : List RetDate) (interval w u s c b : ℝ) (hw : w ≠ 0) :
    sse (mixed L interval w u s) interval c b = w ^ 2 * sse L interval (c / w) ((b * s - u) / w) := by
  unfold sse mixed
  rw [List.map_map, ← List.sum_map_mul_left]
  congr 1
  apply List.map_congr_left
  intro d _
  simp only [Function.comp_def]
  rw [← mul_pow]
  congr 1
  field_simp
  ring

/-- C313. The estimate of a mixture: `beta` and the intercept `alpha - sigma²/2` are mixed, `sigma` is scaled. -/
theorem C313_mixture (ols : List (List ℝ) → List ℝ → List ℝ) (hols : IsOls ols) (L : List RetDate) (interval w u s : ℝ)
    (hw : w ≠ 0) (hs : s ≠ 0) (hm : MarketMoves L interval) (p : FirmParams) (h : estimate ols L interval = .ok p) :
    estimate ols (mixed L interval w u s) interval = .ok
      { alpha := w * (p.alpha - p.sigma ^ 2 / 2) + (w * p.sigma) ^ 2 / 2, beta := (w * p.beta + u) / s, sigma := |w| * p.sigma } := by
  obtain ⟨hn, hi, hsg, h1, h2⟩ := estimate_spec ols hols L interval p h
  have e1 : (w * (p.alpha - p.sigma ^ 2 / 2) + (w * p.sigma) ^ 2 / 2 - (|w| * p.sigma) ^ 2 / 2) * interval / w =
      (p.alpha - p.sigma ^ 2 / 2) * interval := by
    rw [mul_pow, mul_pow, sq_abs]
    field_simp
    ring
  have e2 : ((w * p.beta + u) / s * s - u) / w = p.beta := by
    field_simp
    ring
  apply estimate_of_line ols hols _ _ hi
  · obtain ⟨d, hd, e, he, hne⟩ := hm
    refine ⟨_, List.mem_map_of_mem hd, _, List.mem_map_of_mem he, fun h => hne ?_⟩
    simp only at h
    have : s * (d.2.1 - d.2.2 * interval) = s * (e.2.1 - e.2.2 * interval) := by linarith
    exact mul_left_cancel₀ hs this
  · exact mul_nonneg (abs_nonneg _) hsg
  · intro c b
    simp only
    rw [sse_mixed _ _ _ _ _ _ _ hw, sse_mixed _ _ _ _ _ _ _ hw, e1, e2, ← h1]
    exact mul_le_mul_of_nonneg_left (h2 _ _) (sq_nonneg _)
  · simp only
    rw [sse_mixed _ _ _ _ _ _ _ hw, e1, e2, ← h1, mul_pow, sq_abs]
    unfold mixed
    rw [List.length_map]
    ring

/-- C313. A firm that holds `u` of the market and the rest at the risk-free rate has no `alpha` and no `sigma` of its own. -/
theorem C313_index (ols : List (List ℝ) → List ℝ → List ℝ) (hols : IsOls ols) (L : List RetDate) (interval u : ℝ)
    (hi : 0 < interval) (hm : MarketMoves L interval)
    (hL : ∀ d ∈ L, d.1 = u * d.2.1 + (1 - u) * (d.2.2 * interval)) :
    estimate ols L interval = .ok { alpha := 0, beta := u, sigma := 0 } := by
  have h0 : sse L interval 0 u = 0 := by
    unfold sse
    rw [List.map_congr_left (g := fun _ => (0 : ℝ))]
    · simp
    · intro d hd
      rw [hL d hd]
      ring
  apply estimate_of_line ols hols L interval hi hm
  · exact le_refl _
  · intro c b
    simp only
    rw [show ((0 : ℝ) - 0 ^ 2 / 2) * interval = 0 by ring, h0]
    exact List.sum_nonneg (by intro x hx; obtain ⟨e, -, rfl⟩ := List.mem_map.1 hx; positivity)
  · simp only
    rw [show ((0 : ℝ) - 0 ^ 2 / 2) * interval = 0 by ring, h0]
    ring

/-- C313. The order of the dates does not matter. -/
theorem C313_order (ols : List (List ℝ) → List ℝ → List ℝ) (hols : IsOls ols) (L L' : List RetDate) (hp : L.Perm L')
    (interval : ℝ) (hm : MarketMoves L interval) (p : FirmParams) (h : estimate ols L interval = .ok p) :
    estimate ols L' interval = .ok p := by
  obtain ⟨hn, hi, hsg, h1, h2⟩ := estimate_spec ols hols L interval p h
  have hsse : ∀ c b, sse L' interval c b = sse L interval c b := fun c b => (hp.map _).sum_eq.symm
  apply estimate_of_line ols hols L' interval hi
  · obtain ⟨d, hd, e, he, hne⟩ := hm
    exact ⟨d, hp.mem_iff.1 hd, e, hp.mem_iff.1 he, hne⟩
  · exact hsg
  · intro c b
    rw [hsse, hsse, ← h1]
    exact h2 c b
  · rw [hsse, ← hp.length_eq, h1]

/-- C313. Repeating the dates `k` times changes nothing. -/
theorem C313_repeat (ols : List (List ℝ) → List ℝ → List ℝ) (hols : IsOls ols) (L : List RetDate) (k : ℕ) (hk : 0 < k)
    (interval : ℝ) (hm : MarketMoves L interval) (p : FirmParams) (h : estimate ols L interval = .ok p) :
    estimate ols (List.replicate k L).flatten interval = .ok p := by
  obtain ⟨hn, hi, hsg, h1, h2⟩ := estimate_spec ols hols L interval p h
  have hk' : (0 : ℝ) < k := by exact_mod_cast hk
  have hsse : ∀ c b, sse (List.replicate k L).flatten interval c b = k * sse L interval c b := by
    intro c b
    unfold sse
    clear hk hk'
    induction k with
    | zero => simp
    | succ k ih =>
      rw [List.replicate_succ, List.flatten_cons, List.map_append, List.sum_append, ih]
      push_cast
      ring
  apply estimate_of_line ols hols _ interval hi
  · obtain ⟨d, hd, e, he, hne⟩ := hm
    exact ⟨d, List.mem_flatten.2 ⟨L, List.mem_replicate.2 ⟨hk.ne', rfl⟩, hd⟩, e,
      List.mem_flatten.2 ⟨L, List.mem_replicate.2 ⟨hk.ne', rfl⟩, he⟩, hne⟩
  · exact hsg
  · intro c b
    rw [hsse, hsse, ← h1]
    exact mul_le_mul_of_nonneg_left (h2 c b) hk'.le
  · rw [hsse, ← h1]
    simp only [List.length_flatten, List.map_replicate, List.sum_replicate, smul_eq_mul]
    push_cast
    ring

/-- Three dates that meet the hypotheses. -/
example : ∃ ols, IsOls ols ∧ MarketMoves [(1, 0, 0), (3, 1, 0), (2, 1, 0)] 1 ∧
    ∃ p, estimate ols [(1, 0, 0), (3, 1, 0), (2, 1, 0)] 1 = .ok p := by
  obtain ⟨ols, hols⟩ := exists_isOls
  have hm : MarketMoves [(1, 0, 0), (3, 1, 0), (2, 1, 0)] 1 :=
    ⟨(1, 0, 0), by simp, (3, 1, 0), by simp, by norm_num⟩
  exact ⟨ols, hols, hm, estimate_ok ols hols _ _ one_pos hm⟩

end FinML.Default
