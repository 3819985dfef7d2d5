import Verif.Py.Ols

/-! # Regressions on one variable in other units -/

namespace FinML

theorem ssr_line (x y : List ℝ) (p q : ℝ) :
    ssr (x.map fun v => [1, v]) y [p, q] = (List.zipWith (fun u v => (v - (p + q * u)) ^ 2) x y).sum := by
  unfold ssr
  rw [List.zipWith_map_left]
  congr 2
  funext u v
  simp [dotL, mul_comm]

theorem ssr_line_scale (x y : List ℝ) (a b p q : ℝ) (hb : b ≠ 0) :
    ssr ((x.map (b * ·)).map fun v => [1, v]) (y.map (a * ·)) [a * p, a / b * q] =
      a ^ 2 * ssr (x.map fun v => [1, v]) y [p, q] := by
  rw [ssr_line, ssr_line]
  induction x generalizing y with
  | nil => simp
  | cons u x ih =>
    cases y with
    | nil => simp
    | cons v y =>
      simp only [List.map_cons, List.zipWith_cons_cons, List.sum_cons, ih y, mul_add]
      congr 1
      have : a / b * q * (b * u) = a * q * u := by field_simp
      rw [this]
      ring

theorem ssr_line_mid (x y : List ℝ) (p q p' q' : ℝ) :
    4 * ssr (x.map fun v => [1, v]) y [(p + p') / 2, (q + q') / 2] +
      (List.zipWith (fun u _ => ((p + q * u) - (p' + q' * u)) ^ 2) x y).sum =
    2 * ssr (x.map fun v => [1, v]) y [p, q] + 2 * ssr (x.map fun v => [1, v]) y [p', q'] := by
  rw [ssr_line, ssr_line, ssr_line]
  induction x generalizing y with
  | nil => simp
  | cons u x ih =>
    cases y with
    | nil => simp
    | cons v y =>
      simp only [List.zipWith_cons_cons, List.sum_cons]
      have := ih y
      linear_combination this

theorem zipWith_sq_zero (x y : List ℝ) (hlen : x.length = y.length) (g : ℝ → ℝ)
    (h : (List.zipWith (fun u _ => g u ^ 2) x y).sum ≤ 0) : ∀ u ∈ x, g u = 0 := by
  have hnn : ∀ x y : List ℝ, 0 ≤ (List.zipWith (fun u _ => g u ^ 2) x y).sum := by
    intro x y
    apply List.sum_nonneg
    intro v hv
    obtain ⟨i, hi, rfl⟩ := List.mem_iff_getElem.1 hv
    rw [List.getElem_zipWith]
    positivity
  induction x generalizing y with
  | nil => simp
  | cons u x ih =>
    cases y with
    | nil => simp at hlen
    | cons v y =>
      simp only [List.zipWith_cons_cons, List.sum_cons] at h
      have h1 := hnn x y
      have h2 := sq_nonneg (g u)
      intro w hw
      rcases List.mem_cons.1 hw with rfl | hw
      · exact pow_eq_zero_iff two_ne_zero |>.1 (by linarith)
      · exact ih y (by simpa using hlen) (by linarith) w hw

/-- The line of a regression on a variable that is not constant is unique. -/
theorem line_unique (x y : List ℝ) (hlen : x.length = y.length) (p q p' q' : ℝ)
    (h : IsLeastSquares (x.map fun v => [1, v]) y 2 [p, q])
    (h' : IsLeastSquares (x.map fun v => [1, v]) y 2 [p', q'])
    (hne : ∃ a ∈ x, ∃ b ∈ x, a ≠ b) : q = q' := by
  have hm := ssr_line_mid x y p q p' q'
  have e1 := h.2 [(p + p') / 2, (q + q') / 2] rfl
  have e2 := h'.2 [(p + p') / 2, (q + q') / 2] rfl
  have hz := zipWith_sq_zero x y hlen (fun u => (p + q * u) - (p' + q' * u)) (by linarith)
  obtain ⟨a, ha, b, hb, hab⟩ := hne
  have z1 := hz a ha
  have z2 := hz b hb
  have : (q - q') * (a - b) = 0 := by linear_combination z1 - z2
  rcases mul_eq_zero.1 this with h | h
  · linarith
  · exact absurd (by linarith) hab

/-- The slope of `y` on a constant and `x`; microstructure.py:132-134. -/
noncomputable def slope (ols : List (List ℝ) → List ℝ → List ℝ) (x y : List ℝ) : Py ℝ :=
  addConstant x >>= fun X => pyGet (ols X y) 1

/-- Units: measuring `x` in units of `1/b` and `y` in units of `1/a` multiplies the slope by `a/b`.  The
variable must not be zero throughout (the slope is then not determined). -/
theorem slope_rescale (ols : List (List ℝ) → List ℝ → List ℝ) (hols : IsOls ols) (x y : List ℝ) (a b : ℝ)
    (ha : a ≠ 0) (hb : b ≠ 0) (hlen : x.length = y.length) (h0 : x = [] ∨ ∃ u ∈ x, u ≠ 0) :
    slope ols (x.map (b * ·)) (y.map (a * ·)) = (slope ols x y).map fun v => a / b * v := by
  classical
  rcases h0 with rfl | h0
  · simp [slope, addConstant]
    rfl
  have hx : x ≠ [] := by rintro rfl; simp at h0
  have hx' : x.map (b * ·) ≠ [] := by simpa using hx
  have hlen' : (x.map (b * ·)).length = (y.map (a * ·)).length := by simpa using hlen
  by_cases hne : ∃ u ∈ x, ∃ v ∈ x, u ≠ v
  · have hc : ¬ ((∀ a ∈ x, ∀ b ∈ x, a = b) ∧ ∀ a ∈ x, a ≠ 0) := by
      rintro ⟨h, -⟩
      obtain ⟨u, hu, v, hv, huv⟩ := hne
      exact huv (h u hu v hv)
    have hc' : ¬ ((∀ a ∈ x.map (b * ·), ∀ c ∈ x.map (b * ·), a = c) ∧ ∀ a ∈ x.map (b * ·), a ≠ 0) := by
      rintro ⟨h, -⟩
      obtain ⟨u, hu, v, hv, huv⟩ := hne
      exact huv (mul_left_cancel₀ hb (h _ (List.mem_map_of_mem hu) _ (List.mem_map_of_mem hv)))
    have hrow : ∀ l : List ℝ, ∀ r ∈ l.map (fun v => [1, v]), r.length = 2 := by
      intro l r hr; obtain ⟨v, _, rfl⟩ := List.mem_map.1 hr; rfl
    have l1 := hols (x.map fun v => [1, v]) y 2 (by simpa using hx) (by simpa using hlen) (hrow _)
    have l2 := hols ((x.map (b * ·)).map fun v => [1, v]) (y.map (a * ·)) 2 (by simpa using hx)
      (by simpa using hlen) (hrow _)
    unfold slope addConstant
    rw [if_neg hx, if_neg hx', if_neg hc, if_neg hc']
    change pyGet _ 1 = Except.map _ (pyGet _ 1)
    generalize ols (x.map fun v => [1, v]) y = β at *
    generalize ols ((x.map (b * ·)).map fun v => [1, v]) (y.map (a * ·)) = β' at *
    obtain ⟨p, q, rfl⟩ : ∃ p q, β = [p, q] := by
      match β, l1.1 with
      | [p, q], _ => exact ⟨p, q, rfl⟩
    obtain ⟨p', q', rfl⟩ : ∃ p q, β' = [p, q] := by
      match β', l2.1 with
      | [p, q], _ => exact ⟨p, q, rfl⟩
    have l3 : IsLeastSquares (x.map fun v => [1, v]) y 2 [p' / a, b / a * q'] := by
      refine ⟨rfl, ?_⟩
      intro c hc
      obtain ⟨r, s, rfl⟩ : ∃ r s, c = [r, s] := by
        match c, hc with
        | [r, s], _ => exact ⟨r, s, rfl⟩
      have e1 := ssr_line_scale x y a b (p' / a) (b / a * q') hb
      have e2 := ssr_line_scale x y a b r s hb
      rw [show a * (p' / a) = p' by field_simp, show a / b * (b / a * q') = q' by field_simp] at e1
      have e3 := l2.2 [a * r, a / b * s] rfl
      rw [e1, e2] at e3
      exact le_of_mul_le_mul_left e3 (by positivity)
    have := line_unique x y hlen p q _ _ l1 l3 hne
    have hq : q' = a / b * q := by rw [this]; field_simp
    rw [hq]
    rfl
  · push Not at hne
    have hnz : ∀ u ∈ x, u ≠ 0 := by
      obtain ⟨w, hw, hw0⟩ := h0
      intro u hu
      rw [hne u hu w hw]
      exact hw0
    obtain ⟨X, h1, h2⟩ := ols_skip ols hols x y hlen hx hne hnz
    obtain ⟨X', h1', h2'⟩ := ols_skip ols hols (x.map (b * ·)) (y.map (a * ·)) hlen' hx'
      (by
        intro u hu v hv
        obtain ⟨u', hu', rfl⟩ := List.mem_map.1 hu
        obtain ⟨v', hv', rfl⟩ := List.mem_map.1 hv
        rw [hne u' hu' v' hv'])
      (by
        intro u hu
        obtain ⟨u', hu', rfl⟩ := List.mem_map.1 hu
        exact mul_ne_zero hb (hnz u' hu'))
    unfold slope
    rw [h1, h1']
    change pyGet _ 1 = Except.map _ (pyGet _ 1)
    rw [h2, h2']
    rfl

end FinML
