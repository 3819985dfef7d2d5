import Verif.Alloc.HrpInvProps

/-! # Property C323: the risk of hierarchical risk parity portfolios -/

set_option linter.unusedSectionVars false

namespace FinML.Alloc

variable {K : Type} [Field K] [LinearOrder K] [IsStrictOrderedRing K]

/-- The return of a portfolio, given the returns of the instruments. -/
def portfolioReturn (ws : List (ℕ × K)) (r : ℕ → K) : K := (ws.map fun p => p.2 * r p.1).sum

/-- The sample variance. -/
def sampleVar (l : List K) : K :=
  (l.map fun v => (v - l.sum / (l.length : K)) ^ 2).sum / ((l.length : K) - 1)

/-- The variance of a portfolio, given the covariances. -/
def risk (cov : ℕ → ℕ → K) (ws : List (ℕ × K)) : K :=
  (ws.map fun p => (ws.map fun q => p.2 * q.2 * cov p.1 q.1).sum).sum

/-- The same amount in every instrument. -/
def equalWeights (order : List ℕ) : List (ℕ × K) := order.map fun i => (i, 1 / (order.length : K))

/-- The full claim: for every positive definite covariance matrix the portfolio is no riskier than equal weights. -/
def NoRiskierThanEqual : Prop :=
  ∀ (cov : ℕ → ℕ → ℚ) (order : List ℕ) (ws : List (ℕ × ℚ)), order.Nodup → (∀ i j, cov i j = cov j i) →
    (∀ w : ℕ → ℚ, (∃ i ∈ order, w i ≠ 0) →
      0 < (order.map fun j => (order.map fun i => w i * cov i j * w j).sum).sum) →
    recursiveBisection cov order = .ok ws → risk cov ws ≤ risk cov (equalWeights order)

theorem le_of_sq_le_sq {a b : K} (h : a ^ 2 ≤ b ^ 2) (hb : 0 ≤ b) : a ≤ b := by
  by_contra hlt
  rw [not_le] at hlt
  nlinarith

theorem sum_map_div {α : Type} (l : List α) (f : α → K) (c : K) : (l.map f).sum / c = (l.map fun a => f a / c).sum := by
  simp only [div_eq_mul_inv, List.sum_map_mul_right]

theorem weighted_sq (ws : List (ℕ × K)) (a : ℕ → K) (h : ∀ p ∈ ws, 0 ≤ p.2) :
    0 ≤ (ws.map Prod.snd).sum ∧ 0 ≤ (ws.map fun p => p.2 * a p.1 ^ 2).sum ∧
    (ws.map fun p => p.2 * a p.1).sum ^ 2 ≤ (ws.map Prod.snd).sum * (ws.map fun p => p.2 * a p.1 ^ 2).sum := by
  induction ws with
  | nil => simp
  | cons p l ih =>
    obtain ⟨h1, h2, h3⟩ := ih fun q hq => h q (List.mem_cons_of_mem _ hq)
    have hp := h p List.mem_cons_self
    simp only [List.map_cons, List.sum_cons]
    generalize (l.map Prod.snd).sum = W at *
    generalize (l.map fun p => p.2 * a p.1 ^ 2).sum = Q at *
    generalize (l.map fun p => p.2 * a p.1).sum = S at *
    generalize a p.1 = x
    generalize p.2 = w at hp
    refine ⟨by positivity, by positivity, ?_⟩
    have hb : 2 * S * x ≤ Q + W * x ^ 2 := by
      apply le_of_sq_le_sq _ (by positivity)
      nlinarith [sq_nonneg (Q - W * x ^ 2), mul_le_mul_of_nonneg_right h3 (sq_nonneg x)]
    nlinarith [mul_le_mul_of_nonneg_left hb hp]

theorem portfolio_sum (ws : List (ℕ × K)) (x : List (ℕ → K)) :
    (x.map (portfolioReturn ws)).sum = (ws.map fun p => p.2 * (x.map fun r => r p.1).sum).sum := by
  induction ws with
  | nil => induction x with
    | nil => rfl
    | cons r x ih =>
      rw [List.map_cons, List.sum_cons, ih]
      simp [portfolioReturn]
  | cons p l ih =>
    rw [List.map_cons, List.sum_cons, ← ih]
    clear ih
    induction x with
    | nil => simp
    | cons r x ih =>
      simp only [List.map_cons, List.sum_cons]
      rw [ih]
      simp only [portfolioReturn, List.map_cons, List.sum_cons]
      ring

theorem portfolio_dev (ws : List (ℕ × K)) (x : List (ℕ → K)) (r : ℕ → K) :
    portfolioReturn ws r - (x.map (portfolioReturn ws)).sum / ((x.map (portfolioReturn ws)).length : K) =
      (ws.map fun p => p.2 * (r p.1 - colMean x p.1)).sum := by
  rw [portfolio_sum, List.length_map]
  unfold portfolioReturn colMean
  induction ws with
  | nil => simp
  | cons p l ih =>
    simp only [List.map_cons, List.sum_cons]
    rw [← ih]
    ring

theorem sum_swap_mul (ws : List (ℕ × K)) (x : List (ℕ → K)) :
    (x.map fun r => (ws.map fun p => p.2 * (r p.1 - colMean x p.1) ^ 2).sum).sum =
      (ws.map fun p => p.2 * (x.map fun r => (r p.1 - colMean x p.1) ^ 2).sum).sum := by
  generalize hc : colMean x = c
  clear hc
  induction x with
  | nil => simp
  | cons r x ih =>
    simp only [List.map_cons, List.sum_cons]
    rw [ih, ← List.sum_map_add]
    congr 1
    apply List.map_congr_left
    intro p _
    ring

theorem longOnly_var (ws : List (ℕ × K)) (x : List (ℕ → K)) (V : K) (h0 : ∀ p ∈ ws, 0 ≤ p.2)
    (h1 : (ws.map Prod.snd).sum = 1) (hV : ∀ p ∈ ws, sampleVar (x.map fun r => r p.1) ≤ V) (hx : x ≠ []) :
    sampleVar (x.map (portfolioReturn ws)) ≤ V := by
  have hlen : (0 : K) ≤ (x.length : K) - 1 := by
    have : 1 ≤ x.length := List.length_pos_of_ne_nil hx
    have : (1 : K) ≤ x.length := by exact_mod_cast this
    linarith
  have hcol : ∀ i, sampleVar (x.map fun r => r i) =
      (x.map fun r => (r i - colMean x i) ^ 2).sum / ((x.length : K) - 1) := by
    intro i
    unfold sampleVar colMean
    rw [List.map_map, List.length_map]
    rfl
  have hle : (x.map fun r => (portfolioReturn ws r -
      (x.map (portfolioReturn ws)).sum / ((x.map (portfolioReturn ws)).length : K)) ^ 2).sum ≤
      (ws.map fun p => p.2 * (x.map fun r => (r p.1 - colMean x p.1) ^ 2).sum).sum := by
    rw [← sum_swap_mul]
    apply List.sum_le_sum
    intro r _
    rw [portfolio_dev]
    have := (weighted_sq ws (fun i => r i - colMean x i) h0).2.2
    rwa [h1, one_mul] at this
  unfold sampleVar
  rw [List.map_map, List.length_map]
  calc _ ≤ (ws.map fun p => p.2 * (x.map fun r => (r p.1 - colMean x p.1) ^ 2).sum).sum / ((x.length : K) - 1) := by
        apply div_le_div_of_nonneg_right _ hlen
        rw [List.length_map] at hle
        exact hle
    _ = (ws.map fun p => p.2 * sampleVar (x.map fun r => r p.1)).sum := by
        rw [sum_map_div]
        congr 1
        apply List.map_congr_left
        intro p _
        rw [hcol, mul_div_assoc]
    _ ≤ (ws.map fun p => p.2 * V).sum := by
        apply List.sum_le_sum
        intro p hp
        exact mul_le_mul_of_nonneg_left (hV p hp) (h0 p hp)
    _ = V := by
        rw [List.sum_map_mul_right, h1, one_mul]

/-- C323.  The returns of the portfolio of `hrp_allocations` have no larger sample variance than those of the riskiest
instrument. -/
theorem C323_largest (linkage : ℕ → (ℕ → ℕ → ℝ) → List Row) (n : ℕ) (x : List (ℕ → ℝ)) (V : ℝ)
    (hlink : ValidLinkage n (linkage n (corrToDist (sampleCorr x))))
    (hpos : ∀ order : List ℕ, order.Perm (List.range n) → PosVar (sampleCov x) order)
    (hV : ∀ i < n, sampleVar (x.map fun r => r i) ≤ V) :
    ∃ ws, hrpAllocations linkage n x = .ok ws ∧ sampleVar (x.map (portfolioReturn ws)) ≤ V := by
  obtain ⟨ws, h1, h2, h3, h4⟩ := C80_hrp linkage n x hlink hpos
  refine ⟨ws, h1, longOnly_var ws x V (fun p hp => (h4 p hp).le) h3 (fun p hp => hV _ ?_) ?_⟩
  · exact List.mem_range.1 (h2.mem_iff.1 (List.mem_map_of_mem hp))
  · rintro rfl
    have h2 := hlink.two_le
    have := (hpos (List.range n) (List.Perm.refl _)).1 0 (List.mem_range.2 (by omega))
    simp [sampleCov] at this

/-- C323 (partial).  For two instruments the portfolio is no riskier than equal weights, whatever their correlation.
Missing: more instruments, for which it fails, see `C323_equal_counterexample`. -/
theorem C323_equal_partial (cov : ℕ → ℕ → K) (i j : ℕ) (hij : i ≠ j) (hs : cov i j = cov j i)
    (hi : 0 < cov i i) (hj : 0 < cov j j) (hc : cov i j ^ 2 ≤ cov i i * cov j j) :
    ∃ ws, recursiveBisection cov [i, j] = .ok ws ∧ risk cov ws ≤ risk cov (equalWeights [i, j]) := by
  refine ⟨_, C81_two_assets cov i j hij hi hj, ?_⟩
  unfold risk equalWeights
  simp only [List.map_cons, List.map_nil, List.sum_cons, List.sum_nil, List.length_cons, List.length_nil, ← hs]
  generalize cov i i = a at *
  generalize cov j j = b at *
  generalize cov i j = c at *
  have hab := add_pos hi hj
  have hc2 : -(2 * c) ≤ a + b := by
    apply le_of_sq_le_sq _ hab.le
    nlinarith [sq_nonneg (a - b)]
  have e1 : (1 / a) / (1 / a + 1 / b) = b / (a + b) := by
    field_simp
    ring
  have e2 : (1 / b) / (1 / a + 1 / b) = a / (a + b) := by
    field_simp
    rw [add_comm]
  rw [e1, e2, ← sub_nonneg]
  refine le_of_le_of_eq (b := (a - b) ^ 2 * (a + b + 2 * c) / (4 * (a + b) ^ 2)) ?_ ?_
  · exact div_nonneg (mul_nonneg (sq_nonneg _) (by linarith)) (by positivity)
  · push_cast
    field_simp
    ring

/-- C323.  A portfolio of uncorrelated instruments has a smaller variance than each of them, namely the inverse of the sum
of the inverse variances. -/
theorem C323_uncorrelated (cov : ℕ → ℕ → K) (order : List ℕ) (hne : order ≠ []) (hnd : order.Nodup)
    (hd : ∀ i ∈ order, 0 < cov i i) (hu : Uncorrelated cov order) :
    ∃ ws, recursiveBisection cov order = .ok ws ∧ risk cov ws = 1 / (order.map fun i => 1 / cov i i).sum ∧
      (∀ i ∈ order, risk cov ws ≤ cov i i) := by
  refine ⟨_, C201_uncorrelated cov order hnd hd hu, ?_⟩
  have hS := inv_sum_pos cov order hne hd
  have hr : risk cov (order.map fun i => (i, (1 / cov i i) / (order.map fun i => 1 / cov i i).sum)) =
      1 / (order.map fun i => 1 / cov i i).sum := by
    unfold risk
    rw [List.map_map]
    have : ((fun p : ℕ × K => ((order.map fun i => (i, (1 / cov i i) / (order.map fun i => 1 / cov i i).sum)).map
        fun q => p.2 * q.2 * cov p.1 q.1).sum) ∘
        fun i => (i, (1 / cov i i) / (order.map fun i => 1 / cov i i).sum)) =
        fun i => (order.map fun j => (1 / cov i i) / (order.map fun i => 1 / cov i i).sum *
          ((1 / cov j j) / (order.map fun i => 1 / cov i i).sum) * cov i j).sum := by
      funext i
      simp only [Function.comp_def, List.map_map]
    rw [this]
    have h1 : ∀ i ∈ order, (order.map fun j => (1 / cov i i) / (order.map fun i => 1 / cov i i).sum *
          ((1 / cov j j) / (order.map fun i => 1 / cov i i).sum) * cov i j).sum =
        1 / cov i i * (1 / (order.map fun i => 1 / cov i i).sum ^ 2) := by
      intro i hi
      rw [sum_single order hnd i hi _ fun j hj hij => by rw [hu i hi j hj (Ne.symm hij)]; ring]
      have := (hd i hi).ne'
      field_simp
    rw [List.map_congr_left h1, List.sum_map_mul_right]
    field_simp
  refine ⟨hr, fun i hi => ?_⟩
  rw [hr, one_div_le hS (hd i hi)]
  have : (order.map fun i => 1 / cov i i).sum = 1 / cov i i + ((order.erase i).map fun i => 1 / cov i i).sum := by
    rw [((List.perm_cons_erase hi).map _).sum_eq, List.map_cons, List.sum_cons]
  rw [this]
  apply le_add_of_nonneg_right
  apply List.sum_nonneg
  intro y hy
  obtain ⟨j, hj, rfl⟩ := List.mem_map.1 hy
  exact (one_div_pos.2 (hd j (List.mem_of_mem_erase hj))).le

/-- An instrument of variance 3/2 that moves with two others of variance 1. -/
def alikeCov (i j : ℕ) : ℚ :=
  if i = 0 ∧ j = 0 then 3 / 2 else if i = 0 ∨ j = 0 then 11 / 10 else if i = j then 1 else 9 / 10

/-- C323 (refuted).  The three instruments of `alikeCov`. -/
theorem C323_equal_counterexample : ¬ NoRiskierThanEqual := by
  intro h
  have hex : ∃ ws, recursiveBisection alikeCov [0, 1, 2] = .ok ws ∧
      risk alikeCov (equalWeights [0, 1, 2]) < risk alikeCov ws := by
    refine ⟨[(0, 19 / 49), (1, 15 / 49), (2, 15 / 49)], by decide +kernel, by decide +kernel⟩
  obtain ⟨ws, h1, h2⟩ := hex
  refine absurd (h alikeCov [0, 1, 2] ws (by decide) (fun i j => ?_) (fun w hw => ?_) h1) (not_le.2 h2)
  · unfold alikeCov
    simp only [and_comm (a := i = 0), or_comm (a := i = 0), eq_comm (a := i) (b := j)]
  · simp [alikeCov]
    have h : w 0 ≠ 0 ∨ w 1 ≠ 0 ∨ w 2 ≠ 0 := by simpa using hw
    have hp : 0 < w 0 ^ 2 + w 1 ^ 2 + w 2 ^ 2 := by
      rcases h with h | h | h <;> positivity
    nlinarith [sq_nonneg (w 0 * (11 / 10) + (w 1 + w 2) * (19 / 20)), sq_nonneg (w 1 - w 2), sq_nonneg (w 0),
      sq_nonneg (w 1 + w 2 + w 0), sq_nonneg (w 1 + w 2)]

/-- Two correlated instruments within the hypotheses. -/
example : ∃ ws, recursiveBisection exCov [0, 1] = .ok ws ∧ risk exCov ws ≤ risk exCov (equalWeights [0, 1]) :=
  C323_equal_partial exCov 0 1 (by norm_num) (by decide +kernel) (by decide +kernel) (by decide +kernel) (by decide +kernel)

/-- Three uncorrelated instruments within the hypotheses of `C323_uncorrelated`. -/
example : ∃ ws, recursiveBisection (fun i j => if i = j then (i : ℚ) + 1 else 0) [2, 0, 1] = .ok ws ∧
    risk (fun i j => if i = j then (i : ℚ) + 1 else 0) ws = 6 / 11 := by
  obtain ⟨ws, h1, h2, -⟩ := C323_uncorrelated (fun i j => if i = j then (i : ℚ) + 1 else 0) [2, 0, 1] (by simp)
    (by decide) (by decide +kernel) (by intro i _ j _ hij; simp [hij])
  exact ⟨ws, h1, by rw [h2]; norm_num⟩

/-- Four observations of two uncorrelated instruments with variances 4/3 and 16/3 within those of `C323_largest`. -/
example : ∃ ws, hrpAllocations (fun _ _ => [⟨0, 1, 2⟩]) 2
      [fun i => if i = 0 then 1 else 2, fun i => if i = 0 then 1 else -2, fun i => if i = 0 then -1 else 2,
        fun i => if i = 0 then -1 else -2] = .ok ws ∧
    sampleVar (([fun i => if i = 0 then 1 else 2, fun i => if i = 0 then 1 else -2, fun i => if i = 0 then -1 else 2,
        fun i => if i = 0 then -1 else -2] : List (ℕ → ℝ)).map (portfolioReturn ws)) ≤ 16 / 3 := by
  apply C323_largest
  · exact ⟨le_refl _, rfl, by
      intro k r h
      match k with
      | 0 => cases h; decide
      | k + 1 => simp at h, by decide, by
      intro k r h
      match k with
      | 0 => cases h; decide
      | k + 1 => simp at h⟩
  · intro order ho
    have hm : ∀ i ∈ order, i = 0 ∨ i = 1 := by
      intro i hi
      have := List.mem_range.1 (ho.mem_iff.1 hi)
      omega
    apply posVar_diag _ _ (ho.nodup_iff.2 List.nodup_range)
    · intro i hi
      rcases hm i hi with rfl | rfl <;> norm_num [sampleCov, colMean]
    · intro i hi j hj hij
      rcases hm i hi with rfl | rfl <;> rcases hm j hj with rfl | rfl <;>
        first | exact absurd rfl hij | norm_num [sampleCov, colMean]
  · intro i hi
    interval_cases i <;> norm_num [sampleVar]

end FinML.Alloc
