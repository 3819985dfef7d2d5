import Verif.Sim.Model
import Verif.Py.Lemmas
import Mathlib.Algebra.BigOperators.Intervals
import Mathlib.Algebra.BigOperators.Ring.Finset
import Mathlib.Algebra.Field.GeomSum

/-!
# Properties C122, C123, C124, C150 and C151
-/

namespace FinML.Sim

open FinML.Risk Finset

/-! ## C122 -/

theorem gbmLoop_spec (z : ℕ → ℝ) (drift vol dt : ℝ) (n t : ℕ) (s : ℝ) :
    (gbmLoop z drift vol dt n t s).length = n ∧
      ∀ i < n, (gbmLoop z drift vol dt n t s)[i]? =
        some (s * ∏ k ∈ range (i + 1), (1 + (drift * dt + vol * √dt * z (t + k)))) := by
  induction n generalizing t s with
  | zero => simp [gbmLoop]
  | succ n ih =>
    unfold gbmLoop
    simp only
    obtain ⟨h1, h2⟩ := ih (t + 1) (s + s * (drift * dt + vol * √dt * z t))
    refine ⟨by rw [List.length_cons, h1], ?_⟩
    intro i hi
    cases i with
    | zero =>
      rw [List.getElem?_cons_zero, zero_add, Finset.prod_range_one, add_zero]
      congr 1
      ring
    | succ i =>
      rw [List.getElem?_cons_succ, h2 i (by omega), Finset.prod_range_succ' _ (i + 1)]
      have : ∀ k, t + 1 + k = t + (k + 1) := fun k => by omega
      simp only [this, add_zero]
      congr 1
      ring

/-- C122. `num_steps` values; the `i`-th is `s0` times the product of one plus each of the first `i + 1`
returns `drift·dt + volatility·√dt·z`. -/
theorem C122_product (z : ℕ → ℝ) (s0 drift vol : ℝ) (n : ℕ) (dt : ℝ) (hdt : 0 ≤ dt) :
    ∃ l, genGeometricBrownian z s0 drift vol n dt = .ok l ∧ l.length = n ∧
      ∀ i < n, l[i]? = some (s0 * ∏ k ∈ range (i + 1), (1 + (drift * dt + vol * √dt * z k))) := by
  refine ⟨_, by unfold genGeometricBrownian; rw [if_neg (by rintro ⟨h, -⟩; linarith)], ?_, ?_⟩
  · exact (gbmLoop_spec z drift vol dt n 0 s0).1
  · intro i hi
    have := (gbmLoop_spec z drift vol dt n 0 s0).2 i hi
    simpa using this

/-- C122. The values are proportional to `s0`. -/
theorem C122_proportional (z : ℕ → ℝ) (s0 c drift vol : ℝ) (n : ℕ) (dt : ℝ) (l : List ℝ)
    (h : genGeometricBrownian z s0 drift vol n dt = .ok l) :
    genGeometricBrownian z (c * s0) drift vol n dt = .ok (l.map fun v => c * v) := by
  unfold genGeometricBrownian at h ⊢
  split_ifs at h ⊢ with hc
  cases h
  congr 1
  clear hc
  generalize 0 = t
  induction n generalizing t s0 with
  | zero => rfl
  | succ n ih =>
    unfold gbmLoop
    simp only [List.map_cons]
    rw [← ih, show c * s0 + c * s0 * (drift * dt + vol * √dt * z t) =
      c * (s0 + s0 * (drift * dt + vol * √dt * z t)) by ring]

/-- C122. From a positive start all values are positive if all returns drawn exceed -1; if one does not, the
values from then on include one that is not positive. -/
theorem C122_positive (z : ℕ → ℝ) (s0 drift vol : ℝ) (n : ℕ) (dt : ℝ) (l : List ℝ) (hs : 0 < s0)
    (hdt : 0 ≤ dt) (h : genGeometricBrownian z s0 drift vol n dt = .ok l) :
    (∀ v ∈ l, 0 < v) ↔ ∀ k < n, -1 < drift * dt + vol * √dt * z k := by
  obtain ⟨l', h1, h2, h3⟩ := C122_product z s0 drift vol n dt hdt
  rw [h1] at h
  cases h
  constructor
  · intro hpos k hk
    induction k using Nat.strong_induction_on with
    | _ k ih =>
      have hv := hpos _ (List.mem_of_getElem? (h3 k hk))
      rw [Finset.prod_range_succ, ← mul_assoc] at hv
      have hp : 0 < s0 * ∏ i ∈ range k, (1 + (drift * dt + vol * √dt * z i)) := by
        refine mul_pos hs (Finset.prod_pos fun i hi => ?_)
        rw [Finset.mem_range] at hi
        have := ih i hi (by omega)
        linarith
      have := (mul_pos_iff_of_pos_left hp).1 hv
      linarith
  · intro hr v hv
    obtain ⟨i, hi, rfl⟩ := List.mem_iff_getElem.1 hv
    have := h3 i (by omega)
    rw [List.getElem?_eq_getElem hi, Option.some.injEq] at this
    rw [this]
    refine mul_pos hs (Finset.prod_pos fun k hk => ?_)
    rw [Finset.mem_range] at hk
    have := hr k (by omega)
    linarith

/-- Two steps: up by half, then down by a half. -/
example : genGeometricBrownian (fun t => if t = 0 then 1 else -1) 4 0 (1 / 2) 2 1 = .ok [6, 3] := by
  obtain ⟨l, h1, h2, h3⟩ := C122_product (fun t => if t = 0 then 1 else -1) 4 0 (1 / 2) 2 1 (by norm_num)
  rw [h1]
  have e0 := h3 0 (by norm_num)
  have e1 := h3 1 (by norm_num)
  match l, h2 with
  | [a, b], _ =>
    norm_num [Finset.prod_range_succ] at e0 e1
    rw [e0, e1]

/-! ## C123 -/

theorem ouLoop_spec (z : ℕ → ℝ) (f phi sigma : ℝ) (n t : ℕ) (p : ℝ) :
    (ouLoop z f phi sigma n t p).length = n ∧
      ∀ i < n, (ouLoop z f phi sigma n t p)[i]? =
        some (f + phi ^ (i + 1) * (p - f) + sigma * ∑ s ∈ range (i + 1), phi ^ (i - s) * z (t + s)) := by
  induction n generalizing t p with
  | zero => simp [ouLoop]
  | succ n ih =>
    unfold ouLoop
    simp only
    obtain ⟨h1, h2⟩ := ih (t + 1) ((1 - phi) * f + phi * p + sigma * z t)
    refine ⟨by rw [List.length_cons, h1], ?_⟩
    intro i hi
    cases i with
    | zero =>
      rw [List.getElem?_cons_zero, zero_add, Finset.sum_range_one, add_zero]
      congr 1
      simp
      ring
    | succ i =>
      rw [List.getElem?_cons_succ, h2 i (by omega), Finset.sum_range_succ' _ (i + 1)]
      have h3 : ∀ k, t + 1 + k = t + (k + 1) := fun k => by omega
      have h4 : ∀ k, i + 1 - (k + 1) = i - k := fun k => by omega
      simp only [h3, h4, add_zero, Nat.sub_zero]
      congr 1
      rw [pow_succ phi (i + 1)]
      ring

/-- C123. There are `num_steps` values.  After `t` steps the deviation from the forecast is
`phi^t·(seed - forecast)` plus `sigma` times the sum of the shocks, each decayed by `phi` for every step
since; and `phi^half_life = 1/2`. -/
theorem C123_deviation (first : ℕ → ℝ) (f h sigma p0 : ℝ) (n : ℕ) (rs : RandomState) (hh : h ≠ 0) :
    ∃ (l : List ℝ) (phi : ℝ), genDiscreteOu first f h sigma p0 n rs = .ok l ∧ l.length = n ∧ 0 < phi ∧
      phi ^ h = 1 / 2 ∧ (0 < h → phi < 1) ∧
      ∀ t, 1 ≤ t → t ≤ n → ∃ p, l[t - 1]? = some p ∧
        p - f = phi ^ t * (p0 - f) + sigma * ∑ s ∈ Finset.Icc 1 t, phi ^ (t - s) * rs.draw first (s - 1) := by
  refine ⟨ouLoop (rs.draw first) f ((2 : ℝ) ^ (-1 / h)) sigma n 0 p0, (2 : ℝ) ^ (-1 / h),
    by unfold genDiscreteOu; rw [if_neg hh], (ouLoop_spec _ _ _ _ _ _ _).1, by positivity, ?_, ?_, ?_⟩
  · rw [← Real.rpow_mul (by norm_num), div_mul_cancel₀ _ hh, Real.rpow_neg_one]
    norm_num
  · intro hp
    apply Real.rpow_lt_one_of_one_lt_of_neg (by norm_num)
    exact div_neg_of_neg_of_pos (by norm_num) hp
  · intro t h1 h2
    obtain ⟨i, rfl⟩ : ∃ i, t = i + 1 := ⟨t - 1, by omega⟩
    refine ⟨_, by rw [Nat.add_sub_cancel]; exact (ouLoop_spec _ _ _ _ _ _ _).2 i (by omega), ?_⟩
    have : ∑ s ∈ Finset.Icc 1 (i + 1), ((2 : ℝ) ^ (-1 / h)) ^ (i + 1 - s) * rs.draw first (s - 1) =
        ∑ s ∈ range (i + 1), ((2 : ℝ) ^ (-1 / h)) ^ (i - s) * rs.draw first (0 + s) := by
      rw [← Finset.Ico_add_one_right_eq_Icc, Finset.sum_Ico_eq_sum_range]
      refine Finset.sum_congr (by simp) fun s _ => ?_
      rw [show i + 1 - (1 + s) = i - s by omega, show 1 + s - 1 = 0 + s by omega]
    rw [this]
    ring

/-- C123. Without shocks a whole half life halves the deviation. -/
theorem C123_half_life (first : ℕ → ℝ) (f p0 : ℝ) (h n : ℕ) (hh : 0 < h) (hn : h ≤ n) (rs : RandomState)
    (l : List ℝ) (hl : genDiscreteOu first f h 0 p0 n rs = .ok l) :
    ∃ p, l[h - 1]? = some p ∧ p - f = (p0 - f) / 2 := by
  obtain ⟨l', phi, h1, -, h2, h3, -, h4⟩ := C123_deviation first f h 0 p0 n rs (by positivity)
  rw [h1] at hl
  cases hl
  obtain ⟨p, h5, h6⟩ := h4 h hh hn
  refine ⟨p, h5, ?_⟩
  rw [Real.rpow_natCast] at h3
  rw [h6, h3]
  ring

/-- C123. With an integer `random_state` every step has the same shock `z`, so the values approach
`forecast + sigma·z/(1 - phi)` and are not a random walk around the forecast. -/
theorem C123_integer_seed (first : ℕ → ℝ) (f h sigma p0 : ℝ) (n s : ℕ) (hh : 0 < h) :
    ∃ (l : List ℝ) (phi : ℝ), genDiscreteOu first f h sigma p0 n (.seed s) = .ok l ∧ 0 < phi ∧ phi < 1 ∧
      phi ^ h = 1 / 2 ∧ ∀ t, 1 ≤ t → t ≤ n →
        ∃ p, l[t - 1]? = some p ∧ p - (f + sigma * first s / (1 - phi)) =
          phi ^ t * (p0 - (f + sigma * first s / (1 - phi))) := by
  obtain ⟨l, phi, h1, h0, h2, h3, h5, h4⟩ := C123_deviation first f h sigma p0 n (.seed s) hh.ne'
  refine ⟨l, phi, h1, h2, h5 hh, h3, ?_⟩
  intro t ht1 ht2
  obtain ⟨p, h6, h7⟩ := h4 t ht1 ht2
  refine ⟨p, h6, ?_⟩
  have hphi : 1 - phi ≠ 0 := by have := h5 hh; linarith
  have hsum : ∑ s' ∈ Finset.Icc 1 t, phi ^ (t - s') * (RandomState.seed s).draw first (s' - 1) =
      (1 - phi ^ t) / (1 - phi) * first s := by
    have e : ∀ s' ∈ Finset.Icc 1 t, phi ^ (t - s') * (RandomState.seed s).draw first (s' - 1) =
        phi ^ (t - s') * first s := fun _ _ => rfl
    rw [Finset.sum_congr rfl e, ← Finset.sum_mul]
    congr 1
    clear h7 h6 h4 e ht2 h1 h0
    induction t, ht1 using Nat.le_induction with
    | base => simp [hphi]
    | succ t ht ih =>
      rw [Finset.sum_Icc_succ_top (by omega)]
      have : ∀ x ∈ Finset.Icc 1 t, phi ^ (t + 1 - x) = phi * phi ^ (t - x) := by
        intro x hx
        rw [Finset.mem_Icc] at hx
        rw [show t + 1 - x = (t - x) + 1 by omega, pow_succ, mul_comm]
      rw [Finset.sum_congr rfl this, ← Finset.mul_sum, ih]
      simp
      field_simp
      ring
  rw [hsum] at h7
  have : p = f + (phi ^ t * (p0 - f) + sigma * ((1 - phi ^ t) / (1 - phi) * first s)) := by linarith
  rw [this]
  field_simp
  ring

/-- C123. A half life of zero is a ZeroDivisionError. -/
theorem C123_zero (first : ℕ → ℝ) (f sigma p0 : ℝ) (n : ℕ) (rs : RandomState) :
    genDiscreteOu first f 0 sigma p0 n rs = .error .zeroDivision := by
  simp [genDiscreteOu]

/-! ## C124, C150 and C151 -/

theorem pyInt_nonneg {x : ℝ} (h : 0 ≤ x) : pyInt x = ⌊x⌋ := by rw [pyInt, if_pos h]

/-- The values drawn from a component. -/
noncomputable def component (z : ℕ → ℝ) (mu sigma : ℝ) (n : ℕ) : List ℝ :=
  (List.range n).map fun i => mu + sigma * z i

theorem mixed_ok (rngOf : ℕ → Rng) (current : Rng) (mu1 mu2 sigma1 sigma2 prob1 n : ℝ) (seed : Option ℕ)
    (hp0 : 0 ≤ prob1) (hp1 : prob1 ≤ 1) (hn : 0 ≤ n) (h1 : 0 ≤ sigma1) (h2 : 0 ≤ sigma2) :
    genMixedGaussians rngOf current mu1 mu2 sigma1 sigma2 prob1 n seed =
      .ok ((startState rngOf current seed).shuffle
        (component (startState rngOf current seed).z1 mu1 sigma1 ⌊n * prob1⌋₊ ++
          component (startState rngOf current seed).z2 mu2 sigma2 (⌊n⌋₊ - ⌊n * prob1⌋₊))) := by
  have hnp : 0 ≤ n * prob1 := mul_nonneg hn hp0
  have hle : ⌊n * prob1⌋ ≤ ⌊n⌋ := Int.floor_le_floor (by nlinarith)
  have hf : (0 : ℤ) ≤ ⌊n * prob1⌋ := Int.floor_nonneg.2 hnp
  unfold genMixedGaussians normalSample component
  simp only
  rw [pyInt_nonneg hnp, pyInt_nonneg hn, if_neg (by push Not; exact ⟨h1, hf⟩), py_bind_ok, if_neg]
  · rw [py_bind_ok]
    simp only [List.length_map, List.length_range, Int.toNat_of_nonneg hf]
    rw [show (⌊n⌋ - ⌊n * prob1⌋).toNat = ⌊n⌋₊ - ⌊n * prob1⌋₊ by
      rw [← Int.floor_toNat, ← Int.floor_toNat]; omega, Int.floor_toNat]
    rfl
  · push Not
    refine ⟨h2, ?_⟩
    simp only [List.length_map, List.length_range, Int.toNat_of_nonneg hf]
    omega

/-- C124. `int(n_samples)` values: a rearrangement of `int(n_samples·prob1)` numbers `mu1 + sigma1·z` and,
for the rest, numbers `mu2 + sigma2·z`. -/
theorem C124_sizes (rngOf : ℕ → Rng) (current : Rng) (mu1 mu2 sigma1 sigma2 prob1 n : ℝ) (seed : Option ℕ)
    (hp0 : 0 ≤ prob1) (hp1 : prob1 ≤ 1) (hn : 0 ≤ n) (h1 : 0 ≤ sigma1) (h2 : 0 ≤ sigma2) :
    ∃ (l a b : List ℝ), genMixedGaussians rngOf current mu1 mu2 sigma1 sigma2 prob1 n seed = .ok l ∧
      l.length = ⌊n⌋₊ ∧ l.Perm (a.map (fun z => mu1 + sigma1 * z) ++ b.map (fun z => mu2 + sigma2 * z)) ∧
      a.length = ⌊n * prob1⌋₊ ∧ b.length = ⌊n⌋₊ - ⌊n * prob1⌋₊ := by
  have hle : ⌊n * prob1⌋₊ ≤ ⌊n⌋₊ := Nat.floor_le_floor (by nlinarith)
  set rng := startState rngOf current seed with hr
  have hok := mixed_ok rngOf current mu1 mu2 sigma1 sigma2 prob1 n seed hp0 hp1 hn h1 h2
  refine ⟨_, (List.range ⌊n * prob1⌋₊).map rng.z1, (List.range (⌊n⌋₊ - ⌊n * prob1⌋₊)).map rng.z2, hok, ?_, ?_,
    by simp, by simp⟩
  · rw [(rng.perm _).length_eq]
    simp [component]
    omega
  · rw [List.map_map, List.map_map]
    exact rng.perm _

/-- C124. A probability that asks for more than all samples from the first component is a ValueError. -/
theorem C124_error (rngOf : ℕ → Rng) (current : Rng) (mu1 mu2 sigma1 sigma2 prob1 n : ℝ) (seed : Option ℕ)
    (hp : 0 ≤ n * prob1) (hn : 0 ≤ n) (h1 : 0 ≤ sigma1) (h : ⌊n⌋₊ < ⌊n * prob1⌋₊) :
    genMixedGaussians rngOf current mu1 mu2 sigma1 sigma2 prob1 n seed = .error .valueError := by
  have hf : (0 : ℤ) ≤ ⌊n * prob1⌋ := Int.floor_nonneg.2 hp
  unfold genMixedGaussians normalSample
  simp only
  rw [pyInt_nonneg hp, pyInt_nonneg hn, if_neg (by push Not; exact ⟨h1, hf⟩), py_bind_ok, if_pos]
  · rfl
  · right
    simp only [List.length_map, List.length_range, Int.toNat_of_nonneg hf]
    rw [← Int.floor_toNat, ← Int.floor_toNat] at h
    omega

/-- The identity as a shuffle. -/
def plain (z1 z2 : ℕ → ℝ) : Rng := ⟨z1, z2, id, fun _ => List.Perm.refl _⟩

/-- Five samples, of which two come from the first component: `5·(1/2)` is truncated. -/
example : genMixedGaussians (fun _ => plain (fun _ => 0) fun _ => 0) (plain (fun _ => 0) fun _ => 0) 1 2 1 1 (1 / 2) 5
    none = .ok [1, 1, 2, 2, 2] := by
  rw [mixed_ok _ _ _ _ _ _ _ _ _ (by norm_num) (by norm_num) (by norm_num) (by norm_num) (by norm_num)]
  have h1 : ⌊(5 * (1 / 2) : ℝ)⌋₊ = 2 := by rw [Nat.floor_eq_iff (by norm_num)]; norm_num
  have h2 : ⌊(5 : ℝ)⌋₊ = 5 := by rw [Nat.floor_eq_iff (by norm_num)]; norm_num
  rw [h1, h2]
  simp [startState, plain, component, List.range_succ]

/-- C150, the full claim: with a seed the sample does not depend on the state of the global generator. -/
def Reproducible : Prop :=
  ∀ (rngOf : ℕ → Rng) (c c' : Rng) (mu1 mu2 sigma1 sigma2 prob1 n : ℝ) (s : ℕ),
    genMixedGaussians rngOf c mu1 mu2 sigma1 sigma2 prob1 n (some s) =
      genMixedGaussians rngOf c' mu1 mu2 sigma1 sigma2 prob1 n (some s)

/-- C150. The seed 0 is taken for no seed. -/
theorem C150_reproducible_counterexample : ¬ Reproducible := by
  intro h
  have := h (fun _ => plain (fun _ => 0) fun _ => 0) (plain (fun _ => 0) fun _ => 0) (plain (fun _ => 1) fun _ => 0)
    0 0 1 1 1 1 0
  rw [mixed_ok _ _ _ _ _ _ _ _ _ (by norm_num) (by norm_num) (by norm_num) (by norm_num) (by norm_num),
    mixed_ok _ _ _ _ _ _ _ _ _ (by norm_num) (by norm_num) (by norm_num) (by norm_num) (by norm_num)] at this
  simp [startState, plain, component] at this

/-- C150, what holds: the claim for seeds other than 0.

Missing: the seed 0, which is ignored (see `C150_reproducible_counterexample`). -/
theorem C150_reproducible_partial (rngOf : ℕ → Rng) (c c' : Rng) (mu1 mu2 sigma1 sigma2 prob1 n : ℝ) (s : ℕ)
    (hs : s ≠ 0) : genMixedGaussians rngOf c mu1 mu2 sigma1 sigma2 prob1 n (some s) =
      genMixedGaussians rngOf c' mu1 mu2 sigma1 sigma2 prob1 n (some s) := by
  unfold genMixedGaussians startState
  simp only [if_neg hs]

/-- C151. The probability of failure does not depend on the order of the returns. -/
theorem C151_order (l l' : List ℝ) (h : l.Perm l') (freq target : ℝ) :
    probabilityOfFailure l freq target = probabilityOfFailure l' freq target := by
  unfold probabilityOfFailure
  have h1 := h.filter fun r : ℝ => decide (0 < r)
  have h2 := h.filter fun r : ℝ => decide (r ≤ 0)
  have hm : ∀ {a b : List ℝ}, a.Perm b → meanOpt a = meanOpt b := by
    intro a b hab
    unfold meanOpt
    rw [hab.sum_eq, hab.length_eq]
    by_cases ha : a = []
    · subst ha
      rw [List.nil_perm.1 hab]
    · rw [if_neg ha, if_neg (fun hb => ha (by subst hb; exact List.perm_nil.1 hab))]
  simp only [h.length_eq, h1.length_eq, hm h1, hm h2]

/-- C151. So the simulated probability of failure is that of the drawn numbers in the order drawn, whatever
the shuffle. -/
theorem C151_simulation (rngOf : ℕ → Rng) (current : Rng) (mu1 mu2 sigma1 sigma2 prob1 n freq target : ℝ)
    (hp0 : 0 ≤ prob1) (hp1 : prob1 ≤ 1) (hn : 0 ≤ n) (h1 : 0 ≤ sigma1) (h2 : 0 ≤ sigma2) :
    simulateProbabilityOfFailure rngOf current mu1 mu2 sigma1 sigma2 prob1 n freq target =
      probabilityOfFailure (component current.z1 mu1 sigma1 ⌊n * prob1⌋₊ ++
        component current.z2 mu2 sigma2 (⌊n⌋₊ - ⌊n * prob1⌋₊)) freq target := by
  unfold simulateProbabilityOfFailure
  rw [mixed_ok rngOf current mu1 mu2 sigma1 sigma2 prob1 n none hp0 hp1 hn h1 h2, py_bind_ok]
  exact C151_order _ _ (current.perm _) freq target

end FinML.Sim
