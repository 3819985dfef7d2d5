import Verif.Alloc.HrpProps
import Verif.Alloc.TreeProps

/-! # Properties C201-C204: which portfolios hierarchical risk parity gives -/

set_option linter.unusedSectionVars false

namespace FinML.Alloc

variable {K : Type} [Field K] [LinearOrder K] [IsStrictOrderedRing K]

/-! ## C201: uncorrelated instruments -/

theorem sum_single (g : List ℕ) (hnd : g.Nodup) (i : ℕ) (hi : i ∈ g) (f : ℕ → K)
    (h : ∀ j ∈ g, j ≠ i → f j = 0) : (g.map f).sum = f i := by
  induction g with
  | nil => cases hi
  | cons a l ih =>
    obtain ⟨ha, hl⟩ := List.nodup_cons.1 hnd
    rw [List.map_cons, List.sum_cons]
    rcases List.mem_cons.1 hi with rfl | hil
    · have : (l.map f).sum = 0 := by
        rw [List.map_congr_left (g := fun _ => (0 : K)) fun j hj =>
          h j (List.mem_cons_of_mem _ hj) fun he => ha (he ▸ hj)]
        simp
      rw [this, add_zero]
    · rw [ih hl hil fun j hj => h j (List.mem_cons_of_mem _ hj),
        h a (by simp) (fun he => ha (he ▸ hil)), zero_add]

/-- No two instruments of the group are correlated. -/
def Uncorrelated (cov : ℕ → ℕ → K) (g : List ℕ) : Prop := ∀ i ∈ g, ∀ j ∈ g, i ≠ j → cov i j = 0

theorem groupVar_diag (cov : ℕ → ℕ → K) (g : List ℕ) (hne : g ≠ []) (hnd : g.Nodup)
    (hd : ∀ i ∈ g, 0 < cov i i) (hu : Uncorrelated cov g) :
    groupVar cov g = 1 / (g.map fun i => 1 / cov i i).sum := by
  have hS := inv_sum_pos cov g hne hd
  have h1 : (g.map fun j => (g.map fun i => (1 / cov i i) * cov i j * (1 / cov j j)).sum).sum =
      (g.map fun i => 1 / cov i i).sum := by
    congr 1
    apply List.map_congr_left
    intro j hj
    rw [sum_single g hnd j hj _ fun i hi hij => by rw [hu i hi j hj hij]; ring]
    have := (hd j hj).ne'
    field_simp
  unfold groupVar
  rw [h1]
  field_simp

theorem Bisect.diag {cov : ℕ → ℕ → K} {w : K} {g : List ℕ} {r : List (ℕ × K)} (h : Bisect cov w g r)
    (hne : g ≠ []) (hnd : g.Nodup) (hd : ∀ i ∈ g, 0 < cov i i) (hu : Uncorrelated cov g) :
    r = g.map fun i => (i, w * ((1 / cov i i) / (g.map fun i => 1 / cov i i).sum)) := by
  induction h with
  | nil w => exact absurd rfl hne
  | one w i =>
    have := (hd i (by simp)).ne'
    simp only [List.map_cons, List.map_nil, List.sum_cons, List.sum_nil, add_zero]
    rw [div_self (one_div_ne_zero this), mul_one]
  | split w a b ra rb hane hlen ha hb iha ihb =>
    have hbne : b ≠ [] := by
      rintro rfl
      have := List.length_pos_of_ne_nil hane
      simp at hlen
      omega
    obtain ⟨hna, hnb, -⟩ := List.nodup_append.1 hnd
    have hda : ∀ i ∈ a, 0 < cov i i := fun i hi => hd i (List.mem_append_left _ hi)
    have hdb : ∀ i ∈ b, 0 < cov i i := fun i hi => hd i (List.mem_append_right _ hi)
    have hua : Uncorrelated cov a := fun i hi j hj =>
      hu i (List.mem_append_left _ hi) j (List.mem_append_left _ hj)
    have hub : Uncorrelated cov b := fun i hi j hj =>
      hu i (List.mem_append_right _ hi) j (List.mem_append_right _ hj)
    have hSa := inv_sum_pos cov a hane hda
    have hSb := inv_sum_pos cov b hbne hdb
    rw [iha hane hna hda hua, ihb hbne hnb hdb hub, List.map_append, groupVar_diag cov a hane hna hda hua,
      groupVar_diag cov b hbne hnb hdb hub, List.map_append, List.sum_append]
    generalize (a.map fun i => 1 / cov i i).sum = A at *
    generalize (b.map fun i => 1 / cov i i).sum = B at *
    have hAB := add_pos hSa hSb
    congr 1
    · apply List.map_congr_left
      intro i _
      congr 1
      field_simp
      ring
    · apply List.map_congr_left
      intro i _
      congr 1
      field_simp
      rw [add_comm]

theorem posVar_diag (cov : ℕ → ℕ → K) (order : List ℕ) (hnd : order.Nodup) (hd : ∀ i ∈ order, 0 < cov i i)
    (hu : Uncorrelated cov order) : PosVar cov order := by
  refine ⟨hd, fun g hg hin => ?_⟩
  have hsub := hin.sublist
  have hd' : ∀ i ∈ g, 0 < cov i i := fun i hi => hd i (hsub.subset hi)
  rw [groupVar_diag cov g hg (hnd.sublist hsub) hd'
    fun i hi j hj => hu i (hsub.subset hi) j (hsub.subset hj)]
  exact one_div_pos.2 (inv_sum_pos cov g hg hd')

/-- C201.  For uncorrelated instruments the weights are those of the inverse variance portfolio, in
whatever order the clustering puts them. -/
theorem C201_uncorrelated (cov : ℕ → ℕ → K) (order : List ℕ) (hnd : order.Nodup)
    (hd : ∀ i ∈ order, 0 < cov i i) (hu : Uncorrelated cov order) :
    recursiveBisection cov order =
      .ok (order.map fun i => (i, (1 / cov i i) / (order.map fun i => 1 / cov i i).sum)) := by
  obtain ⟨ws, h1, h2, h3⟩ := C80_bisection cov order hnd (posVar_diag cov order hnd hd hu)
  rw [h1]
  rcases List.eq_nil_or_concat order with rfl | ⟨l, a, rfl⟩
  · rw [List.map_eq_nil_iff] at h2
    rw [h2]; rfl
  · rw [h3.diag (by simp) hnd hd hu]
    simp

/-- C201, end to end: returns with no sample correlation get inverse variance weights, for every
clustering method. -/
theorem C201_hrp (linkage : ℕ → (ℕ → ℕ → ℝ) → List Row) (n : ℕ) (x : List (ℕ → ℝ))
    (hlink : ValidLinkage n (linkage n (corrToDist (sampleCorr x))))
    (hd : ∀ i < n, 0 < sampleCov x i i) (hu : ∀ i < n, ∀ j < n, i ≠ j → sampleCov x i j = 0) :
    ∃ ws, hrpAllocations linkage n x = .ok ws ∧
      ws.Perm ((List.range n).map fun i =>
        (i, (1 / sampleCov x i i) / ((List.range n).map fun i => 1 / sampleCov x i i).sum)) := by
  obtain ⟨order, ho, -, hperm⟩ := C79_quasi_diagonalize n _ hlink
  have hmem : ∀ i ∈ order, i < n := fun i hi => List.mem_range.1 (hperm.mem_iff.1 hi)
  refine ⟨order.map fun i => (i, (1 / sampleCov x i i) / (order.map fun i => 1 / sampleCov x i i).sum), ?_, ?_⟩
  · unfold hrpAllocations
    simp only [ho, py_bind_ok]
    exact C201_uncorrelated _ _ (hperm.nodup_iff.2 List.nodup_range) (fun i hi => hd i (hmem i hi))
      fun i hi j hj => hu i (hmem i hi) j (hmem j hj)
  · rw [(hperm.map fun i => 1 / sampleCov x i i).sum_eq]
    exact hperm.map _

/-- Three uncorrelated instruments with variances 1, 2 and 3. -/
example : recursiveBisection (fun i j => if i = j then (i : ℚ) + 1 else 0) [2, 0, 1] =
    .ok [(2, 2 / 11), (0, 6 / 11), (1, 3 / 11)] := by
  decide +kernel

/-! ## C202: units of the returns -/

theorem clusterVar_scale (cov : ℕ → ℕ → K) (c : K) (hc : c ≠ 0) (g : List ℕ) :
    clusterVar (fun i j => c * cov i j) g = (clusterVar cov g).map fun v => c * v := by
  have hs : (g.map fun i => 1 / (c * cov i i)).sum = (1 / c) * (g.map fun i => 1 / cov i i).sum := by
    rw [← List.sum_map_mul_left]
    congr 1
    apply List.map_congr_left
    intro i _
    rw [one_div_mul_one_div]
  have hdiv : divides (fun i j => c * cov i j) g ↔ divides cov g := by
    unfold divides
    rw [hs]
    simp [hc]
  have hinv : inverseVariance (fun i j => c * cov i j) g = inverseVariance cov g := by
    unfold inverseVariance
    simp only [hs, List.map_map]
    apply List.map_congr_left
    intro i _
    simp only [Function.comp_apply]
    rw [← one_div_mul_one_div, mul_div_mul_left _ _ (one_div_ne_zero hc)]
  unfold clusterVar
  by_cases h : divides cov g
  · rw [if_pos h, if_pos (hdiv.2 h), hinv]
    simp only [Except.map]
    congr 1
    unfold quadForm
    rw [← List.sum_map_mul_left]
    congr 1
    apply List.map_congr_left
    intro q _
    rw [← mul_assoc, ← List.sum_map_mul_left]
    congr 2
    apply List.map_congr_left
    intro p _
    ring
  · rw [if_neg h, if_neg fun h' => h (hdiv.1 h')]
    rfl

theorem bisection_scale (cov : ℕ → ℕ → K) (c : K) (hc : c ≠ 0) (order : List ℕ) :
    recursiveBisection (fun i j => c * cov i j) order = recursiveBisection cov order := by
  have hsplit : ∀ p1 p2 (w : Labelled K),
      splitWeights (fun i j => c * cov i j) p1 p2 w = splitWeights cov p1 p2 w := by
    intro p1 p2 w
    unfold splitWeights
    rw [clusterVar_scale cov c hc, clusterVar_scale cov c hc]
    cases clusterVar cov p1 with
    | error e => rfl
    | ok v1 =>
      cases clusterVar cov p2 with
      | error e => rfl
      | ok v2 =>
        simp only [Except.map, py_bind_ok, ← mul_add, mul_eq_zero, hc, false_or,
          mul_div_mul_left _ _ hc]
  have hpair : ∀ ps (w : Labelled K), pairLoop (fun i j => c * cov i j) ps w = pairLoop cov ps w := by
    intro ps
    induction ps using List.twoStepInduction with
    | nil => intro w; rfl
    | singleton p => intro w; rfl
    | cons_cons p1 p2 rest ih _ =>
      intro w
      unfold pairLoop
      rw [hsplit]
      cases splitWeights cov p1 p2 w with
      | error e => rfl
      | ok w' => exact ih w'
  have hloop : ∀ fuel ps (w : Labelled K),
      bisectLoop (fun i j => c * cov i j) fuel ps w = bisectLoop cov fuel ps w := by
    intro fuel
    induction fuel with
    | zero => intro ps w; rfl
    | succ fuel ih =>
      intro ps w
      unfold bisectLoop
      rw [hpair]
      split_ifs with h
      · rfl
      · cases pairLoop cov (ps.flatMap halves) w with
        | error e => rfl
        | ok w' => exact ih _ w'
  exact hloop _ _ _

theorem colMean_affine (x : List (ℕ → K)) (hx : x ≠ []) (c : K) (d : ℕ → K) (i : ℕ) :
    colMean (x.map fun r i => c * r i + d i) i = c * colMean x i + d i := by
  have hl : (x.length : K) ≠ 0 := by
    simpa using hx
  unfold colMean
  rw [List.map_map, List.length_map]
  have : (x.map ((fun r => r i) ∘ fun (r : ℕ → K) i => c * r i + d i)).sum =
      c * (x.map fun r => r i).sum + x.length * d i := by
    clear hl hx
    induction x with
    | nil => simp
    | cons r l ih =>
      simp only [List.map_cons, List.sum_cons, Function.comp_apply, List.length_cons] at ih ⊢
      rw [ih]
      push_cast
      ring
  rw [this]
  field_simp

theorem sampleCov_affine (x : List (ℕ → K)) (c : K) (d : ℕ → K) (i j : ℕ) :
    sampleCov (x.map fun r i => c * r i + d i) i j = c ^ 2 * sampleCov x i j := by
  by_cases hx : x = []
  · subst hx; simp [sampleCov]
  unfold sampleCov
  rw [List.map_map, List.length_map, colMean_affine x hx, colMean_affine x hx]
  have : (x.map ((fun r => (r i - (c * colMean x i + d i)) * (r j - (c * colMean x j + d j))) ∘
      fun (r : ℕ → K) i => c * r i + d i)) =
      x.map fun r => c ^ 2 * ((r i - colMean x i) * (r j - colMean x j)) := by
    apply List.map_congr_left
    intro r _
    simp only [Function.comp_apply]
    ring
  rw [this, List.sum_map_mul_left]
  ring

/-- C202.  The allocation does not depend on the unit or sign of the returns nor on their means: a common
factor and a constant for each instrument leave it as it is, for every clustering method. -/
theorem C202_affine (linkage : ℕ → (ℕ → ℕ → ℝ) → List Row) (n : ℕ) (x : List (ℕ → ℝ)) (c : ℝ) (hc : c ≠ 0)
    (d : ℕ → ℝ) :
    hrpAllocations linkage n (x.map fun r i => c * r i + d i) = hrpAllocations linkage n x := by
  have h1 : sampleCov (x.map fun r i => c * r i + d i) = fun i j => c ^ 2 * sampleCov x i j := by
    funext i j
    exact sampleCov_affine x c d i j
  have h2 : sampleCorr (x.map fun r i => c * r i + d i) = sampleCorr x := by
    funext i j
    unfold sampleCorr
    rw [h1]
    simp only
    rw [Real.sqrt_mul (sq_nonneg c), Real.sqrt_mul (sq_nonneg c), Real.sqrt_sq_eq_abs,
      show |c| * √(sampleCov x i i) * (|c| * √(sampleCov x j j)) =
        c ^ 2 * (√(sampleCov x i i) * √(sampleCov x j j)) by rw [← sq_abs c]; ring,
      mul_div_mul_left _ _ (pow_ne_zero 2 hc)]
  unfold hrpAllocations
  rw [h2, h1]
  simp only [bisection_scale _ _ (pow_ne_zero 2 hc)]

/-- C202.  The order of the observations does not matter. -/
theorem C202_order (linkage : ℕ → (ℕ → ℕ → ℝ) → List Row) (n : ℕ) (x y : List (ℕ → ℝ)) (h : x.Perm y) :
    hrpAllocations linkage n x = hrpAllocations linkage n y := by
  have hm : ∀ i, colMean x i = colMean y i := by
    intro i
    unfold colMean
    rw [(h.map _).sum_eq, h.length_eq]
  have hcov : sampleCov x = sampleCov y := by
    funext i j
    unfold sampleCov
    rw [h.length_eq, hm i, hm j, (h.map _).sum_eq]
  have hcorr : sampleCorr x = sampleCorr y := by
    funext i j
    unfold sampleCorr
    rw [hcov]
  unfold hrpAllocations
  rw [hcov, hcorr]

/-- Two observations of two instruments, in per cent. -/
example (linkage : ℕ → (ℕ → ℕ → ℝ) → List Row) :
    hrpAllocations linkage 2 (([fun i => (i : ℝ), fun i => 1 - i] : List (ℕ → ℝ)).map fun r i => 100 * r i + 0) =
      hrpAllocations linkage 2 [fun i => (i : ℝ), fun i => 1 - i] :=
  C202_affine linkage 2 _ 100 (by norm_num) fun _ => 0

/-! ## C203: instruments that cannot be told apart -/

/-- All variances are `v` and all correlations `rho`. -/
def Exchangeable (cov : ℕ → ℕ → K) (v rho : K) (g : List ℕ) : Prop :=
  ∀ i ∈ g, cov i i = v ∧ ∀ j ∈ g, i ≠ j → cov i j = rho * v

/-- C203, full claim: instruments with equal variances and correlations get equal weights. -/
def EqualWeights : Prop := ∀ (cov : ℕ → ℕ → ℚ) (v rho : ℚ) (order : List ℕ) (ws : Labelled ℚ), 0 < v →
  0 ≤ rho → rho < 1 → order.Nodup → Exchangeable cov v rho order →
  recursiveBisection cov order = .ok ws → ∀ p ∈ ws, p.2 = 1 / order.length

/-- C203, counterexample: three instruments with correlation 1/2 get 3/7, 2/7 and 2/7, because the cut
in the middle of the list leaves one alone. -/
theorem C203_three_counterexample : ¬ EqualWeights := by
  intro h
  have h1 : recursiveBisection (fun i j => if i = j then (1 : ℚ) else 1 / 2) [0, 1, 2] =
      .ok [(0, 3 / 7), (1, 2 / 7), (2, 2 / 7)] := by
    decide +kernel
  have := h _ 1 (1 / 2) [0, 1, 2] _ (by norm_num) (by norm_num) (by norm_num) (by decide) (by
    intro i _
    refine ⟨by simp, fun j _ hij => ?_⟩
    simp [hij]) h1 (0, 3 / 7) (by simp)
  norm_num at this

theorem sum_const_off (g : List ℕ) (hnd : g.Nodup) (j : ℕ) (hj : j ∈ g) (f : ℕ → K) (a b : K)
    (hf : ∀ i ∈ g, f i = if i = j then a else b) :
    (g.map f).sum = a + ((g.length : K) - 1) * b := by
  induction g with
  | nil => cases hj
  | cons i l ih =>
    obtain ⟨hi, hl⟩ := List.nodup_cons.1 hnd
    rw [List.map_cons, List.sum_cons, hf i (by simp), List.length_cons]
    rcases List.mem_cons.1 hj with rfl | hjl
    · have : (l.map f).sum = l.length * b := by
        rw [List.map_congr_left (g := fun _ => b) fun k hk => by
          rw [hf k (List.mem_cons_of_mem _ hk), if_neg (show ¬ k = j from fun he => hi (he ▸ hk))]]
        simp
      rw [this, if_pos rfl]
      push_cast
      ring
    · rw [ih hl hjl fun k hk => hf k (List.mem_cons_of_mem _ hk), if_neg (show ¬ i = j from fun he => hi (he ▸ hjl))]
      push_cast
      ring

theorem groupVar_exch (cov : ℕ → ℕ → K) (v rho : K) (hv : 0 < v) (g : List ℕ) (hne : g ≠ []) (hnd : g.Nodup)
    (he : Exchangeable cov v rho g) :
    groupVar cov g = v * (1 + ((g.length : K) - 1) * rho) / g.length := by
  have hl : (g.length : K) ≠ 0 := by simpa using hne
  have hv' := hv.ne'
  have hS : (g.map fun i => 1 / cov i i).sum = g.length * (1 / v) := by
    rw [List.map_congr_left (g := fun _ => 1 / v) fun i hi => by rw [(he i hi).1]]
    simp
  have hin : ∀ j ∈ g, (g.map fun i => (1 / cov i i) * cov i j * (1 / cov j j)).sum =
      1 / v + ((g.length : K) - 1) * (rho / v) := by
    intro j hj
    refine sum_const_off g hnd j hj _ _ _ fun i hi => ?_
    by_cases hij : i = j
    · subst hij
      rw [if_pos rfl, (he i hi).1]
      field_simp
    · rw [if_neg hij, (he i hi).1, (he j hj).1, (he i hi).2 j hj hij]
      field_simp
  unfold groupVar
  rw [hS, List.map_congr_left hin]
  simp only [List.map_const', List.sum_replicate, nsmul_eq_mul]
  field_simp

theorem Bisect.exch {cov : ℕ → ℕ → K} {v rho w : K} {g : List ℕ} {r : List (ℕ × K)} (h : Bisect cov w g r)
    (hv : 0 < v) (hr : 0 ≤ rho) (k : ℕ) (hlen : g.length = 2 ^ k) (hnd : g.Nodup)
    (he : Exchangeable cov v rho g) : r = g.map fun i => (i, w / 2 ^ k) := by
  induction h generalizing k with
  | nil w =>
    have := Nat.two_pow_pos k
    simp only [List.length_nil] at hlen
    omega
  | one w i =>
    have hk : k = 0 := by
      rcases Nat.eq_zero_or_pos k with h | h
      · exact h
      · have := Nat.one_lt_two_pow h.ne'
        simp at hlen
        omega
    subst hk
    simp
  | split w a b ra rb hane hl ha hb iha ihb =>
    have hapos := List.length_pos_of_ne_nil hane
    rw [List.length_append] at hlen
    obtain ⟨k', rfl⟩ : ∃ k', k = k' + 1 := by
      cases k with
      | zero => simp at hlen; omega
      | succ k' => exact ⟨k', rfl⟩
    rw [pow_succ] at hlen
    have hla : a.length = 2 ^ k' := by omega
    have hlb : b.length = 2 ^ k' := by omega
    have hbne : b ≠ [] := by
      rintro rfl
      have := Nat.two_pow_pos k'
      simp only [List.length_nil] at hlb
      omega
    obtain ⟨hna, hnb, -⟩ := List.nodup_append.1 hnd
    have hea : Exchangeable cov v rho a := fun i hi =>
      ⟨(he i (by simp [hi])).1, fun j hj => (he i (by simp [hi])).2 j (by simp [hj])⟩
    have heb : Exchangeable cov v rho b := fun i hi =>
      ⟨(he i (by simp [hi])).1, fun j hj => (he i (by simp [hi])).2 j (by simp [hj])⟩
    have hva := groupVar_exch cov v rho hv a hane hna hea
    have hvb := groupVar_exch cov v rho hv b hbne hnb heb
    rw [hla] at hva
    rw [hlb, ← hva] at hvb
    have hpos : 0 < groupVar cov a := by
      rw [hva]
      have h1 : (1 : K) ≤ ((2 ^ k' : ℕ) : K) := by exact_mod_cast Nat.one_le_two_pow
      apply div_pos (mul_pos hv _) (by linarith)
      nlinarith
    have hhalf : groupVar cov a / (groupVar cov a + groupVar cov a) = 1 / 2 := by
      field_simp
      ring
    rw [iha k' hla hna hea, ihb k' hlb hnb heb, hvb, hhalf, List.map_append, pow_succ]
    congr 1 <;>
    · apply List.map_congr_left
      intro i _
      congr 1
      field_simp

theorem posVar_exch (cov : ℕ → ℕ → K) (v rho : K) (hv : 0 < v) (hr : 0 ≤ rho) (order : List ℕ)
    (hnd : order.Nodup) (he : Exchangeable cov v rho order) : PosVar cov order := by
  refine ⟨fun i hi => by rw [(he i hi).1]; exact hv, fun g hg hin => ?_⟩
  have hsub := hin.sublist.subset
  rw [groupVar_exch cov v rho hv g hg (hnd.sublist hin.sublist) fun i hi =>
    ⟨(he i (hsub hi)).1, fun j hj => (he i (hsub hi)).2 j (hsub hj)⟩]
  have h1 : (1 : K) ≤ (g.length : K) := by
    have := List.length_pos_of_ne_nil hg
    exact_mod_cast this
  apply div_pos (mul_pos hv _) (by linarith)
  nlinarith

/-- C203, what holds: equal weights if the number of instruments is a power of two, or if they are
uncorrelated (missing: other numbers of correlated instruments). -/
theorem C203_equal_partial (cov : ℕ → ℕ → K) (v rho : K) (order : List ℕ) (hv : 0 < v) (hr : 0 ≤ rho)
    (hnd : order.Nodup) (he : Exchangeable cov v rho order)
    (h : (∃ k, order.length = 2 ^ k) ∨ rho = 0) :
    recursiveBisection cov order = .ok (order.map fun i => (i, 1 / (order.length : K))) := by
  rcases h with ⟨k, hk⟩ | rfl
  · obtain ⟨ws, h1, -, h3⟩ := C80_bisection cov order hnd (posVar_exch cov v rho hv hr order hnd he)
    rw [h1, h3.exch hv hr k hk hnd he, hk]
    push_cast
    rfl
  · rw [C201_uncorrelated cov order hnd (fun i hi => by rw [(he i hi).1]; exact hv)
      fun i hi j hj hij => by rw [(he i hi).2 j hj hij, zero_mul]]
    congr 1
    apply List.map_congr_left
    intro i hi
    have hl : (order.length : K) ≠ 0 := by
      have := List.length_pos_of_mem hi
      exact_mod_cast this.ne'
    rw [List.map_congr_left (l := order) (g := fun _ => 1 / v) fun j hj => by rw [(he j hj).1], (he i hi).1]
    simp only [List.map_const', List.sum_replicate, nsmul_eq_mul]
    have := hv.ne'
    congr 1
    field_simp

/-- Four instruments. -/
example : recursiveBisection (fun i j => if i = j then (1 : ℚ) else 1 / 2) [0, 2, 1, 3] =
    .ok [(0, 1 / 4), (2, 1 / 4), (1, 1 / 4), (3, 1 / 4)] := by
  decide +kernel

/-! ## C204: left and right in the dendrogram -/

/-- Exchanging the two clusters of a row. -/
def Row.swap (r : Row) : Row := ⟨r.right, r.left, r.items⟩

/-- Weights along the order read off the dendrogram, HRP.py:109-110. -/
def allocate (cov : ℕ → ℕ → K) (rows : List Row) : Py (Labelled K) := do
  let order ← quasiDiagonalize rows
  recursiveBisection cov order

/-- C204, full claim: which of two merged clusters is called the left one has no influence. -/
def SidesDoNotMatter : Prop := ∀ (cov : ℕ → ℕ → ℚ) (n : ℕ) (rows rows' : List Row) (ws ws' : Labelled ℚ),
  ValidLinkage n rows → ValidLinkage n rows' →
  List.Forall₂ (fun r r' => r' = r ∨ r' = r.swap) rows rows' →
  (∀ order : List ℕ, order.Perm (List.range n) → PosVar cov order) →
  allocate cov rows = .ok ws → allocate cov rows' = .ok ws' → ws.Perm ws'

/-- C204, counterexample: with three instruments of correlation 1/2, exchanging the last two clusters
moves the weight of the third instrument from 2/7 to 3/7. -/
theorem C204_sides_counterexample : ¬ SidesDoNotMatter := by
  intro h
  have hex : ∀ order : List ℕ, Exchangeable (fun i j => if i = j then (1 : ℚ) else 1 / 2) 1 (1 / 2) order := by
    intro order i _
    refine ⟨by simp, fun j _ hij => ?_⟩
    simp [hij]
  have hval : ∀ rows : List Row, rows = [⟨0, 1, 2⟩, ⟨2, 3, 3⟩] ∨ rows = [⟨0, 1, 2⟩, ⟨3, 2, 3⟩] →
      ValidLinkage 3 rows := by
    intro rows hrows
    rcases hrows with rfl | rfl
    · refine ⟨by norm_num, rfl, ?_, by decide, ?_⟩
      · intro k r hr
        match k, hr with
        | 0, hr => cases hr; decide
        | 1, hr => cases hr; decide
      · intro k r hr
        match k, hr with
        | 0, hr => cases hr; decide
        | 1, hr => cases hr; decide
    · refine ⟨by norm_num, rfl, ?_, by decide, ?_⟩
      · intro k r hr
        match k, hr with
        | 0, hr => cases hr; decide
        | 1, hr => cases hr; decide
      · intro k r hr
        match k, hr with
        | 0, hr => cases hr; decide
        | 1, hr => cases hr; decide
  have h1 : allocate (fun i j => if i = j then (1 : ℚ) else 1 / 2) [⟨0, 1, 2⟩, ⟨2, 3, 3⟩] =
      .ok [(2, 3 / 7), (0, 2 / 7), (1, 2 / 7)] := by
    decide +kernel
  have h2 : allocate (fun i j => if i = j then (1 : ℚ) else 1 / 2) [⟨0, 1, 2⟩, ⟨3, 2, 3⟩] =
      .ok [(0, 3 / 7), (1, 2 / 7), (2, 2 / 7)] := by
    decide +kernel
  have := h _ 3 _ _ _ _ (hval _ (Or.inl rfl)) (hval _ (Or.inr rfl))
    (.cons (Or.inl rfl) (.cons (Or.inr rfl) .nil))
    (fun order hp => posVar_exch _ 1 (1 / 2) (by norm_num) (by norm_num) order
      (hp.nodup_iff.2 List.nodup_range) (hex order)) h1 h2
  revert this
  decide +kernel

/-- C204, what holds: for uncorrelated instruments every valid linkage gives the same weights (missing:
correlated instruments). -/
theorem C204_sides_partial (cov : ℕ → ℕ → K) (n : ℕ) (rows rows' : List Row)
    (hv : ValidLinkage n rows) (hv' : ValidLinkage n rows') (hd : ∀ i < n, 0 < cov i i)
    (hu : ∀ i < n, ∀ j < n, i ≠ j → cov i j = 0) :
    ∃ ws ws', allocate cov rows = .ok ws ∧ allocate cov rows' = .ok ws' ∧ ws.Perm ws' := by
  obtain ⟨o, ho, -, hp⟩ := C79_quasi_diagonalize n rows hv
  obtain ⟨o', ho', -, hp'⟩ := C79_quasi_diagonalize n rows' hv'
  have key : ∀ o : List ℕ, o.Perm (List.range n) → recursiveBisection cov o =
      .ok (o.map fun i => (i, (1 / cov i i) / (o.map fun i => 1 / cov i i).sum)) := by
    intro o hp
    have hmem : ∀ i ∈ o, i < n := fun i hi => List.mem_range.1 (hp.mem_iff.1 hi)
    exact C201_uncorrelated cov o (hp.nodup_iff.2 List.nodup_range) (fun i hi => hd i (hmem i hi))
      fun i hi j hj => hu i (hmem i hi) j (hmem j hj)
  refine ⟨o.map fun i => (i, (1 / cov i i) / (o.map fun i => 1 / cov i i).sum),
    o'.map fun i => (i, (1 / cov i i) / (o'.map fun i => 1 / cov i i).sum), ?_, ?_, ?_⟩
  · unfold allocate
    rw [ho, py_bind_ok, key o hp]
  · unfold allocate
    rw [ho', py_bind_ok, key o' hp']
  · rw [(hp.map fun i => 1 / cov i i).sum_eq, (hp'.map fun i => 1 / cov i i).sum_eq]
    exact (hp.trans hp'.symm).map _

end FinML.Alloc
