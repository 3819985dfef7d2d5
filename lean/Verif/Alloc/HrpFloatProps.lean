import Verif.Alloc.HrpFloatModel
import Verif.Alloc.HrpProps
import Mathlib.Algebra.Order.Ring.Rat

/-! # Hierarchical risk parity with assets that do not move (C289) -/

namespace FinML.Alloc

section
variable {K : Type} [Field K] [LinearOrder K]

omit [LinearOrder K] in
private theorem sumF_fin (l : List K) : sumF (l.map Flt.fin) = .fin l.sum := by
  have g (a : K) : (l.map Flt.fin).foldl Flt.add (.fin a) = .fin (a + l.sum) := by
    induction l generalizing a with
    | nil => simp
    | cons x xs ih => rw [List.map_cons, List.foldl_cons, Flt.add, ih, List.sum_cons, add_assoc]
  rw [sumF, g, zero_add]

omit [LinearOrder K] in
private theorem fold_nan (l : List (Flt K)) : l.foldl Flt.add .nan = .nan := by
  induction l with
  | nil => rfl
  | cons x xs ih => rw [List.foldl_cons, show Flt.add .nan x = .nan by cases x <;> rfl, ih]

omit [LinearOrder K] in
private theorem sumF_nan (l : List (Flt K)) (h : .nan ∈ l) : sumF l = .nan := by
  have g (a : Flt K) : l.foldl Flt.add a = .nan := by
    induction l generalizing a with
    | nil => cases h
    | cons x xs ih =>
      rw [List.foldl_cons]
      rcases List.mem_cons.1 h with h | h
      · rw [← h, show Flt.add a .nan = .nan by cases a <;> rfl, fold_nan]
      · exact ih h _
  exact g _

omit [LinearOrder K] in
/-- A sum with an infinite term is not finite. -/
private theorem sumF_inf (l : List (Flt K)) (h : .posInf ∈ l) (y : K) : sumF l ≠ .fin y := by
  have g1 (l : List (Flt K)) (a : Flt K) (ha : ∀ y, a ≠ .fin y) (y : K) : l.foldl Flt.add a ≠ .fin y := by
    induction l generalizing a with
    | nil => exact ha y
    | cons x xs ih =>
      rw [List.foldl_cons]
      refine ih _ fun z => ?_
      cases a with
      | fin a => exact absurd rfl (ha a)
      | posInf => cases x <;> simp [Flt.add]
      | negInf => cases x <;> simp [Flt.add]
      | nan => cases x <;> simp [Flt.add]
  have g (a : Flt K) (y : K) : l.foldl Flt.add a ≠ .fin y := by
    induction l generalizing a with
    | nil => cases h
    | cons x xs ih =>
      rw [List.foldl_cons]
      rcases List.mem_cons.1 h with h | h
      · rw [← h]
        refine g1 _ _ (fun z => ?_) y
        cases a <;> simp [Flt.add]
      · exact ih h _
  exact g _ y

private theorem zip_map (g : List ℕ) {B : Type} (f : ℕ → B) : g.zip (g.map f) = g.map fun i => (i, f i) := by
  induction g with
  | nil => rfl
  | cons a g ih => simp [ih]

variable [IsStrictOrderedRing K]

/-- The variance of a group with an asset that does not move is NaN. -/
private theorem clusterVarF_nan (cov : ℕ → ℕ → K) (idx : List ℕ) (i : ℕ) (hi : i ∈ idx) (h : cov i i = 0) :
    clusterVarF cov idx = .nan := by
  have hd : Flt.div (.fin 1) (.fin (cov i i)) = .posInf := by simp [Flt.div, h, Flt.infOf]
  have hw : (i, Flt.nan) ∈ idx.zip (inverseVarianceF cov idx) := by
    unfold inverseVarianceF
    dsimp only
    rw [List.map_map, zip_map, List.mem_map]
    refine ⟨i, hi, ?_⟩
    dsimp only [Function.comp]
    rw [hd]
    have := sumF_inf (idx.map fun i => Flt.div (.fin 1) (.fin (cov i i))) (List.mem_map.2 ⟨i, hi, hd⟩)
    congr 1
    generalize sumF (idx.map fun i => Flt.div (.fin 1) (.fin (cov i i))) = s at this
    cases s with
    | fin y => exact absurd rfl (this y)
    | posInf => rfl
    | negInf => rfl
    | nan => rfl
  unfold clusterVarF quadFormF
  refine sumF_nan _ (List.mem_map.2 ⟨_, hw, ?_⟩)
  dsimp only
  generalize sumF ((idx.zip (inverseVarianceF cov idx)).map fun p => Flt.mul p.2 (.fin (cov p.1 i))) = s
  cases s <;> rfl

omit [IsStrictOrderedRing K] in
private theorem labels_scaleF (w : Labelled (Flt K)) (part : List ℕ) (a : Flt K) :
    (scaleLabelsF w part a).map Prod.fst = w.map Prod.fst := by
  unfold scaleLabelsF
  rw [List.map_map]
  refine List.map_congr_left fun p _ => ?_
  dsimp only [Function.comp]
  split_ifs <;> rfl

omit [IsStrictOrderedRing K] in
private theorem scaleF_nan (w : Labelled (Flt K)) (part : List ℕ) (a : Flt K) (h : ∀ p ∈ w, p.2 = .nan) :
    ∀ p ∈ scaleLabelsF w part a, p.2 = .nan := by
  intro p hp
  unfold scaleLabelsF at hp
  rw [List.mem_map] at hp
  obtain ⟨q, hq, rfl⟩ := hp
  split_ifs
  · dsimp only
    rw [h q hq]
    cases a <;> rfl
  · exact h q hq

omit [IsStrictOrderedRing K] in
/-- The inner loop ends, keeps the labels, and NaN stays NaN. -/
private theorem pairLoopF_total (cov : ℕ → ℕ → K) (ps : List (List ℕ)) (w : Labelled (Flt K)) (h : Even ps.length) :
    ∃ v, pairLoopF cov ps w = .ok v ∧ v.map Prod.fst = w.map Prod.fst ∧
      ((∀ p ∈ w, p.2 = .nan) → ∀ p ∈ v, p.2 = .nan) := by
  induction ps, w using pairLoopF.induct (cov := cov) with
  | case1 w => exact ⟨w, rfl, rfl, fun h => h⟩
  | case2 p w => simp at h
  | case3 p1 p2 rest w ih =>
    obtain ⟨v, h1, h2, h3⟩ := ih (by
      rw [List.length_cons, List.length_cons] at h
      rw [Nat.even_add_one, Nat.even_add_one, not_not] at h
      exact h)
    refine ⟨v, h1, ?_, fun h => h3 ?_⟩
    · rw [h2]
      unfold splitWeightsF
      rw [labels_scaleF, labels_scaleF]
    · unfold splitWeightsF
      exact scaleF_nan _ _ _ (scaleF_nan _ _ _ h)

private theorem even_halves (ps : List (List ℕ)) : Even (ps.flatMap halves).length := by
  induction ps with
  | nil => simp
  | cons p ps ih =>
    rw [List.flatMap_cons, List.length_append]
    refine Even.add ?_ ih
    unfold halves
    split_ifs <;> simp

omit [IsStrictOrderedRing K] in
private theorem bisectLoopF_total (cov : ℕ → ℕ → K) (fuel : ℕ) (ps : List (List ℕ)) (w : Labelled (Flt K))
    (h : ∀ p ∈ ps, p.length < fuel) :
    ∃ v, bisectLoopF cov fuel ps w = .ok v ∧ v.map Prod.fst = w.map Prod.fst ∧
      ((∀ p ∈ w, p.2 = .nan) → ∀ p ∈ v, p.2 = .nan) := by
  induction fuel generalizing ps w with
  | zero =>
    cases ps with
    | nil => exact ⟨w, rfl, rfl, fun h => h⟩
    | cons p ps => exact absurd (h p List.mem_cons_self) (Nat.not_lt_zero _)
  | succ fuel ih =>
    rw [bisectLoopF]
    by_cases h0 : ps = []
    · rw [if_pos h0]
      exact ⟨w, rfl, rfl, fun h => h⟩
    · rw [if_neg h0]
      obtain ⟨v, h1, h2, h3⟩ := pairLoopF_total cov (ps.flatMap halves) w (even_halves ps)
      obtain ⟨u, g1, g2, g3⟩ := ih (ps.flatMap halves) v (by
        intro q hq
        obtain ⟨p, hp, hq⟩ := List.mem_flatMap.1 hq
        have := h p hp
        unfold halves at hq
        split_ifs at hq with hl
        · rcases List.mem_cons.1 hq with rfl | hq
          · rw [List.length_take]
            omega
          · rw [List.mem_singleton] at hq
            subst hq
            rw [List.length_drop]
            omega
        · cases hq)
      refine ⟨u, ?_, g2.trans h2, fun h => g3 (h3 h)⟩
      rw [h1, py_bind_ok, g1]

omit [Field K] [LinearOrder K] [IsStrictOrderedRing K] in
private theorem all_nan (order : List ℕ) (v : Labelled (Flt K)) (h1 : v.map Prod.fst = order)
    (h2 : ∀ p ∈ v, p.2 = .nan) : v = order.map fun j => (j, .nan) := by
  subst h1
  rw [List.map_map]
  conv_lhs => rw [← List.map_id v]
  refine List.map_congr_left fun p hp => ?_
  rw [Function.comp, ← h2 p hp]
  rfl

/-- C289. Recursive bisection of two or more assets one of which does not move: there is no exception, and the weight
of every asset is NaN. -/
theorem C289_still_asset (cov : ℕ → ℕ → K) (order : List ℕ) (h2 : 2 ≤ order.length) (i : ℕ) (hi : i ∈ order)
    (h : cov i i = 0) : recursiveBisectionF cov order = .ok (order.map fun j => (j, .nan)) := by
  unfold recursiveBisectionF
  rw [bisectLoopF, if_neg (by simp)]
  have hh : [order].flatMap halves = [order.take (order.length / 2), order.drop (order.length / 2)] := by
    rw [List.flatMap_cons, List.flatMap_nil, List.append_nil, halves_of_lt order (by omega)]
  rw [hh]
  unfold pairLoopF pairLoopF
  rw [py_bind_ok]
  generalize hA : order.take (order.length / 2) = A
  generalize hB : order.drop (order.length / 2) = B
  have hAB : A ++ B = order := by rw [← hA, ← hB, List.take_append_drop]
  have hlen : ∀ p ∈ [A, B], p.length < order.length := by
    intro p hp
    rcases List.mem_cons.1 hp with rfl | hp
    · rw [← hA, List.length_take]
      omega
    · rw [List.mem_singleton] at hp
      rw [hp, ← hB, List.length_drop]
      omega
  obtain ⟨v, h1, h3, h4⟩ := bisectLoopF_total cov order.length [A, B]
    (splitWeightsF cov A B (order.map fun i => (i, .fin 1))) hlen
  rw [h1]
  have hl : v.map Prod.fst = order := by
    rw [h3]
    unfold splitWeightsF
    rw [labels_scaleF, labels_scaleF, List.map_map]
    exact List.map_id _
  refine congrArg Except.ok (all_nan order v hl (h4 ?_))
  have ha : alphaF (clusterVarF cov A) (clusterVarF cov B) = .nan := by
    rw [← hAB, List.mem_append] at hi
    unfold alphaF
    rcases hi with hi | hi
    · rw [clusterVarF_nan cov A i hi h]
      rfl
    · rw [clusterVarF_nan cov B i hi h]
      cases clusterVarF cov A <;> rfl
  have mul_nan (x : Flt K) : Flt.mul x .nan = .nan := by cases x <;> rfl
  unfold splitWeightsF
  dsimp only
  rw [ha, show Flt.sub (.fin 1) (.nan : Flt K) = .nan from rfl]
  intro p hp
  unfold scaleLabelsF at hp
  rw [List.map_map, List.map_map, List.mem_map] at hp
  obtain ⟨j, hj, rfl⟩ := hp
  dsimp only [Function.comp]
  rw [← hAB, List.mem_append] at hj
  by_cases hjA : j ∈ A
  · simp only [hjA, if_true]
    rw [mul_nan]
    split_ifs <;> rfl
  · have hjB := hj.resolve_left hjA
    simp only [hjA, hjB, if_true, if_false]
    exact mul_nan _

omit [IsStrictOrderedRing K] in
private theorem clusterVarF_fin (cov : ℕ → ℕ → K) (idx : List ℕ) (h : divides cov idx) :
    clusterVarF cov idx = .fin (quadForm cov (idx.zip (inverseVariance cov idx))) := by
  have e1 : idx.map (fun i => Flt.div (.fin 1) (.fin (cov i i))) = (idx.map fun i => 1 / cov i i).map Flt.fin := by
    rw [List.map_map]
    refine List.map_congr_left fun i hi => ?_
    rw [Flt.div, if_neg (h.1 i hi)]
    rfl
  have e2 : inverseVarianceF cov idx = (inverseVariance cov idx).map Flt.fin := by
    unfold inverseVarianceF inverseVariance
    dsimp only
    rw [e1, sumF_fin]
    generalize hS : idx.map (fun i => 1 / cov i i) = l
    have h2 : l.sum ≠ 0 := hS ▸ h.2
    rw [List.map_map, List.map_map]
    refine List.map_congr_left fun x _ => ?_
    dsimp only [Function.comp]
    rw [Flt.div, if_neg h2]
  have e3 : idx.zip (inverseVarianceF cov idx) = (idx.zip (inverseVariance cov idx)).map fun p => (p.1, Flt.fin p.2) := by
    rw [e2, List.zip_map_right]
    rfl
  unfold clusterVarF
  rw [e3]
  generalize idx.zip (inverseVariance cov idx) = w
  unfold quadFormF quadForm
  rw [List.map_map, ← sumF_fin, List.map_map]
  congr 1
  refine List.map_congr_left fun q _ => ?_
  dsimp only [Function.comp]
  rw [List.map_map]
  have e4 : w.map ((fun p : ℕ × Flt K => Flt.mul p.2 (.fin (cov p.1 q.1))) ∘ fun p => (p.1, Flt.fin p.2)) =
      (w.map fun p => p.2 * cov p.1 q.1).map Flt.fin := by
    rw [List.map_map]
    rfl
  rw [e4, sumF_fin]
  rfl

/-- Weights as floats. -/
private def lift (w : Labelled K) : Labelled (Flt K) := w.map fun p => (p.1, Flt.fin p.2)

omit [IsStrictOrderedRing K] in
private theorem lift_scale (w : Labelled K) (part : List ℕ) (a : K) :
    scaleLabelsF (lift w) part (.fin a) = lift (scaleLabels w part a) := by
  unfold scaleLabelsF lift scaleLabels
  rw [List.map_map, List.map_map]
  refine List.map_congr_left fun p _ => ?_
  dsimp only [Function.comp]
  split_ifs <;> rfl

omit [IsStrictOrderedRing K] in
private theorem pair_agree (cov : ℕ → ℕ → K) (ps : List (List ℕ)) (w v : Labelled K) (h : pairLoop cov ps w = .ok v) :
    pairLoopF cov ps (lift w) = .ok (lift v) := by
  induction ps, w using pairLoop.induct with
  | case1 w => cases h; rfl
  | case2 p w => cases h
  | case3 p1 p2 rest w ih =>
    simp only [pairLoop, splitWeights, py_bind_eq_ok, py_pure] at h
    obtain ⟨w', ⟨x, hx, y, hy, hw⟩, h2⟩ := h
    unfold clusterVar at hx hy
    by_cases hd1 : divides cov p1
    swap
    · rw [if_neg hd1] at hx
      cases hx
    by_cases hd2 : divides cov p2
    swap
    · rw [if_neg hd2] at hy
      cases hy
    rw [if_pos hd1] at hx
    rw [if_pos hd2] at hy
    have hx' := Except.ok.inj hx
    have hy' := Except.ok.inj hy
    by_cases h0 : x + y = 0
    · rw [if_pos h0] at hw
      cases hw
    · rw [if_neg h0] at hw
      cases hw
      rw [pairLoopF]
      have e : splitWeightsF cov p1 p2 (lift w) =
          lift (scaleLabels (scaleLabels w p1 (1 - x / (x + y))) p2 (1 - (1 - x / (x + y)))) := by
        unfold splitWeightsF
        rw [clusterVarF_fin cov p1 hd1, clusterVarF_fin cov p2 hd2, hx', hy']
        have ea : alphaF (Flt.fin x) (Flt.fin y) = .fin (1 - x / (x + y)) := by
          simp [alphaF, Flt.add, Flt.div, h0, Flt.sub, Flt.neg, sub_eq_add_neg]
        dsimp only
        rw [ea, lift_scale, show Flt.sub (.fin 1) (Flt.fin (1 - x / (x + y))) = .fin (1 - (1 - x / (x + y))) by
          simp [Flt.add, Flt.sub, Flt.neg, sub_eq_add_neg], lift_scale]
      rw [e]
      exact ih _ h2

omit [IsStrictOrderedRing K] in
private theorem bisect_agree (cov : ℕ → ℕ → K) (fuel : ℕ) (ps : List (List ℕ)) (w v : Labelled K)
    (h : bisectLoop cov fuel ps w = .ok v) : bisectLoopF cov fuel ps (lift w) = .ok (lift v) := by
  induction fuel generalizing ps w with
  | zero =>
    rw [bisectLoop] at h
    rw [bisectLoopF]
    by_cases h0 : ps = []
    · rw [if_pos h0] at h
      cases h
      rw [if_pos h0]
    · rw [if_neg h0] at h
      cases h
  | succ fuel ih =>
    rw [bisectLoop] at h
    rw [bisectLoopF]
    by_cases h0 : ps = []
    · rw [if_pos h0] at h
      cases h
      rw [if_pos h0]
    · rw [if_neg h0] at h
      rw [if_neg h0]
      simp only [py_bind_eq_ok] at h
      obtain ⟨w', h1, h2⟩ := h
      rw [pair_agree cov _ _ _ h1, py_bind_ok]
      exact ih _ _ h2

omit [IsStrictOrderedRing K] in
/-- C289. Where the exact model gives weights, so do floats. -/
theorem C289_agree (cov : ℕ → ℕ → K) (order : List ℕ) (w : Labelled K) (h : recursiveBisection cov order = .ok w) :
    recursiveBisectionF cov order = .ok (w.map fun p => (p.1, .fin p.2)) := by
  have := bisect_agree cov _ _ _ _ h
  unfold recursiveBisectionF
  unfold lift at this
  rw [List.map_map] at this
  exact this

/-- C289, full claim: a covariance matrix (symmetric, no portfolio of negative variance) whose assets all move gives
weights that are numbers. -/
def FiniteWeights (K : Type) [Field K] [LinearOrder K] : Prop :=
  ∀ (cov : ℕ → ℕ → K) (order : List ℕ), order.Nodup → (∀ i j, cov i j = cov j i) →
    (∀ x : ℕ → K, 0 ≤ (order.map fun i => (order.map fun j => x i * cov i j * x j).sum).sum) →
    (∀ i ∈ order, 0 < cov i i) →
    ∃ w : Labelled K, recursiveBisectionF cov order = .ok (w.map fun p => (p.1, .fin p.2))

/-- Two pairs of assets, each asset the mirror image of the other of its pair. -/
def hedgedPairs (i j : ℕ) : ℚ := if i = j then 1 else if i / 2 = j / 2 then -1 else 0

/-- C289, counterexample: two hedged pairs have no variance; the code divides zero by zero and every weight is NaN. -/
theorem C289_hedged_counterexample : ¬ FiniteWeights ℚ ∧
    recursiveBisectionF hedgedPairs [0, 1, 2, 3] = .ok [(0, .nan), (1, .nan), (2, .nan), (3, .nan)] := by
  have h1 : recursiveBisectionF hedgedPairs [0, 1, 2, 3] = .ok [(0, .nan), (1, .nan), (2, .nan), (3, .nan)] := by
    decide +kernel
  refine ⟨fun h => ?_, h1⟩
  obtain ⟨w, hw⟩ := h hedgedPairs [0, 1, 2, 3] (by decide)
    (fun i j => by simp only [hedgedPairs, eq_comm])
    (fun x => by
      simp only [List.map_cons, List.map_nil, List.sum_cons, List.sum_nil]
      have e : ∀ i j, hedgedPairs i j = if i = j then 1 else if i / 2 = j / 2 then -1 else 0 := fun _ _ => rfl
      norm_num [e]
      nlinarith [sq_nonneg (x 0 - x 1), sq_nonneg (x 2 - x 3)])
    (by decide +kernel)
  rw [h1] at hw
  cases w with
  | nil => cases hw
  | cons p w => simp at hw

/-- C289. If every portfolio has a positive variance the weights are numbers, positive, and sum to one. -/
theorem C289_finite_partial (cov : ℕ → ℕ → K) (order : List ℕ) (hne : order ≠ []) (hnd : order.Nodup)
    (hpd : ∀ w : ℕ → K, (∃ i ∈ order, w i ≠ 0) →
      0 < (order.map fun j => (order.map fun i => w i * cov i j * w j).sum).sum) :
    ∃ w : Labelled K, recursiveBisectionF cov order = .ok (w.map fun p => (p.1, .fin p.2)) ∧
      w.map Prod.fst = order ∧ (w.map Prod.snd).sum = 1 ∧ ∀ p ∈ w, 0 < p.2 := by
  obtain ⟨w, h1, h2, h3, h4⟩ := C80_full_allocation cov order hne hnd (C80_posVar_of_posDef cov order hnd hpd)
  exact ⟨w, C289_agree cov order w h1, h2, h3, h4⟩

end

/-! ## Whole of `hrp_allocations` -/

private theorem sumF_nan' (l : List (Flt ℝ)) (h : .nan ∈ l) : sqrtF (sumF l) = .nan := by
  rw [sumF_nan l h]
  rfl

/-- C289. An instrument whose returns are all the same makes `hrp_allocations` raise ValueError. -/
theorem C289_constant_returns (linkage : ℕ → (ℕ → ℕ → ℝ) → List Row) (n : ℕ) (x : List (ℕ → ℝ)) (i : ℕ) (hi : i < n)
    (c : ℝ) (hc : ∀ r ∈ x, r i = c) : hrpAllocationsF linkage n x = .error .valueError := by
  have e : linkageF linkage n (corrToDistF (sampleCorrF x)) = .error .valueError := by
    unfold linkageF
    by_cases hn : n < 2
    · rw [if_pos hn]
    rw [if_neg hn, if_neg]
    have hcov (j : ℕ) : sampleCov x i j = 0 ∧ sampleCov x j i = 0 := by
      have hm : ∀ r ∈ x, r i - colMean x i = 0 := by
        intro r hr
        have hx : x.map (fun r => r i) = x.map fun _ => c := List.map_congr_left hc
        have h0 : (x.length : ℝ) ≠ 0 := by
          have := List.length_pos_of_mem hr
          positivity
        rw [colMean, hx, hc r hr, List.map_const', List.sum_replicate, nsmul_eq_mul, mul_div_cancel_left₀ _ h0, sub_self]
      constructor
      · unfold sampleCov
        rw [List.map_congr_left (g := fun _ => (0 : ℝ)) fun r hr => by rw [hm r hr, zero_mul]]
        simp
      · unfold sampleCov
        rw [List.map_congr_left (g := fun _ => (0 : ℝ)) fun r hr => by rw [hm r hr, mul_zero]]
        simp
    have hd (j : ℕ) : corrToDistF (sampleCorrF x) i j = .nan := by
      have hcorr : sampleCorrF x i j = .nan := by
        unfold sampleCorrF
        rw [(hcov j).1, (hcov i).1]
        have : Flt.div (.fin (0 : ℝ)) (sqrtF (.fin 0)) = .nan := by simp [sqrtF, Flt.div, Flt.infOf]
        rw [this]
        generalize sqrtF _ = s
        cases s <;> rfl
      unfold corrToDistF
      rw [hcorr]
      rfl
    -- a row to compare with
    obtain ⟨a, b, hab, hb, hor⟩ : ∃ a b, a < b ∧ b < n ∧ (a = i ∨ b = i) := by
      by_cases h0 : i = 0
      · exact ⟨0, 1, by omega, by omega, .inl h0.symm⟩
      · exact ⟨0, i, by omega, hi, .inr rfl⟩
    intro hall
    rw [List.all_eq_true] at hall
    have h1 := hall b (List.mem_range.2 hb)
    rw [List.all_eq_true] at h1
    have h2 := h1 a (List.mem_range.2 hab)
    have hr : rowDistF n (corrToDistF (sampleCorrF x)) a b = .nan := by
      unfold rowDistF
      refine sumF_nan' _ (List.mem_map.2 ⟨0, List.mem_range.2 (by omega), ?_⟩)
      rcases hor with rfl | rfl
      · rw [hd]
        generalize corrToDistF _ b 0 = s
        cases s <;> rfl
      · rw [hd]
        generalize corrToDistF _ a 0 = s
        cases s <;> rfl
    rw [hr] at h2
    cases h2
  unfold hrpAllocationsF
  rw [e]
  rfl

/-- C289. Where every instrument moves and the exact model gives weights, so do floats. -/
theorem C289_agree_hrp (linkage : ℕ → (ℕ → ℕ → ℝ) → List Row) (n : ℕ) (h2 : 2 ≤ n) (x : List (ℕ → ℝ))
    (hl : ∀ d d' : ℕ → ℕ → ℝ, (∀ i < n, ∀ j < n, d i j = d' i j) → linkage n d = linkage n d')
    (hpos : ∀ i < n, 0 < sampleCov x i i) (w : Labelled ℝ) (h : hrpAllocations linkage n x = .ok w) :
    hrpAllocationsF linkage n x = .ok (w.map fun p => (p.1, .fin p.2)) := by
  have hcorr := C78_sampleCorr n x hpos
  have hle : ∀ i < n, ∀ j < n, sampleCorr x i j ≤ 1 := by
    intro i hi j hj
    have := corr_form n _ hcorr i j j hi hj hj 1 (-1) 0
    linarith
  have hd : ∀ i < n, ∀ j < n, corrToDistF (sampleCorrF x) i j = .fin (corrToDist (sampleCorr x) i j) := by
    intro i hi j hj
    have hsi := Real.sqrt_pos.2 (hpos i hi)
    have hsj := Real.sqrt_pos.2 (hpos j hj)
    have e : sampleCorrF x i j = .fin (sampleCorr x i j) := by
      unfold sampleCorrF sampleCorr
      rw [sqrtF, sqrtF, if_neg (not_lt.2 (hpos i hi).le), if_neg (not_lt.2 (hpos j hj).le), Flt.div, if_neg hsi.ne',
        Flt.div, if_neg hsj.ne', div_div]
    unfold corrToDistF corrToDist
    rw [e]
    have := hle i hi j hj
    have e2 : Flt.div (Flt.sub (.fin 1) (.fin (sampleCorr x i j))) (.fin 2) = .fin ((1 - sampleCorr x i j) / 2) := by
      simp [Flt.sub, Flt.neg, Flt.add, Flt.div, sub_eq_add_neg]
    rw [e2, sqrtF, if_neg (by linarith)]
  have e : linkageF linkage n (corrToDistF (sampleCorrF x)) = .ok (linkage n (corrToDist (sampleCorr x))) := by
    unfold linkageF
    rw [if_neg (by omega), if_pos]
    · congr 1
      refine hl _ _ fun i hi j hj => ?_
      rw [hd i hi j hj]
      rfl
    · rw [List.all_eq_true]
      intro b hb
      rw [List.all_eq_true]
      intro a ha
      rw [List.mem_range] at ha hb
      have : rowDistF n (corrToDistF (sampleCorrF x)) a b = sqrtF (.fin (((List.range n).map fun k =>
          (corrToDist (sampleCorr x) a k - corrToDist (sampleCorr x) b k) *
            (corrToDist (sampleCorr x) a k - corrToDist (sampleCorr x) b k)).sum)) := by
        unfold rowDistF
        rw [← sumF_fin, List.map_map]
        congr 2
        refine List.map_congr_left fun k hk => ?_
        rw [List.mem_range] at hk
        rw [hd a (by omega) k hk, hd b hb k hk]
        simp [Flt.sub, Flt.neg, Flt.add, Flt.mul, sub_eq_add_neg]
      rw [this, sqrtF, if_neg]
      · rfl
      · rw [not_lt]
        refine List.sum_nonneg fun y hy => ?_
        obtain ⟨k, _, rfl⟩ := List.mem_map.1 hy
        exact mul_self_nonneg _
  unfold hrpAllocations at h
  simp only [py_bind_eq_ok] at h
  obtain ⟨order, ho, hw⟩ := h
  unfold hrpAllocationsF
  rw [e, py_bind_ok, ho, py_bind_ok]
  exact C289_agree _ _ _ hw

/-- A still asset among three, and a table of returns with one: the hypotheses of the theorems are met. -/
example : recursiveBisectionF (fun i j => if i = j then (if i = 1 then 0 else 4) else 0 : ℕ → ℕ → ℚ) [0, 2, 1] =
    .ok [(0, .nan), (2, .nan), (1, .nan)] := by
  decide +kernel

end FinML.Alloc
