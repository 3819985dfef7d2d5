import Verif.Bars.LoopLemmas

/-! # The imbalance loop follows the abstract loop -/

set_option linter.unusedSectionVars false

namespace FinML.Bars

variable {K : Type} [Field K] [LinearOrder K] [IsStrictOrderedRing K]

theorem geMax_iff (size : K) (m : Option K) : geMax size m = true ↔ ReachesMax m size := by
  unfold geMax ReachesMax
  cases m <;> simp

theorem at'_eq {b : List K} {i : ℕ} {x : K} (h : b[i]? = some x) : at' b i = x := by
  unfold at'
  rw [List.getD_eq_getElem?_getD, h]; rfl

/-- Concrete state of the imbalance loop against the abstract state, after tick `t`. -/
structure ImbRel (p : LoopParams K) (eb : K) (b : List K) (t : ℕ) (s : ImbState K) (g : Skel K) :
    Prop where
  ends : g.ends = s.ends
  pad : g.padding = s.padding
  thr : g.thr = s.threshold
  start : s.start = startAfter s.ends
  Ts : s.Ts = (barLens 0 s.ends).map ((↑) : ℕ → K)
  size : s.size = sumOver (|at' b ·|) (startAfter s.ends) t
  theta : s.theta = sumOver (at' b) (startAfter s.ends) t
  lenθ : s.absThetas.length = t + 1
  lenthr : s.thresholds.length = t + 1
  θ : ∀ j ≤ t, s.absThetas[j]? =
    some |sumOver (at' b) (startAfter (s.ends.filter (· < j))) j|
  thrs : ∀ j ≤ t, ∃ x, s.thresholds[j]? = some x ∧
    (imbRule p eb b).thrOf (s.ends.filter (· < j)) = .ok x

theorem filter_lt_self {es : List ℕ} {t : ℕ} (h : ∀ e ∈ es, 1 ≤ e ∧ e ≤ t) :
    es.filter (· < t + 1) = es := by
  rw [List.filter_eq_self]
  intro e he
  have := h e he
  simp; omega

theorem filter_lt_snoc (es : List ℕ) (i j : ℕ) (h : j ≤ i) :
    (es ++ [i]).filter (· < j) = es.filter (· < j) := by
  rw [List.filter_append]
  simp; omega

theorem imbStep_refines (p : LoopParams K) (hb : 1 ≤ p.bSpan) (eb : K) (b : List K) (t : ℕ)
    (s : ImbState K) (g : Skel K) (ht : t + 1 < b.length) (hr : ImbRel p eb b t s g)
    (hi : GenInv (imbRule p eb b) t g) :
    ∃ s' g', imbStep p b s (t + 1) = .ok s' ∧ genStep (imbRule p eb b) g (t + 1) = .ok g' ∧
      ImbRel p eb b (t + 1) s' g' := by
  obtain ⟨ge, gp, gt⟩ := g
  obtain ⟨r1, r2, r3, r4, r5, r6, r7, r8, r9, r10, r11⟩ := hr
  simp only at r1 r2 r3
  subst r1 r2 r3
  have hst := hi.start_le
  have hbd := hi.bound
  have hthr := hi.thr
  simp only at hst hbd hthr
  obtain ⟨x, hx⟩ : ∃ x, b[t + 1]? = some x := ⟨_, List.getElem?_eq_getElem ht⟩
  have hsize : s.size + |x| = sumOver (|at' b ·|) (startAfter s.ends) (t + 1) := by
    rw [sumOver_succ _ _ _ hst, r6, at'_eq hx]
  have htheta : s.theta + x = sumOver (at' b) (startAfter s.ends) (t + 1) := by
    rw [sumOver_succ _ _ _ hst, r7, at'_eq hx]
  have hcond : (s.threshold ≤ |s.theta + x| ∨ geMax (s.size + |x|) p.maxSize = true ∨
      s.padding = true) ↔ ((imbRule p eb b).trig s.threshold (startAfter s.ends) (t + 1) ∨
        s.padding = true) := by
    rw [geMax_iff, hsize, htheta, ← or_assoc]
    rfl
  -- values recorded at this tick
  have hθ' : ∀ j ≤ t + 1, (s.absThetas ++ [|s.theta + x|])[j]? =
      some |sumOver (at' b) (startAfter (s.ends.filter (· < j))) j| := by
    intro j hj
    by_cases hjt : j ≤ t
    · rw [List.getElem?_append_left (by omega)]
      exact r10 j hjt
    · have : j = t + 1 := by omega
      subst this
      rw [filter_lt_self hbd, htheta, List.getElem?_append_right (by omega), r8]
      simp
  have hthr' : ∀ j ≤ t + 1, ∃ y, (s.thresholds ++ [s.threshold])[j]? = some y ∧
      (imbRule p eb b).thrOf (s.ends.filter (· < j)) = .ok y := by
    intro j hj
    by_cases hjt : j ≤ t
    · rw [List.getElem?_append_left (by omega)]
      exact r11 j hjt
    · have : j = t + 1 := by omega
      subst this
      rw [filter_lt_self hbd, List.getElem?_append_right (by omega), r9]
      exact ⟨s.threshold, by simp, hthr⟩
  have hget : pyGet b (t + 1) = .ok x := (pyGet_eq_ok_iff _ _ _).2 hx
  unfold imbStep
  rw [hget, py_bind_ok]
  by_cases hc : (s.threshold ≤ |s.theta + x| ∨ geMax (s.size + |x|) p.maxSize = true ∨
      s.padding = true)
  · by_cases hs : s.size + |x| < p.minSize
    · rw [genStep_pad _ _ _ (hcond.1 hc) (by rw [hsize] at hs; exact hs)]
      simp only [if_pos hc, if_pos hs, py_pure]
      refine ⟨_, _, rfl, rfl, ?_⟩
      exact ⟨rfl, rfl, rfl, r4, r5, hsize, htheta, by simp [r8], by simp [r9], hθ', hthr'⟩
    · rw [genStep_close _ _ _ (hcond.1 hc) (by rw [hsize] at hs; exact hs)]
      have hTs : s.Ts ++ [((t + 1 - s.start + 1 : ℕ) : K)] =
          (barLens 0 (s.ends ++ [t + 1])).map ((↑) : ℕ → K) := by
        rw [barLens_snoc_zero, List.map_append, r5, r4, List.map_singleton]
        congr 3
        omega
      have hET := fastEwma_last ((barLens 0 (s.ends ++ [t + 1])).map ((↑) : ℕ → K))
        (lenSpan p.TSpan (s.ends ++ [t + 1]).length)
        (lenSpan_pos _ _ (by simp)) (by
          rw [Ne, ← List.length_eq_zero_iff]; simp)
      have hEb := fastEwma_last (b.take (t + 1)) (min p.bSpan (t + 1 + 1)) (by omega) (by
          rw [Ne, ← List.length_eq_zero_iff, List.length_take]; omega)
      simp only [if_pos hc, if_neg hs]
      rw [hTs, effTSpan_eq, List.length_map, barLens_length, hET, hEb]
      simp only [py_bind_ok, py_pure, imbRule, List.getLast?_append, List.getLast?_singleton,
        Option.some_or]
      refine ⟨_, _, rfl, rfl, ?_⟩
      refine ⟨rfl, rfl, rfl, ?_, rfl, ?_, ?_, by simp [r8], by simp [r9], ?_, ?_⟩
      · simp
      · simp [sumOver_empty]
      · simp [sumOver_empty]
      · intro j hj
        rw [filter_lt_snoc _ _ _ hj]
        exact hθ' j hj
      · intro j hj
        rw [filter_lt_snoc _ _ _ hj]
        exact hthr' j hj
  · rw [genStep_skip _ _ _ (fun h => hc (hcond.2 h))]
    simp only [if_neg hc, py_pure]
    refine ⟨_, _, rfl, rfl, ?_⟩
    exact ⟨rfl, rfl, rfl, r4, r5, hsize, htheta, by simp [r8], by simp [r9], hθ', hthr'⟩

theorem imbInit_rel (p : LoopParams K) (eb : K) (b : List K) (b0 : K) (h : b[0]? = some b0) :
    ImbRel p eb b 0 (imbInit p eb b0) ⟨[], false, p.ETInit * eb⟩ := by
  have h0 := at'_eq h
  refine ⟨rfl, rfl, rfl, rfl, rfl, ?_, ?_, rfl, rfl, ?_, ?_⟩
  · simp [imbInit, sumOver, h0]
  · simp [imbInit, sumOver, h0]
  · intro j hj
    have : j = 0 := by omega
    subst this
    simp [imbInit, sumOver, h0]
  · intro j hj
    have : j = 0 := by omega
    subst this
    exact ⟨p.ETInit * eb, rfl, rfl⟩

/-- The imbalance loop succeeds and its final state is described by the rule. -/
theorem imbLoop_spec (p : LoopParams K) (hb : 1 ≤ p.bSpan) (eb : K) (b : List K) (hn : b ≠ []) :
    ∃ s g, imbLoop p eb b = .ok s ∧ ImbRel p eb b (b.length - 1) s g ∧
      GenInv (imbRule p eb b) (b.length - 1) g := by
  have hpos : 0 < b.length := List.length_pos_iff.2 hn
  obtain ⟨b0, hb0⟩ : ∃ x, b[0]? = some x := ⟨_, List.getElem?_eq_getElem hpos⟩
  have hinit := genInv_init (imbRule p eb b) (p.ETInit * eb) rfl
  have href := loop_refine (imbRule p eb b) (imbStep p b) (ImbRel p eb b) b.length
    (fun t s g ht hr hi => Or.inl (imbStep_refines p hb eb b t s g ht hr hi))
    (b.length - 1) 0 (by omega) _ _ (imbInit_rel p eb b b0 hb0) hinit
  have hinv := genLoop_inv (imbRule p eb b) (b.length - 1) 0 _ hinit
  have hget : pyGet b 0 = .ok b0 := (pyGet_eq_ok_iff _ _ _).2 hb0
  rcases href with ⟨s, g, h1, h2, h3⟩ | ⟨err, h1, h2⟩
  · rw [zero_add] at h3
    refine ⟨s, g, ?_, h3, ?_⟩
    · unfold imbLoop; rw [hget, py_bind_ok]; exact h1
    · have := (hinv.1 g h2).1
      rwa [zero_add] at this
  · obtain ⟨t', s', _, _, _, _, h⟩ := hinv.2 err h2
    cases h

theorem withLast_filter {n m : ℕ} (h : m < n) (cl : List ℕ) :
    (withLast n cl).filter (· < m) = cl.filter (· < m) := by
  unfold withLast
  split
  · rw [List.filter_append]
    simp
    omega
  · rfl

/-- Result of `_compute_imbalance_bar_sizes`. -/
theorem computeImb_spec (p : LoopParams K) (hb : 1 ≤ p.bSpan) (eb : K) (b : List K) (hn : b ≠ []) :
    ∃ closed θ thr, computeImbalanceBarSizes p eb b = .ok (withLast b.length closed,
        (barLens 0 (withLast b.length closed)).map ((↑) : ℕ → K), θ, thr) ∧
      GenDone (imbRule p eb b) b.length closed ∧ θ.length = b.length ∧ thr.length = b.length ∧
      (∀ j < b.length, θ[j]? =
        some |sumOver (at' b) (startAfter ((withLast b.length closed).filter (· < j))) j|) ∧
      ∀ j < b.length, ∃ x, thr[j]? = some x ∧
        (imbRule p eb b).thrOf ((withLast b.length closed).filter (· < j)) = .ok x := by
  have hpos : 0 < b.length := List.length_pos_iff.2 hn
  obtain ⟨s, g, h1, h2, h3⟩ := imbLoop_spec p hb eb b hn
  have hd := h3.done
  rw [show b.length - 1 + 1 = b.length by omega, h2.ends] at hd
  refine ⟨s.ends, s.absThetas, s.thresholds, ?_, hd, ?_, ?_, ?_, ?_⟩
  · unfold computeImbalanceBarSizes
    rw [h1, py_bind_ok, h2.start, h2.Ts]
    unfold withLast
    split
    · rw [barLens_snoc_zero, List.map_append, List.map_singleton,
        show b.length - 1 + 1 = b.length by omega]
      rfl
    · rfl
  · rw [h2.lenθ]; omega
  · rw [h2.lenthr]; omega
  · intro j hj
    rw [withLast_filter hj]
    exact h2.θ j (by omega)
  · intro j hj
    rw [withLast_filter hj]
    exact h2.thrs j (by omega)

end FinML.Bars
