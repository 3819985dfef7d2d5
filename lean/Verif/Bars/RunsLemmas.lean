import Verif.Bars.ImbLemmas

/-! # The runs loop follows the abstract loop -/

set_option linter.unusedSectionVars false

namespace FinML.Bars

variable {K : Type} [Field K] [LinearOrder K] [IsStrictOrderedRing K]

theorem geNan_iff (x : K) (m : Option K) : geNan x m = true ↔ ∃ y, m = some y ∧ y ≤ x := by
  unfold geNan
  cases m <;> simp

theorem buyFracs_snoc (b : List K) (s : ℕ) (es : List ℕ) (e : ℕ) :
    buyFracs b s (es ++ [e]) = buyFracs b s es ++
      [sumOver (buyTicks b) (match es.getLast? with | none => s | some l => l + 1) e /
        ((e + 1 - (match es.getLast? with | none => s | some l => l + 1) : ℕ) : K)] := by
  induction es generalizing s with
  | nil => simp [buyFracs]
  | cons a es ih =>
    simp only [List.cons_append, buyFracs, ih]
    cases es with
    | nil => simp
    | cons b es => simp [List.getLast?_cons]

theorem buyFracs_snoc_zero (b : List K) (es : List ℕ) (e : ℕ) :
    buyFracs b 0 (es ++ [e]) = buyFracs b 0 es ++
      [sumOver (buyTicks b) (startAfter es) e / ((e + 1 - startAfter es : ℕ) : K)] := by
  rw [buyFracs_snoc]
  cases h : es.getLast? <;> simp [startAfter, h]

@[simp] theorem buyFracs_length (b : List K) (s : ℕ) (es : List ℕ) :
    (buyFracs b s es).length = es.length := by
  induction es generalizing s with
  | nil => rfl
  | cons a es ih => simp [buyFracs, ih]

theorem buyVols_succ (b v : List K) (t : ℕ) :
    buyVols b v (t + 1) =
      if 0 ≤ at' b (t + 1) then buyVols b v t ++ [at' v (t + 1)] else buyVols b v t := by
  unfold buyVols
  rw [List.range'_1_concat, List.filter_append, List.map_append, add_comm 1 t]
  split
  · next h => rw [List.filter_singleton]; simp [h]
  · next h => rw [List.filter_singleton]; simp [h]

theorem sellVols_succ (b v : List K) (t : ℕ) :
    sellVols b v (t + 1) =
      if at' b (t + 1) < 0 then sellVols b v t ++ [at' v (t + 1)] else sellVols b v t := by
  unfold sellVols
  rw [List.range'_1_concat, List.filter_append, List.map_append, add_comm 1 t]
  split
  · next h => rw [List.filter_singleton]; simp [h]
  · next h => rw [List.filter_singleton]; simp [h]

theorem runsThreshold_some (ET P x y : K) :
    runsThreshold ET P (some x) (some y) = some (ET * max (P * x) ((1 - P) * y)) := by
  unfold runsThreshold pyMaxNan
  simp only [Option.map_some]
  split
  · next h =>
    simp only [Option.map_some]
    rw [max_eq_right h.le]
  · next h =>
    simp only [Option.map_some]
    rw [max_eq_left (not_lt.1 h)]

theorem runsThreshold_init (p : LoopParams K) (r : RunsInit K) :
    runsThreshold p.ETInit r.PBuy r.EvBuy r.EvSell = initThr p r := by
  obtain ⟨P, x, y⟩ := r
  cases x with
  | none => rfl
  | some x =>
    cases y with
    | none => rfl
    | some y => exact runsThreshold_some _ _ _ _

/-- Concrete state of the runs loop against the abstract state, after tick `t`. -/
structure RunsRel (p : LoopParams K) (r : RunsInit K) (b v : List K) (t : ℕ) (s : RunsState K)
    (g : Skel (Option K)) : Prop where
  ends : g.ends = s.ends
  pad : g.padding = s.padding
  thr : g.thr = s.threshold
  start : s.start = startAfter s.ends
  Ts : s.Ts = (barLens 0 s.ends).map ((↑) : ℕ → K)
  ratios : s.buyRatios = buyFracs b 0 s.ends
  vb : s.vBuys = buyVols b v t
  vs : s.vSells = sellVols b v t
  size : s.size = sumOver (at' v) (startAfter s.ends) t
  buyRuns : s.buyRuns = sumOver (buyTicks b) (startAfter s.ends) t
  vBuyRuns : s.vBuyRuns = sumOver (buyQty b v) (startAfter s.ends) t
  vSellRuns : s.vSellRuns = sumOver (sellQty b v) (startAfter s.ends) t
  lenθ : s.thetas.length = t + 1
  lenthr : s.thresholds.length = t + 1
  θ : ∀ j ≤ t, s.thetas[j]? = some (max
    (sumOver (buyQty b v) (startAfter (s.ends.filter (· < j))) j)
    (sumOver (sellQty b v) (startAfter (s.ends.filter (· < j))) j))
  thrs : ∀ j ≤ t, ∃ x, s.thresholds[j]? = some x ∧
    (runsRule p r b v).thrOf (s.ends.filter (· < j)) = .ok x

theorem runsStep_refines (p : LoopParams K) (hb : 1 ≤ p.bSpan) (r : RunsInit K) (b v : List K)
    (hbv : v.length = b.length) (t : ℕ) (s : RunsState K) (g : Skel (Option K))
    (ht : t + 1 < b.length) (hr : RunsRel p r b v t s g) (hi : GenInv (runsRule p r b v) t g) :
    (∃ s' g', runsStep p b v s (t + 1) = .ok s' ∧ genStep (runsRule p r b v) g (t + 1) = .ok g' ∧
      RunsRel p r b v (t + 1) s' g') ∨
    (∃ err, runsStep p b v s (t + 1) = .error err ∧
      genStep (runsRule p r b v) g (t + 1) = .error err) := by
  obtain ⟨ge, gp, gt⟩ := g
  obtain ⟨r1, r2, r3, r4, r5, q1, q2, q3, r6, q4, q5, q6, r8, r9, r10, r11⟩ := hr
  simp only at r1 r2 r3
  subst r1 r2 r3
  have hst := hi.start_le
  have hbd := hi.bound
  have hthr := hi.thr
  simp only at hst hbd hthr
  obtain ⟨x, hx⟩ : ∃ x, b[t + 1]? = some x := ⟨_, List.getElem?_eq_getElem ht⟩
  obtain ⟨q, hq⟩ : ∃ x, v[t + 1]? = some x := ⟨_, List.getElem?_eq_getElem (by omega)⟩
  have hax := at'_eq hx
  have haq := at'_eq hq
  have hsize : s.size + q = sumOver (at' v) (startAfter s.ends) (t + 1) := by
    rw [sumOver_succ _ _ _ hst, r6, haq]
  have hrun : s.buyRuns + (if 0 ≤ x then 1 else 0) =
      sumOver (buyTicks b) (startAfter s.ends) (t + 1) := by
    rw [sumOver_succ _ _ _ hst, q4]
    congr 1
    simp [buyTicks, hax]
  have hvb : s.vBuyRuns + (if 0 ≤ x then q else 0) =
      sumOver (buyQty b v) (startAfter s.ends) (t + 1) := by
    rw [sumOver_succ _ _ _ hst, q5]
    congr 1
    simp [buyQty, hax, haq]
  have hvs : s.vSellRuns + (if x < 0 then q else 0) =
      sumOver (sellQty b v) (startAfter s.ends) (t + 1) := by
    rw [sumOver_succ _ _ _ hst, q6]
    congr 1
    simp [sellQty, hax, haq]
  have hB : (if 0 ≤ x then s.vBuys ++ [q] else s.vBuys) = buyVols b v (t + 1) := by
    rw [buyVols_succ, hax, haq, q2]
  have hS : (if x < 0 then s.vSells ++ [q] else s.vSells) = sellVols b v (t + 1) := by
    rw [sellVols_succ, hax, haq, q3]
  have hcond : (geNan (max (sumOver (buyQty b v) (startAfter s.ends) (t + 1))
        (sumOver (sellQty b v) (startAfter s.ends) (t + 1))) s.threshold = true ∨
      geMax (sumOver (at' v) (startAfter s.ends) (t + 1)) p.maxSize = true ∨
      s.padding = true) ↔ ((runsRule p r b v).trig s.threshold (startAfter s.ends) (t + 1) ∨
        s.padding = true) := by
    rw [geMax_iff, geNan_iff, ← or_assoc]
    simp only [le_max_iff]
    rfl
  have hθ' : ∀ j ≤ t + 1, (s.thetas ++ [max (sumOver (buyQty b v) (startAfter s.ends) (t + 1))
        (sumOver (sellQty b v) (startAfter s.ends) (t + 1))])[j]? =
      some (max (sumOver (buyQty b v) (startAfter (s.ends.filter (· < j))) j)
    (sumOver (sellQty b v) (startAfter (s.ends.filter (· < j))) j)) := by
    intro j hj
    by_cases hjt : j ≤ t
    · rw [List.getElem?_append_left (by omega)]
      exact r10 j hjt
    · have : j = t + 1 := by omega
      subst this
      rw [filter_lt_self hbd, List.getElem?_append_right (by omega), r8]
      simp
  have hthr' : ∀ j ≤ t + 1, ∃ y, (s.thresholds ++ [s.threshold])[j]? = some y ∧
      (runsRule p r b v).thrOf (s.ends.filter (· < j)) = .ok y := by
    intro j hj
    by_cases hjt : j ≤ t
    · rw [List.getElem?_append_left (by omega)]
      exact r11 j hjt
    · have : j = t + 1 := by omega
      subst this
      rw [filter_lt_self hbd, List.getElem?_append_right (by omega), r9]
      exact ⟨s.threshold, by simp, hthr⟩
  have hget : pyGet b (t + 1) = .ok x := (pyGet_eq_ok_iff _ _ _).2 hx
  have hgetq : pyGet v (t + 1) = .ok q := (pyGet_eq_ok_iff _ _ _).2 hq
  unfold runsStep
  rw [hget, hgetq, py_bind_ok, py_bind_ok]
  simp only [hsize, hrun, hvb, hvs, hB, hS]
  by_cases hc : (geNan (max (sumOver (buyQty b v) (startAfter s.ends) (t + 1))
        (sumOver (sellQty b v) (startAfter s.ends) (t + 1))) s.threshold = true ∨
      geMax (sumOver (at' v) (startAfter s.ends) (t + 1)) p.maxSize = true ∨
      s.padding = true)
  · by_cases hs : sumOver (at' v) (startAfter s.ends) (t + 1) < p.minSize
    · left
      rw [genStep_pad _ _ _ (hcond.1 hc) hs]
      simp only [if_pos hc, if_pos hs, py_pure]
      refine ⟨_, _, rfl, rfl, ?_⟩
      exact ⟨rfl, rfl, rfl, r4, r5, q1, rfl, rfl, rfl, rfl, rfl, rfl, by simp [r8], by simp [r9],
        hθ', hthr'⟩
    · rw [genStep_close _ _ _ (hcond.1 hc) hs]
      have hTs : s.Ts ++ [((t + 1 - s.start + 1 : ℕ) : K)] =
          (barLens 0 (s.ends ++ [t + 1])).map ((↑) : ℕ → K) := by
        rw [barLens_snoc_zero, List.map_append, r5, r4, List.map_singleton]
        congr 3
        omega
      have hrat : s.buyRatios ++ [sumOver (buyTicks b) (startAfter s.ends) (t + 1) /
            ((t + 1 - s.start + 1 : ℕ) : K)] = buyFracs b 0 (s.ends ++ [t + 1]) := by
        rw [buyFracs_snoc_zero, q1, r4]
        congr 4
        omega
      have hsp := lenSpan_pos p.TSpan (s.ends ++ [t + 1]).length (by simp)
      have hET := fastEwma_last ((barLens 0 (s.ends ++ [t + 1])).map ((↑) : ℕ → K))
        (lenSpan p.TSpan (s.ends ++ [t + 1]).length) hsp (by
          rw [Ne, ← List.length_eq_zero_iff]; simp)
      have hP := fastEwma_last (buyFracs b 0 (s.ends ++ [t + 1]))
        (lenSpan p.TSpan (s.ends ++ [t + 1]).length) hsp (by
          rw [Ne, ← List.length_eq_zero_iff]; simp)
      simp only [if_pos hc, if_neg hs]
      rw [hTs, hrat, effTSpan_eq, List.length_map, barLens_length, hET, hP]
      simp only [py_bind_ok, py_pure, runsRule, List.getLast?_append, List.getLast?_singleton,
        Option.some_or]
      by_cases hBe : buyVols b v (t + 1) = []
      · right
        refine ⟨.indexError, ?_, ?_⟩
        · rw [hBe]; rfl
        · rw [if_pos (Or.inl hBe)]; rfl
      have hEb := fastEwma_last (buyVols b v (t + 1)) (min (buyVols b v (t + 1)).length p.bSpan)
        (by have := List.length_pos_iff.2 hBe; omega) hBe
      rw [hEb, py_bind_ok]
      by_cases hSe : sellVols b v (t + 1) = []
      · right
        refine ⟨.indexError, ?_, ?_⟩
        · rw [hSe]; rfl
        · rw [if_pos (Or.inr hSe)]; rfl
      left
      have hEs := fastEwma_last (sellVols b v (t + 1)) (min (sellVols b v (t + 1)).length p.bSpan)
        (by have := List.length_pos_iff.2 hSe; omega) hSe
      rw [hEs, py_bind_ok, if_neg (by simp [hBe, hSe]), py_bind_ok]
      refine ⟨_, _, rfl, rfl, ?_⟩
      refine ⟨rfl, rfl, ?_, ?_, rfl, rfl, rfl, rfl, ?_, ?_, ?_, ?_, by simp [r8], by simp [r9],
        ?_, ?_⟩
      · simp only
        rw [runsThreshold_some]
        rfl
      · simp
      · simp [sumOver_empty]
      · simp [sumOver_empty]
      · simp [sumOver_empty]
      · simp [sumOver_empty]
      · intro j hj
        rw [filter_lt_snoc _ _ _ hj]
        exact hθ' j hj
      · intro j hj
        rw [filter_lt_snoc _ _ _ hj]
        exact hthr' j hj
  · left
    rw [genStep_skip _ _ _ (fun h => hc (hcond.2 h))]
    simp only [if_neg hc, py_pure]
    refine ⟨_, _, rfl, rfl, ?_⟩
    exact ⟨rfl, rfl, rfl, r4, r5, q1, rfl, rfl, rfl, rfl, rfl, rfl, by simp [r8], by simp [r9],
      hθ', hthr'⟩

theorem runsInit_rel (p : LoopParams K) (r : RunsInit K) (b v : List K) (b0 v0 : K)
    (h : b[0]? = some b0) (hv : v[0]? = some v0) :
    RunsRel p r b v 0 (runsInit p r b0 v0) ⟨[], false, initThr p r⟩ := by
  have h0 := at'_eq h
  have h1 := at'_eq hv
  refine ⟨rfl, rfl, (runsThreshold_init p r).symm, rfl, rfl, rfl, rfl, rfl, ?_, ?_, ?_, ?_, rfl,
    rfl, ?_, ?_⟩
  · simp [runsInit, sumOver, h1]
  · simp [runsInit, sumOver, buyTicks, h0]
  · simp [runsInit, sumOver, buyQty, h0, h1]
  · simp [runsInit, sumOver, sellQty, h0, h1]
  · intro j hj
    have : j = 0 := by omega
    subst this
    simp [runsInit, sumOver, buyQty, sellQty, h0, h1]
  · intro j hj
    have : j = 0 := by omega
    subst this
    exact ⟨initThr p r, by simp [runsInit, runsThreshold_init], rfl⟩

/-- The runs loop either succeeds with a state described by the rule, or a bar closes whose
threshold cannot be computed. -/
theorem runsLoop_spec (p : LoopParams K) (hb : 1 ≤ p.bSpan) (r : RunsInit K) (b v : List K)
    (hbv : v.length = b.length) (hn : b ≠ []) :
    (∃ s g, runsLoop p r b v = .ok s ∧ RunsRel p r b v (b.length - 1) s g ∧
      GenInv (runsRule p r b v) (b.length - 1) g) ∨
    (∃ e closed thr, runsLoop p r b v = .error .indexError ∧ e < b.length ∧
      ValidClosed (runsRule p r b v) closed ∧ (runsRule p r b v).thrOf closed = .ok thr ∧
      FirstClose (runsRule p r b v) thr (startAfter closed) e ∧
      (runsRule p r b v).thrOf (closed ++ [e]) = .error .indexError) := by
  have hpos : 0 < b.length := List.length_pos_iff.2 hn
  obtain ⟨b0, hb0⟩ : ∃ x, b[0]? = some x := ⟨_, List.getElem?_eq_getElem hpos⟩
  obtain ⟨v0, hv0⟩ : ∃ x, v[0]? = some x := ⟨_, List.getElem?_eq_getElem (by omega)⟩
  have hinit := genInv_init (runsRule p r b v) (initThr p r) rfl
  have href := loop_refine (runsRule p r b v) (runsStep p b v) (RunsRel p r b v) b.length
    (fun t s g ht hr hi => runsStep_refines p hb r b v hbv t s g ht hr hi)
    (b.length - 1) 0 (by omega) _ _ (runsInit_rel p r b v b0 v0 hb0 hv0) hinit
  have hinv := genLoop_inv (runsRule p r b v) (b.length - 1) 0 _ hinit
  have hget : pyGet b 0 = .ok b0 := (pyGet_eq_ok_iff _ _ _).2 hb0
  have hgetv : pyGet v 0 = .ok v0 := (pyGet_eq_ok_iff _ _ _).2 hv0
  have hloop : runsLoop p r b v = (List.range' (0 + 1) (b.length - 1)).foldlM (runsStep p b v)
      (runsInit p r b0 v0) := by
    unfold runsLoop; rw [hget, hgetv, py_bind_ok, py_bind_ok]
  rcases href with ⟨s, g, h1, h2, h3⟩ | ⟨err, h1, h2⟩
  · left
    rw [zero_add] at h3
    refine ⟨s, g, by rw [hloop]; exact h1, h3, ?_⟩
    have := (hinv.1 g h2).1
    rwa [zero_add] at this
  · right
    obtain ⟨t', s', _, ht', hi', hf, h⟩ := hinv.2 err h2
    have herr : err = .indexError := by
      simp only [runsRule, List.getLast?_append, List.getLast?_singleton, Option.some_or] at h
      split at h
      · cases h; rfl
      · cases h
    subst herr
    exact ⟨t' + 1, s'.ends, s'.thr, by rw [hloop]; exact h1, by omega, hi'.valid, hi'.thr, hf, h⟩

/-- Result of `_compute_runs_bar_sizes`. -/
theorem computeRuns_spec (p : LoopParams K) (hb : 1 ≤ p.bSpan) (r : RunsInit K) (b v : List K)
    (hbv : v.length = b.length) (hn : b ≠ []) :
    (∃ closed θ thr, computeRunsBarSizes p r b v = .ok (withLast b.length closed,
        (barLens 0 (withLast b.length closed)).map ((↑) : ℕ → K), θ, thr) ∧
      GenDone (runsRule p r b v) b.length closed ∧ θ.length = b.length ∧ thr.length = b.length ∧
      (∀ j < b.length, θ[j]? = some (max
        (sumOver (buyQty b v) (startAfter ((withLast b.length closed).filter (· < j))) j)
        (sumOver (sellQty b v) (startAfter ((withLast b.length closed).filter (· < j))) j))) ∧
      ∀ j < b.length, ∃ x, thr[j]? = some x ∧
        (runsRule p r b v).thrOf ((withLast b.length closed).filter (· < j)) = .ok x) ∨
    (∃ e closed thr, computeRunsBarSizes p r b v = .error .indexError ∧ e < b.length ∧
      ValidClosed (runsRule p r b v) closed ∧ (runsRule p r b v).thrOf closed = .ok thr ∧
      FirstClose (runsRule p r b v) thr (startAfter closed) e ∧
      (runsRule p r b v).thrOf (closed ++ [e]) = .error .indexError) := by
  have hpos : 0 < b.length := List.length_pos_iff.2 hn
  rcases runsLoop_spec p hb r b v hbv hn with ⟨s, g, h1, h2, h3⟩ | ⟨e, closed, thr, h1, h2⟩
  · left
    have hd := h3.done
    rw [show b.length - 1 + 1 = b.length by omega, h2.ends] at hd
    refine ⟨s.ends, s.thetas, s.thresholds, ?_, hd, ?_, ?_, ?_, ?_⟩
    · unfold computeRunsBarSizes
      rw [h1, py_bind_ok, h2.start, h2.Ts]
      unfold withLast
      split
      · rw [barLens_snoc_zero, List.map_append, List.map_singleton,
          show b.length - 1 + 1 = b.length by omega]
        rfl
      · rfl
    · rw [h2.lenθ]; omega
    · rw [h2.lenthr]; omega
    · intro j hj
      rw [withLast_filter hj]
      exact h2.θ j (by omega)
    · intro j hj
      rw [withLast_filter hj]
      exact h2.thrs j (by omega)
  · right
    refine ⟨e, closed, thr, ?_, h2⟩
    unfold computeRunsBarSizes
    rw [h1]; rfl

end FinML.Bars
