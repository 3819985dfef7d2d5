import Verif.CV.PboProps

/-! # C236: hopeless strategies and the probability of backtest overfitting -/

namespace FinML.CV

open FinML.Metrics

/-- The last strategy is the worst on the train rows and on the test rows of a choice of partitions. -/
def LastWorst (M : List (List ℝ)) (size : ℕ) (ps : List ℕ) : Prop :=
  ∀ idx ∈ [pboTrain size ps, pboTest M.length (pboTrain size ps)], ∀ rows perf,
    idx.mapM (pyGet M) = .ok rows → evalSharpe rows = .ok perf →
    ∃ y, perf.getLast? = some y ∧ ∀ z ∈ perf.dropLast, y < z

theorem evalSharpe_dropLast (rows : List (List ℝ)) (n : ℕ) (hne : rows ≠ [])
    (hn : ∀ r ∈ rows, r.length = n + 1) (perf : List ℝ) (h : evalSharpe rows = .ok perf) :
    evalSharpe (rows.map List.dropLast) = .ok perf.dropLast := by
  have hhead : (rows.headD []).length = n + 1 := by
    cases rows with
    | nil => exact absurd rfl hne
    | cons r rows => exact hn r (by simp)
  have hhead' : ((rows.map List.dropLast).headD []).length = n := by
    cases rows with
    | nil => exact absurd rfl hne
    | cons r rows => simp [hn r (by simp)]
  have e : sharpeRatio (rows.map List.dropLast) .rows = (sharpeRatio rows .rows).dropLast := by
    unfold sharpeRatio lines
    simp only
    rw [hhead, hhead', List.range_succ, List.map_append, List.map_append, List.map_singleton,
      List.map_singleton, List.dropLast_concat, List.map_map, List.map_map]
    apply List.map_congr_left
    intro j hj
    have hj' := List.mem_range.1 hj
    simp only [Function.comp_apply, List.map_map]
    congr 1
    apply List.map_congr_left
    intro r hr
    simp only [Function.comp_apply]
    rw [List.getD_eq_getElem?_getD, List.getD_eq_getElem?_getD, List.getElem?_dropLast,
      if_pos (by rw [hn r hr]; omega)]
  unfold evalSharpe at h ⊢
  cases hs : allSome (sharpeRatio rows .rows) with
  | none => rw [hs] at h; cases h
  | some v =>
    rw [hs] at h
    cases h
    rw [allSome_eq] at hs
    have : allSome (sharpeRatio (rows.map List.dropLast) .rows) = some perf.dropLast := by
      rw [allSome_eq, e, hs, List.map_dropLast]
    rw [this]

/-- The logit of a strategy that beats `k` of `n` strategies, and with one more strategy, which it beats. -/
noncomputable def logitOf (k n : ℕ) : ℝ := Real.log ((k : ℝ) / ((n : ℝ) - k) + 1 / 1000)

theorem logit_pad (k n : ℕ) (hk : k < n) : rankLogit ((k : ℝ) / (n : ℝ)) = some (logitOf k n) ∧
    rankLogit (((k + 1 : ℕ) : ℝ) / ((n + 1 : ℕ) : ℝ)) = some (logitOf (k + 1) (n + 1)) ∧
    logitOf k n < logitOf (k + 1) (n + 1) := by
  have hn : (0 : ℝ) < n := by exact_mod_cast (by omega : 0 < n)
  have hkn : (k : ℝ) < n := by exact_mod_cast hk
  have hk0 : (0 : ℝ) ≤ k := by positivity
  have e1 : (k : ℝ) / n / (1 - k / n) = k / (n - k) := by
    have : (n : ℝ) - k ≠ 0 := by linarith
    field_simp
  have e2 : ((k + 1 : ℕ) : ℝ) / ((n + 1 : ℕ) : ℝ) / (1 - ((k + 1 : ℕ) : ℝ) / ((n + 1 : ℕ) : ℝ)) =
      ((k : ℝ) + 1) / (n - k) := by
    push_cast
    have : (n : ℝ) - k ≠ 0 := by linarith
    have h3 : (n : ℝ) + 1 ≠ 0 := by linarith
    have h4 : (1 : ℝ) - (k + 1) / (n + 1) = (n - k) / (n + 1) := by field_simp; ring
    rw [h4]
    field_simp
  have p1 : 0 ≤ (k : ℝ) / (n - k) := div_nonneg hk0 (by linarith)
  have p2 : 0 < ((k : ℝ) + 1) / (n - k) := div_pos (by linarith) (by linarith)
  have q1 : (1 : ℝ) - k / n ≠ 0 := by
    rw [sub_ne_zero]
    intro h
    rw [eq_div_iff hn.ne'] at h
    linarith
  have q2 : (1 : ℝ) - ((k + 1 : ℕ) : ℝ) / ((n + 1 : ℕ) : ℝ) ≠ 0 := by
    rw [sub_ne_zero]
    intro h
    rw [eq_div_iff (by positivity)] at h
    push_cast at h
    linarith
  have e3 : logitOf (k + 1) (n + 1) = Real.log ((k + 1) / (n - k) + 1 / 1000) := by
    unfold logitOf
    push_cast
    rw [add_sub_add_right_eq_sub]
  rw [e3]
  unfold logitOf
  refine ⟨?_, ?_, ?_⟩
  · unfold rankLogit
    rw [e1, if_neg (by rintro (h | h); exacts [q1 h, by linarith])]
  · unfold rankLogit
    rw [e2, if_neg (by rintro (h | h); exacts [q2 h, by linarith])]
  · apply Real.log_lt_log (by linarith)
    have : (k : ℝ) / (n - k) < (k + 1) / (n - k) := div_lt_div_of_pos_right (by linarith) (by linarith)
    linarith

theorem split_last {perf : List ℝ} {y : ℝ} (h : perf.getLast? = some y) : perf = perf.dropLast ++ [y] := by
  rw [List.getLast?_eq_some_iff] at h
  obtain ⟨l, rfl⟩ := h
  simp

/-- C236.  One choice of partitions: with an additional strategy that is the worst on the train rows and on the
test rows, the same strategy is selected with the same performances, and the logit is higher. -/
theorem C236_choice (argsort : List ℝ → List ℕ) (hsort : IsArgsort argsort) (M : List (List ℝ)) (n : ℕ)
    (hn : 0 < n) (hM : ∀ r ∈ M, r.length = n + 1) (size : ℕ) (ps : List ℕ) (htr : pboTrain size ps ≠ [])
    (hte : pboTest M.length (pboTrain size ps) ≠ []) (hties : NoTies evalSharpe M size ps)
    (hbad : LastWorst M size ps) (row' : PboRow) (h : pboOne evalSharpe argsort M size ps = .ok row') :
    ∃ row, pboOne evalSharpe argsort (M.map List.dropLast) size ps = .ok row ∧
      row.trainBest = row'.trainBest ∧ row.testAssoc = row'.testAssoc ∧
      ∃ k < n, row.logit = some (logitOf k n) ∧ row'.logit = some (logitOf (k + 1) (n + 1)) ∧
        logitOf k n < logitOf (k + 1) (n + 1) := by
  have hcopy := h
  unfold pboOne at h
  simp only at h
  rw [py_bind_eq_ok] at h
  obtain ⟨tr, h1, h⟩ := h
  rw [py_bind_eq_ok] at h
  obtain ⟨te, h2, h⟩ := h
  rw [py_bind_eq_ok] at h
  obtain ⟨trp, h3, h⟩ := h
  rw [py_bind_eq_ok] at h
  obtain ⟨best, h4, h⟩ := h
  rw [py_bind_eq_ok] at h
  obtain ⟨tb, h5, h⟩ := h
  rw [py_bind_eq_ok] at h
  obtain ⟨tep, h6, h⟩ := h
  clear h
  have hne : ∀ {idx : List ℕ} {rows : List (List ℝ)}, idx ≠ [] → idx.mapM (pyGet M) = .ok rows →
      rows ≠ [] := by
    intro idx rows hi hm hr
    rw [mapM_eq_ok_iff, hr] at hm
    cases hm
    exact hi rfl
  have htr' := hne htr h1
  have hte' := hne hte h2
  have hmt := mem_of_mapM_pyGet h1
  have hme := mem_of_mapM_pyGet h2
  have hl1 := evalSharpe_length tr trp (n + 1) htr' (fun r hr => hM r (hmt r hr)) h3
  have hl2 := evalSharpe_length te tep (n + 1) hte' (fun r hr => hM r (hme r hr)) h6
  have hn1 : trp.Nodup := hties _ (by simp) tr trp h1 h3
  have hn2 : tep.Nodup := hties _ (by simp) te tep h2 h6
  obtain ⟨y1, hy1, hw1⟩ := hbad _ (by simp) tr trp h1 h3
  obtain ⟨y2, hy2, hw2⟩ := hbad _ (by simp) te tep h2 h6
  have s1 := split_last hy1
  have s2 := split_last hy2
  have g1 : (pboTrain size ps).mapM (pyGet (M.map List.dropLast)) = .ok (tr.map List.dropLast) := by
    rw [mapM_pyGet_map, h1]; rfl
  have g2 : (pboTest (M.map List.dropLast).length (pboTrain size ps)).mapM
      (pyGet (M.map List.dropLast)) = .ok (te.map List.dropLast) := by
    rw [List.length_map, mapM_pyGet_map, h2]; rfl
  have g3 := evalSharpe_dropLast tr n htr' (fun r hr => hM r (hmt r hr)) trp h3
  have g4 := evalSharpe_dropLast te n hte' (fun r hr => hM r (hme r hr)) tep h6
  have d1 : trp.dropLast.length = n := by simp [hl1]
  have d2 : tep.dropLast.length = n := by simp [hl2]
  obtain ⟨row, hrow⟩ : ∃ row, pboOne evalSharpe argsort (M.map List.dropLast) size ps = .ok row := by
    unfold pboOne
    simp only
    rw [g1, py_bind_ok, g2, py_bind_ok, g3, py_bind_ok]
    obtain ⟨b, hb, hbl⟩ : ∃ b, npArgmax trp.dropLast = .ok b ∧ b < trp.dropLast.length := by
      cases hr : trp.dropLast with
      | nil => rw [hr] at d1; simp at d1; omega
      | cons a l =>
        refine ⟨_, rfl, ?_⟩
        have := argmaxFrom_lt 0 a 1 l (by norm_num)
        rw [List.length_cons]; omega
    rw [hb, py_bind_ok]
    have hb2 : b < tep.dropLast.length := by omega
    have q1 : pyGet trp.dropLast b = .ok trp.dropLast[b] := by
      rw [pyGet_eq_ok_iff, List.getElem?_eq_getElem hbl]
    have q2 : pyGet tep.dropLast b = .ok tep.dropLast[b] := by
      rw [pyGet_eq_ok_iff, List.getElem?_eq_getElem hb2]
    rw [q1, py_bind_ok, g4, py_bind_ok, q2, py_bind_ok]
    exact ⟨_, rfl⟩
  obtain ⟨b', c1, c2, c3, c4⟩ := pboOne_spec evalSharpe argsort hsort M size ps row' hcopy tr te trp tep
    h1 h2 h3 h6 hn2
  obtain ⟨b, a1, a2, a3, a4⟩ := pboOne_spec evalSharpe argsort hsort _ size ps row hrow _ _ _ _
    g1 g2 g3 g4 (hn2.sublist (List.dropLast_sublist _))
  have hsub : ∀ {l : List ℝ} {y : ℝ} {i : ℕ} {x : ℝ}, l = l.dropLast ++ [y] → l.dropLast[i]? = some x →
      l[i]? = some x := by
    intro l y i x hl hi
    rw [hl, List.getElem?_append_left (by
      by_contra hc
      rw [List.getElem?_eq_none (not_lt.1 hc)] at hi
      cases hi)]
    exact hi
  have a1' := hsub s1 a1
  have a3' := hsub s2 a3
  have hmem1 := List.mem_of_getElem? a1
  have t1 : row.trainBest = row'.trainBest := by
    apply le_antisymm (c2 _ (List.mem_of_getElem? a1'))
    have := List.mem_of_getElem? c1
    rw [s1, List.mem_append, List.mem_singleton] at this
    rcases this with hh | hh
    · exact a2 _ hh
    · rw [hh]
      exact (hw1 _ hmem1).le
  have hbb : b' = b := by
    have hb1 : b' < trp.length := by
      by_contra hc
      rw [List.getElem?_eq_none (not_lt.1 hc)] at c1
      cases c1
    exact (List.getElem?_inj hb1 hn1).1 (c1.trans (by rw [← t1]; exact a1'.symm))
  subst hbb
  have t2 : row.testAssoc = row'.testAssoc := Option.some.inj (a3'.symm.trans c3)
  have hb : below tep row'.testAssoc = below tep.dropLast row'.testAssoc + 1 := by
    have hlt : y2 < row'.testAssoc := by
      rw [← t2]
      exact hw2 _ (List.mem_of_getElem? a3)
    conv_lhs => rw [s2]
    unfold below
    rw [List.countP_append]
    simp [hlt]
  have hk : below tep.dropLast row'.testAssoc < n := by
    have := below_above tep.dropLast row'.testAssoc
    have hpos : 0 < tep.dropLast.count row'.testAssoc := by
      rw [← t2]
      exact List.count_pos_iff.2 (List.mem_of_getElem? a3)
    omega
  obtain ⟨e1, e2, e3⟩ := logit_pad _ n hk
  refine ⟨row, hrow, t1, t2, _, hk, ?_, ?_, e3⟩
  · rw [a4, t2, d2, e1]
  · rw [c4, hb, hl2, e2]

open Classical in
/-- The logit of a row is negative. -/
noncomputable def NegLogit (r : PboRow) : Bool := decide (∃ v, r.logit = some v ∧ v < 0)

/-- C236.  The whole computation: with an additional strategy that is always the worst, every logit is higher,
so that no more of them are negative; the selected performances are the same. -/
theorem C236_pad (argsort : List ℝ → List ℕ) (hsort : IsArgsort argsort) (M : List (List ℝ)) (n : ℕ)
    (hn : 0 < n) (hM : ∀ r ∈ M, r.length = n + 1) (N : ℕ) (hN : N ≤ M.length)
    (hties : ∀ ps ∈ combinations (N / 2) (List.range N), NoTies evalSharpe M (M.length / N) ps)
    (hbad : ∀ ps ∈ combinations (N / 2) (List.range N), LastWorst M (M.length / N) ps)
    (rows' : List PboRow) (h : computePbo evalSharpe argsort M N = .ok rows') :
    ∃ rows, computePbo evalSharpe argsort (M.map List.dropLast) N = .ok rows ∧
      List.Forall₂ (fun r r' : PboRow => r.trainBest = r'.trainBest ∧ r.testAssoc = r'.testAssoc ∧
        ∃ k < n, r.logit = some (logitOf k n) ∧ r'.logit = some (logitOf (k + 1) (n + 1)) ∧
          logitOf k n < logitOf (k + 1) (n + 1)) rows rows' ∧
      (rows'.filter NegLogit).length ≤ (rows.filter NegLogit).length := by
  have hc := (C48_choices _ _ _ _ _ h)
  have hN0 : 0 < N := hc.1
  have hN2 : N % 2 = 0 := hc.2.1
  unfold computePbo at h ⊢
  rw [if_neg (by omega), if_neg (by omega), if_neg (by omega), Int.toNat_natCast] at h ⊢
  rw [mapM_eq_ok_iff] at h
  rw [List.length_map]
  have hs : 0 < M.length / N := Nat.div_pos hN hN0
  have key : ∀ ps ∈ combinations (N / 2) (List.range N), ∀ row',
      pboOne evalSharpe argsort M (M.length / N) ps = .ok row' →
      ∃ row, pboOne evalSharpe argsort (M.map List.dropLast) (M.length / N) ps = .ok row ∧
      row.trainBest = row'.trainBest ∧ row.testAssoc = row'.testAssoc ∧
      ∃ k < n, row.logit = some (logitOf k n) ∧ row'.logit = some (logitOf (k + 1) (n + 1)) ∧
        logitOf k n < logitOf (k + 1) (n + 1) := by
    intro ps hps row hrow
    have hmem := (mem_combinations _ _ _).1 hps
    have hltr := pboTrain_length (M.length / N) ps
    rw [hmem.2] at hltr
    have hpos : 0 < N / 2 * (M.length / N) := Nat.mul_pos (by omega) hs
    have htr : pboTrain (M.length / N) ps ≠ [] := by
      intro hh; rw [hh] at hltr; simp only [List.length_nil] at hltr; omega
    have hte : pboTest M.length (pboTrain (M.length / N) ps) ≠ [] := by
      intro hh
      have := (C191_symmetric_partial M.length N hN0 hN2).1 ps hps
      rw [hh, hltr, List.length_nil] at this
      omega
    exact C236_choice argsort hsort M n hn hM _ ps htr hte (hties ps hps) (hbad ps hps) row hrow
  have gen : ∀ (l : List (List ℕ)) (rows' : List PboRow), (∀ ps ∈ l, ps ∈ combinations (N / 2) (List.range N)) →
      List.Forall₂ (fun ps row => pboOne evalSharpe argsort M (M.length / N) ps = .ok row) l rows' →
      ∃ rows, l.mapM (pboOne evalSharpe argsort (M.map List.dropLast) (M.length / N)) = .ok rows ∧
      List.Forall₂ (fun r r' : PboRow => r.trainBest = r'.trainBest ∧ r.testAssoc = r'.testAssoc ∧
        ∃ k < n, r.logit = some (logitOf k n) ∧ r'.logit = some (logitOf (k + 1) (n + 1)) ∧
          logitOf k n < logitOf (k + 1) (n + 1)) rows rows' ∧
      (rows'.filter NegLogit).length ≤ (rows.filter NegLogit).length := by
    intro l rows' hl hf
    induction hf with
    | nil => exact ⟨[], rfl, List.Forall₂.nil, by simp⟩
    | cons hh _ ih =>
      obtain ⟨rows, i1, i2, i3⟩ := ih (fun ps hps => hl ps (by simp [hps]))
      obtain ⟨row, k1, k2, k3, k, k4, k5, k6, k7⟩ := key _ (hl _ (by simp)) _ hh
      refine ⟨row :: rows, ?_, List.Forall₂.cons ⟨k2, k3, k, k4, k5, k6, k7⟩ i2, ?_⟩
      · rw [mapM_cons_py, k1, py_bind_ok, i1]
        rfl
      · rw [List.filter_cons, List.filter_cons]
        split_ifs with q1 q2 q2
        · simpa using i3
        · exfalso
          obtain ⟨v, hv, hv0⟩ := of_decide_eq_true q1
          rw [k6] at hv
          cases hv
          exact q2 (decide_eq_true ⟨_, k5, k7.trans hv0⟩)
        · rw [List.length_cons]
          omega
        · exact i3
  exact gen _ _ (fun ps hps => hps) h

/-- Two strategies over four days and a third one that always loses. -/
def threeStrategies : List (List ℝ) := [[1, 2, -1], [3, 3, -2], [1, 4, -1], [2, 1, -2]]

theorem evalSharpe_three (a b c d e f : ℝ) (h : a ≠ d) (h' : b ≠ e) (h'' : c ≠ f) :
    evalSharpe [[a, b, c], [d, e, f]] = .ok [(a + d) / |a - d|, (b + e) / |b - e|, (c + f) / |c - f|] := by
  have : sharpeRatio [[a, b, c], [d, e, f]] .rows = [sharpe [a, d], sharpe [b, e], sharpe [c, f]] := rfl
  unfold evalSharpe
  rw [this, sharpe_two _ _ h, sharpe_two _ _ h', sharpe_two _ _ h'']
  rfl

/-- The hypotheses of `C236_pad` are met. -/
example : (∀ r ∈ threeStrategies, r.length = 2 + 1) ∧ 2 ≤ threeStrategies.length ∧
    (∀ ps ∈ combinations (2 / 2) (List.range 2), NoTies evalSharpe threeStrategies (threeStrategies.length / 2) ps) ∧
    (∀ ps ∈ combinations (2 / 2) (List.range 2), LastWorst threeStrategies (threeStrategies.length / 2) ps) ∧
    ∃ rows, computePbo evalSharpe sortPositions threeStrategies 2 = .ok rows := by
  have e1 : evalSharpe [[1, 2, -1], [3, 3, -2]] = .ok [2, 5, -3] := by
    rw [evalSharpe_three _ _ _ _ _ _ (by norm_num) (by norm_num) (by norm_num)]
    norm_num [abs_of_neg, abs_of_pos]
  have e2 : evalSharpe [[1, 4, -1], [2, 1, -2]] = .ok [3, 5 / 3, -3] := by
    rw [evalSharpe_three _ _ _ _ _ _ (by norm_num) (by norm_num) (by norm_num)]
    norm_num [abs_of_neg, abs_of_pos]
  have c : combinations (2 / 2) (List.range 2) = [[0], [1]] := by decide
  have l : threeStrategies.length = 4 := rfl
  have t0 : pboTrain (4 / 2) [0] = [0, 1] := by decide
  have t1 : pboTrain (4 / 2) [1] = [2, 3] := by decide
  have u0 : pboTest 4 [0, 1] = [2, 3] := by decide
  have u1 : pboTest 4 [2, 3] = [0, 1] := by decide
  have m0 : [0, 1].mapM (pyGet threeStrategies) = .ok [[1, 2, -1], [3, 3, -2]] := rfl
  have m1 : [2, 3].mapM (pyGet threeStrategies) = .ok [[1, 4, -1], [2, 1, -2]] := rfl
  have idxs : ∀ ps ∈ combinations (2 / 2) (List.range 2),
      ∀ idx ∈ [pboTrain (threeStrategies.length / 2) ps,
        pboTest threeStrategies.length (pboTrain (threeStrategies.length / 2) ps)],
      idx = [0, 1] ∨ idx = [2, 3] := by
    intro ps hps idx hidx
    rw [c] at hps
    rw [l] at hidx
    simp only [List.mem_cons, List.not_mem_nil, or_false] at hps hidx
    rcases hps with rfl | rfl
    · rw [t0, u0] at hidx; exact hidx
    · rw [t1, u1] at hidx; exact hidx.symm
  refine ⟨by simp [threeStrategies], by simp [l], ?_, ?_, ?_⟩
  · intro ps hps idx hidx rows perf hm he
    rcases idxs ps hps idx hidx with rfl | rfl
    · rw [m0] at hm; cases hm; rw [e1] at he; cases he; norm_num
    · rw [m1] at hm; cases hm; rw [e2] at he; cases he; norm_num
  · intro ps hps idx hidx rows perf hm he
    rcases idxs ps hps idx hidx with rfl | rfl
    · rw [m0] at hm; cases hm; rw [e1] at he; cases he
      exact ⟨-3, rfl, by simp; norm_num⟩
    · rw [m1] at hm; cases hm; rw [e2] at he; cases he
      exact ⟨-3, rfl, by simp; norm_num⟩
  · have one : ∀ ps, ps = [0] ∨ ps = [1] → ∃ row,
        pboOne evalSharpe sortPositions threeStrategies (4 / 2) ps = .ok row := by
      rintro ps (rfl | rfl)
      · unfold pboOne
        simp only
        rw [l, t0, u0, m0, py_bind_ok, m1, py_bind_ok, e1, py_bind_ok]
        have : npArgmax [2, 5, -3] = .ok 1 := by unfold npArgmax argmaxFrom argmaxFrom argmaxFrom; norm_num
        rw [this, e2]
        exact ⟨_, rfl⟩
      · unfold pboOne
        simp only
        rw [l, t1, u1, m1, py_bind_ok, m0, py_bind_ok, e2, py_bind_ok]
        have : npArgmax [3, 5 / 3, -3] = .ok 0 := by unfold npArgmax argmaxFrom argmaxFrom argmaxFrom; norm_num
        rw [this, e1]
        exact ⟨_, rfl⟩
    obtain ⟨r0, h0⟩ := one [0] (Or.inl rfl)
    obtain ⟨r1, h1⟩ := one [1] (Or.inr rfl)
    refine ⟨[r0, r1], ?_⟩
    unfold computePbo
    rw [if_neg (by decide), if_neg (by decide), if_neg (by decide)]
    have : (2 : ℤ).toNat = 2 := rfl
    rw [this, c, l, mapM_cons_py, h0, py_bind_ok, mapM_cons_py, h1]
    rfl

end FinML.CV
