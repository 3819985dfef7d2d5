import Verif.Stats.KdeProps

/-!
# Strategies that are best in every split (C350)
-/

namespace FinML.Stats

/-- The performances of all strategies on the rows `idx`. -/
def PerfOn (eval : List (List ℝ) → Py (List ℝ)) (M : List (List ℝ)) (idx : List ℕ) (perf : List ℝ) : Prop :=
  ∃ rows, List.Forall₂ (fun i v => M[i]? = some v) idx rows ∧ eval rows = .ok perf

/-- Strategy `b` is better than every other one. -/
def Beats (b : ℕ) (perf : List ℝ) : Prop :=
  ∀ v, perf[b]? = some v → ∀ (j : ℕ) (x : ℝ), perf[j]? = some x → j ≠ b → x < v

/-- Strategy `b` is worse than every other one. -/
def Trails (b : ℕ) (perf : List ℝ) : Prop :=
  ∀ v, perf[b]? = some v → ∀ (j : ℕ) (x : ℝ), perf[j]? = some x → j ≠ b → v < x

/-- In every split `b` is best on the train rows and `P` holds of its test performance. -/
def EverySplit (eval : List (List ℝ) → Py (List ℝ)) (M : List (List ℝ)) (N n b : ℕ) (P : List ℝ → Prop) : Prop :=
  ∀ ps : List ℕ, ps.Pairwise (· < ·) → ps.length = N / 2 → (∀ p ∈ ps, p < N) → ∀ perf,
    (PerfOn eval M (CV.pboTrain (M.length / N) ps) perf → b < perf.length ∧ Beats b perf) ∧
    (PerfOn eval M (CV.pboTest M.length (CV.pboTrain (M.length / N) ps)) perf → perf.length = n ∧ P perf)

/-- C350, the full claim: if one strategy is best in all train and test sets, the probability of overfitting is below one
half. -/
def WinnerIsNotOverfit : Prop :=
  ∀ (eval : List (List ℝ) → Py (List ℝ)) (argsort : List ℝ → List ℕ), CV.IsArgsort argsort →
    ∀ (M : List (List ℝ)) (N n b : ℕ) (rows : List CV.PboRow), CV.computePbo eval argsort M N = .ok rows →
      EverySplit eval M N n b (Beats b) → ∃ p, pboProbability eval argsort M N = .ok (p, rows) ∧ p < 1 / 2

/-- The strategy selected in one split, and its rank there. -/
theorem row_of_best (eval : List (List ℝ) → Py (List ℝ)) (argsort : List ℝ → List ℕ) (hs : CV.IsArgsort argsort)
    (M : List (List ℝ)) (N n b : ℕ) (P : List ℝ → Prop) (hb : EverySplit eval M N n b P) (ps : List ℕ)
    (h1 : ps.Pairwise (· < ·)) (h2 : ps.length = N / 2) (h3 : ∀ p ∈ ps, p < N) (row : CV.PboRow)
    (h : CV.pboOne eval argsort M (M.length / N) ps = .ok row) :
    ∃ (perf : List ℝ) (k : ℕ), perf.length = n ∧ P perf ∧ perf[b]? = some row.testAssoc ∧
      (perf.countP fun x => x < row.testAssoc) ≤ k ∧ k < (perf.countP fun x => x ≤ row.testAssoc) ∧
      row.logit = some (Real.log ((k : ℝ) / n / (1 - (k : ℝ) / n) + 1 / 1000)) := by
  obtain ⟨trainRows, testRows, trainPerf, testPerf, best, k, r, t1, t2, t3, t4, t5, t6, t7, t8, t9, t10, -, -, t11⟩ :=
    CV.C48_row eval argsort hs M _ ps row h
  obtain ⟨hbl, hbb⟩ := (hb ps h1 h2 h3 trainPerf).1 ⟨_, t1, t3⟩
  obtain ⟨hn, hP⟩ := (hb ps h1 h2 h3 testPerf).2 ⟨_, t2, t4⟩
  have : best = b := by
    by_contra hne
    have := hbb _ (List.getElem?_eq_getElem hbl) best _ t5 hne
    exact absurd (t6 _ (List.getElem_mem hbl)) (not_le.2 this)
  subst this
  exact ⟨testPerf, k, hn, hP, t7, t8, t9, by rw [t11, t10, hn]⟩

theorem same_logits (eval : List (List ℝ) → Py (List ℝ)) (argsort : List ℝ → List ℕ) (hs : CV.IsArgsort argsort)
    (M : List (List ℝ)) (N : ℕ) (rows : List CV.PboRow) (h : CV.computePbo eval argsort M N = .ok rows) (c : ℝ)
    (hc : ∀ r ∈ rows, r.logit = some c) : pboProbability eval argsort M N = .error .exception := by
  obtain ⟨logits, hl, herr, -⟩ := C161_pbo_partial eval argsort hs M N rows h
  refine herr ⟨c, fun x hx => ?_⟩
  have : some x ∈ rows.map CV.PboRow.logit := by rw [hl]; exact List.mem_map_of_mem hx
  rw [List.mem_map] at this
  obtain ⟨r, hr, hrx⟩ := this
  rw [hc r hr, Option.some_inj] at hrx
  exact hrx.symm

theorem countP_all_but {perf : List ℝ} {b : ℕ} {v : ℝ} (hv : perf[b]? = some v) (p : ℝ → Bool) (hpv : p v = false)
    (ho : ∀ (j : ℕ) (x : ℝ), perf[j]? = some x → j ≠ b → p x = true) : perf.countP p + 1 = perf.length := by
  induction perf generalizing b with
  | nil => simp at hv
  | cons y perf ih =>
    cases b with
    | zero =>
      simp only [List.getElem?_cons_zero, Option.some.injEq] at hv
      subst hv
      rw [List.countP_cons_of_neg (by simp [hpv]), List.length_cons, Nat.add_right_cancel_iff, List.countP_eq_length]
      intro x hx
      obtain ⟨j, hj⟩ := List.mem_iff_getElem?.1 hx
      exact ho (j + 1) x (by simpa using hj) (by omega)
    | succ b =>
      have hy : p y = true := ho 0 y rfl (by omega)
      rw [List.countP_cons_of_pos hy, List.length_cons, ih (by simpa using hv) fun j x hj hne =>
        ho (j + 1) x (by simpa using hj) (by omega)]

theorem rows_of_choices {eval : List (List ℝ) → Py (List ℝ)} {argsort : List ℝ → List ℕ}
    {M : List (List ℝ)} {N : ℕ} {rows : List CV.PboRow} (h : CV.computePbo eval argsort M N = .ok rows)
    (r : CV.PboRow) (hr : r ∈ rows) : ∃ ps : List ℕ, ps.Pairwise (· < ·) ∧ ps.length = N / 2 ∧ (∀ p ∈ ps, p < N) ∧
      CV.pboOne eval argsort M (M.length / N) ps = .ok r := by
  obtain ⟨-, -, -, choices, -, hch, hrows⟩ := CV.C48_choices eval argsort M N rows h
  obtain ⟨i, hi⟩ := List.mem_iff_getElem?.1 hr
  obtain ⟨hil, hie⟩ := List.getElem?_eq_some_iff.1 hi
  have hlen := hrows.length_eq
  have := (List.forall₂_iff_get.1 hrows).2 i (by omega) hil
  simp only [List.get_eq_getElem, hie] at this
  obtain ⟨a, b, c⟩ := (hch _).1 (List.getElem_mem (l := choices) (n := i) (by omega))
  exact ⟨_, a, b, c, this⟩

/-- C350, what is computed.  A strategy that is best in every split gets the logit of the highest rank each time, and the
kernel estimate raises (missing from the full claim: a probability). -/
theorem C350_winner_partial (eval : List (List ℝ) → Py (List ℝ)) (argsort : List ℝ → List ℕ) (hs : CV.IsArgsort argsort)
    (M : List (List ℝ)) (N n b : ℕ) (rows : List CV.PboRow) (h : CV.computePbo eval argsort M N = .ok rows)
    (hb : EverySplit eval M N n b (Beats b)) :
    (∀ r ∈ rows, r.logit = some (Real.log ((n : ℝ) - 1 + 1 / 1000))) ∧
    pboProbability eval argsort M N = .error .exception := by
  have key : ∀ r ∈ rows, r.logit = some (Real.log ((n : ℝ) - 1 + 1 / 1000)) := by
    intro r hr
    obtain ⟨ps, h1, h2, h3, h4⟩ := rows_of_choices h r hr
    obtain ⟨perf, k, hn, hP, hv, hk1, hk2, hlog⟩ := row_of_best eval argsort hs M N n b _ hb ps h1 h2 h3 r h4
    have hc := countP_all_but hv (fun x => decide (x < r.testAssoc)) (by simp) fun j x hj hne => by
      simpa using hP _ hv j x hj hne
    have hle : (perf.countP fun x => decide (x ≤ r.testAssoc)) ≤ perf.length := List.countP_le_length
    have hkn : n = k + 1 := by omega
    rw [hlog, hkn]
    congr 3
    push_cast
    have : ((k : ℝ) + 1) ≠ 0 := by positivity
    field_simp
    ring
  exact ⟨key, same_logits eval argsort hs M N rows h _ key⟩

/-- C350.  The same for the opposite: a strategy that is best on all train rows and worst on all test rows gets rank 0 each time,
and instead of a probability near one the kernel estimate raises. -/
theorem C350_loser (eval : List (List ℝ) → Py (List ℝ)) (argsort : List ℝ → List ℕ) (hs : CV.IsArgsort argsort)
    (M : List (List ℝ)) (N n b : ℕ) (rows : List CV.PboRow) (h : CV.computePbo eval argsort M N = .ok rows)
    (hb : EverySplit eval M N n b (Trails b)) :
    (∀ r ∈ rows, r.logit = some (Real.log (1 / 1000))) ∧ pboProbability eval argsort M N = .error .exception := by
  have key : ∀ r ∈ rows, r.logit = some (Real.log (1 / 1000)) := by
    intro r hr
    obtain ⟨ps, h1, h2, h3, h4⟩ := rows_of_choices h r hr
    obtain ⟨perf, k, hn, hP, hv, hk1, hk2, hlog⟩ := row_of_best eval argsort hs M N n b _ hb ps h1 h2 h3 r h4
    have hc := countP_all_but hv (fun x => ! decide (x ≤ r.testAssoc)) (by simp) fun j x hj hne => by
      simpa using hP _ hv j x hj hne
    have hsum := List.length_eq_countP_add_countP (fun x => decide (x ≤ r.testAssoc)) (l := perf)
    have he : (perf.countP fun a => decide (¬ decide (a ≤ r.testAssoc) = true)) =
        perf.countP fun x => ! decide (x ≤ r.testAssoc) := by
      congr 1
      funext x
      by_cases hx : x ≤ r.testAssoc <;> simp [hx]
    have hk : k = 0 := by omega
    rw [hlog, hk]
    simp
  exact ⟨key, same_logits eval argsort hs M N rows h _ key⟩

theorem winner_sample : EverySplit colSums [[0, 1], [0, 1]] 2 2 1 (Beats 1) := by
  have hb : Beats 1 [0, 1] := by
    intro v hv j x hj hne
    simp only [List.getElem?_cons_succ, List.getElem?_cons_zero, Option.some.injEq] at hv
    match j with
    | 0 => simp only [List.getElem?_cons_zero, Option.some.injEq] at hj; rw [← hv, ← hj]; norm_num
    | 1 => exact absurd rfl hne
    | j + 2 => simp at hj
  have key : ∀ i, i < 2 → ∀ perf, PerfOn colSums [[0, 1], [0, 1]] [i] perf → perf = [0, 1] := by
    rintro i hi perf ⟨rows, hr, he⟩
    have : rows = [[0, 1]] := by
      cases hr with
      | cons h hr =>
        cases hr
        have hi' : i = 0 ∨ i = 1 := by omega
        rcases hi' with rfl | rfl <;> simpa using h.symm
    subst this
    simp only [colSums, List.foldr_cons, List.foldr_nil, List.zipWith_cons_cons, add_zero, List.zipWith_nil_right] at he
    cases he
    rfl
  intro ps h1 h2 h3 perf
  obtain ⟨p, rfl⟩ : ∃ p, ps = [p] := List.length_eq_one_iff.1 h2
  have hp := h3 p (by simp)
  have hp' : p = 0 ∨ p = 1 := by omega
  rcases hp' with rfl | rfl
  · exact ⟨fun h => by rw [key 0 (by omega) perf h]; exact ⟨by simp, hb⟩,
      fun h => by rw [key 1 (by omega) perf h]; exact ⟨rfl, hb⟩⟩
  · exact ⟨fun h => by rw [key 1 (by omega) perf h]; exact ⟨by simp, hb⟩,
      fun h => by rw [key 0 (by omega) perf h]; exact ⟨rfl, hb⟩⟩

/-- C350.  Two strategies, the second better in every row. -/
theorem C350_counterexample : ¬ WinnerIsNotOverfit := by
  intro h
  obtain ⟨argsort, hs⟩ := exists_argsort
  obtain ⟨row, hrow⟩ := dominant_rows argsort
  obtain ⟨p, hp, -⟩ := h colSums argsort hs _ _ 2 1 _ hrow winner_sample
  rw [(C350_winner_partial colSums argsort hs _ _ 2 1 _ hrow winner_sample).2] at hp
  cases hp

end FinML.Stats
