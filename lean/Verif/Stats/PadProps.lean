import Verif.Stats.KdeProps
import Verif.CV.PadProps

/-!
# C236, the probability itself: a hopeless strategy and the kernel estimate
-/

namespace FinML.Stats

open FinML.CV

/-- C236, the full claim: a strategy that is the worst on all train and test rows never raises the probability of
backtest overfitting. -/
def PaddingNeverRaises : Prop :=
  ∀ (argsort : List ℝ → List ℕ), IsArgsort argsort → ∀ (M : List (List ℝ)) (n : ℕ), 0 < n →
    (∀ r ∈ M, r.length = n + 1) → ∀ N : ℕ, N ≤ M.length →
    (∀ ps ∈ combinations (N / 2) (List.range N), NoTies evalSharpe M (M.length / N) ps) →
    (∀ ps ∈ combinations (N / 2) (List.range N), LastWorst M (M.length / N) ps) →
    ∀ p rows p' rows', pboProbability evalSharpe argsort (M.map List.dropLast) N = .ok (p, rows) →
      pboProbability evalSharpe argsort M N = .ok (p', rows') → p' ≤ p

/-! ## Logits draw together -/

theorem logit_step (k k' n : ℕ) (hk : k < k') (hn : k' < n) :
    logitOf (k + 1) (n + 1) < logitOf (k' + 1) (n + 1) ∧
      logitOf (k' + 1) (n + 1) - logitOf (k + 1) (n + 1) ≤ logitOf k' n - logitOf k n := by
  have h0 : (0 : ℝ) ≤ k := by positivity
  have h1 : (k : ℝ) < k' := by exact_mod_cast hk
  have h2 : (k' : ℝ) < n := by exact_mod_cast hn
  have e : ∀ j : ℕ, logitOf (j + 1) (n + 1) = Real.log ((j + 1) / (n - j) + 1 / 1000) := by
    intro j
    unfold logitOf
    push_cast
    rw [add_sub_add_right_eq_sub]
  rw [e, e]
  unfold logitOf
  have a : (0 : ℝ) < n - k' := by linarith
  have b : (0 : ℝ) < n - k := by linarith
  have p1 : (0 : ℝ) < (k + 1) / (n - k) + 1 / 1000 := by positivity
  have p2 : (0 : ℝ) < (k' + 1) / (n - k') + 1 / 1000 := by positivity
  have p3 : (0 : ℝ) < k / (n - k) + 1 / 1000 := by positivity
  have p4 : (0 : ℝ) < k' / (n - k') + 1 / 1000 := by positivity
  constructor
  · apply Real.log_lt_log p1
    have : ((k : ℝ) + 1) / (n - k) < (k' + 1) / (n - k') := by
      rw [div_lt_div_iff₀ b a]
      nlinarith
    linarith
  · rw [← Real.log_div p2.ne' p1.ne', ← Real.log_div p4.ne' p3.ne']
    apply Real.log_le_log (by positivity)
    rw [div_le_div_iff₀ p1 p3]
    have key : ((k' : ℝ) / (n - k') + 1 / 1000) * ((k + 1) / (n - k) + 1 / 1000) -
        ((k' + 1) / (n - k') + 1 / 1000) * (k / (n - k) + 1 / 1000) =
        (999 / 1000) * ((k' - k) / ((n - k') * (n - k))) := by
      field_simp
      ring
    have : 0 ≤ ((k' : ℝ) - k) / ((n - k') * (n - k)) := div_nonneg (by linarith) (by positivity)
    linarith

theorem logit_contract (k k' n : ℕ) (hk : k < n) (hk' : k' < n) :
    (logitOf (k + 1) (n + 1) - logitOf (k' + 1) (n + 1)) ^ 2 ≤ (logitOf k n - logitOf k' n) ^ 2 ∧
      (logitOf (k + 1) (n + 1) = logitOf (k' + 1) (n + 1) → k = k') := by
  rcases lt_trichotomy k k' with h | h | h
  · obtain ⟨h1, h2⟩ := logit_step k k' n h hk'
    exact ⟨by nlinarith, fun he => absurd he h1.ne⟩
  · subst h
    simp
  · obtain ⟨h1, h2⟩ := logit_step k' k n h hk
    exact ⟨by nlinarith, fun he => absurd he h1.ne'⟩

theorem pair_sum (l : List ℝ) (hl : l ≠ []) :
    (l.map fun x => (l.map fun y => (x - y) ^ 2).sum).sum =
      2 * (l.length : ℝ) * (l.map fun x => (x - l.sum / l.length) ^ 2).sum := by
  have hpos : (0 : ℝ) < l.length := by exact_mod_cast List.length_pos_of_ne_nil hl
  have h1 : ∀ (c : ℝ) (m : List ℝ), (m.map fun y => (c - y) ^ 2).sum =
      m.length * c ^ 2 - 2 * c * m.sum + (m.map fun y => y ^ 2).sum := by
    intro c m
    induction m with
    | nil => simp
    | cons y m ih =>
      simp only [List.map_cons, List.sum_cons, ih, List.length_cons]
      push_cast
      ring
  have h2 : ∀ (a b c : ℝ) (m : List ℝ), (m.map fun x => a * x ^ 2 - 2 * x * b + c).sum =
      a * (m.map fun y => y ^ 2).sum - 2 * b * m.sum + m.length * c := by
    intro a b c m
    induction m with
    | nil => simp
    | cons y m ih =>
      simp only [List.map_cons, List.sum_cons, ih, List.length_cons]
      push_cast
      ring
  simp only [h1]
  rw [h2]
  have h3 : (l.map fun x => (x - l.sum / l.length) ^ 2).sum =
      (l.map fun x => 1 * x ^ 2 - 2 * x * (l.sum / l.length) + (l.sum / l.length) ^ 2).sum := by
    congr 1
    apply List.map_congr_left
    intro x _
    ring
  rw [h3, h2]
  field_simp
  ring

theorem spread_le {α : Type} (ks : List α) (f g : α → ℝ) (hk : ks ≠ [])
    (h : ∀ a ∈ ks, ∀ b ∈ ks, (g a - g b) ^ 2 ≤ (f a - f b) ^ 2) :
    ((ks.map g).map fun x => (x - (ks.map g).sum / (ks.map g).length) ^ 2).sum ≤
      ((ks.map f).map fun x => (x - (ks.map f).sum / (ks.map f).length) ^ 2).sum := by
  have hpos : (0 : ℝ) < ks.length := by exact_mod_cast List.length_pos_of_ne_nil hk
  have h1 := pair_sum (ks.map f) (by simpa using hk)
  have h2 := pair_sum (ks.map g) (by simpa using hk)
  rw [List.length_map] at h1 h2 ⊢
  rw [List.length_map]
  have h3 : ((ks.map g).map fun x => ((ks.map g).map fun y => (x - y) ^ 2).sum).sum ≤
      ((ks.map f).map fun x => ((ks.map f).map fun y => (x - y) ^ 2).sum).sum := by
    simp only [List.map_map]
    apply List.sum_le_sum
    intro a ha
    simp only [Function.comp_apply]
    apply List.sum_le_sum
    intro b hb
    exact h a ha b hb
  rw [h1, h2] at h3
  have := le_of_mul_le_mul_left h3 (by positivity)
  exact this

/-- C236, what holds for the probability: if the strategy selected is never below the median of the others (no
logit is negative), a strategy that is always the worst lowers the probability of backtest overfitting (missing:
negative logits; see `C236_probability_counterexample`). -/
theorem C236_probability_partial (argsort : List ℝ → List ℕ) (hsort : IsArgsort argsort) (M : List (List ℝ))
    (n : ℕ) (hn : 0 < n) (hM : ∀ r ∈ M, r.length = n + 1) (N : ℕ) (hN : N ≤ M.length)
    (hties : ∀ ps ∈ combinations (N / 2) (List.range N), NoTies evalSharpe M (M.length / N) ps)
    (hbad : ∀ ps ∈ combinations (N / 2) (List.range N), LastWorst M (M.length / N) ps)
    (rows' : List PboRow) (h : computePbo evalSharpe argsort M N = .ok rows') (p : ℝ) (rows : List PboRow)
    (hp : pboProbability evalSharpe argsort (M.map List.dropLast) N = .ok (p, rows))
    (h0 : ∀ r ∈ rows, ∀ x, r.logit = some x → 0 ≤ x) :
    ∃ p', pboProbability evalSharpe argsort M N = .ok (p', rows') ∧ p' < p := by
  obtain ⟨rws, hr, hf, -⟩ := C236_pad argsort hsort M n hn hM N hN hties hbad rows' h
  have hrr : rws = rows := by
    unfold pboProbability at hp
    rw [hr, py_bind_ok, py_bind_eq_ok] at hp
    obtain ⟨ls, -, hp⟩ := hp
    rw [py_bind_eq_ok] at hp
    obtain ⟨k, -, hp⟩ := hp
    cases hp
    rfl
  subst hrr
  obtain ⟨ks, hks, e1, e2⟩ : ∃ ks : List ℕ, (∀ k ∈ ks, k < n) ∧
      rws.map PboRow.logit = (ks.map fun k => logitOf k n).map some ∧
      rows'.map PboRow.logit = (ks.map fun k => logitOf (k + 1) (n + 1)).map some := by
    clear hp h0 hr h
    induction hf with
    | nil => exact ⟨[], by simp, rfl, rfl⟩
    | cons hab _ ih =>
      obtain ⟨ks, i1, i2, i3⟩ := ih
      obtain ⟨-, -, k, j1, j2, j3, -⟩ := hab
      refine ⟨k :: ks, ?_, ?_, ?_⟩
      · intro x hx
        rcases List.mem_cons.1 hx with rfl | hx
        · exact j1
        · exact i1 x hx
      · simp only [List.map_cons, i2, j2]
      · simp only [List.map_cons, i3, j3]
  have hinj : Function.Injective (List.map (some : ℝ → Option ℝ)) := List.map_injective_iff.2 (Option.some_injective _)
  obtain ⟨xs, x1, x2, x3⟩ := C161_pbo_partial evalSharpe argsort hsort _ N rws hr
  obtain ⟨ys, y1, y2, y3⟩ := C161_pbo_partial evalSharpe argsort hsort _ N rows' h
  obtain rfl : xs = ks.map fun k => logitOf k n := hinj (x1.symm.trans e1)
  obtain rfl : ys = ks.map fun k => logitOf (k + 1) (n + 1) := hinj (y1.symm.trans e2)
  have hx : ¬ ∃ c, ∀ x ∈ ks.map (fun k => logitOf k n), x = c := by
    intro hc
    rw [x2 hc] at hp
    cases hp
  have hy : ¬ ∃ c, ∀ x ∈ ks.map (fun k => logitOf (k + 1) (n + 1)), x = c := by
    rintro ⟨c, hc⟩
    apply hx
    cases ks with
    | nil => exact ⟨0, by simp⟩
    | cons k ks =>
      refine ⟨logitOf k n, ?_⟩
      intro x hx'
      obtain ⟨j, hj, rfl⟩ := List.mem_map.1 hx'
      have : k = j := (logit_contract k j n (hks k (by simp)) (hks j hj)).2
        ((hc _ (List.mem_map.2 ⟨k, by simp, rfl⟩)).trans (hc _ (List.mem_map.2 ⟨j, hj, rfl⟩)).symm)
      rw [this]
  obtain ⟨q, w, q1, q2, q3, q4, -⟩ := x3 hx
  obtain ⟨q', w', r1, r2, r3, r4, -⟩ := y3 hy
  rw [hp] at q1
  cases q1
  have hne : ks ≠ [] := by
    rintro rfl
    exact hx ⟨0, by simp⟩
  have hpos : (0 : ℝ) < ks.length := by exact_mod_cast List.length_pos_of_ne_nil hne
  have hlen : (1 : ℝ) < ks.length := by
    have : 1 < ks.length := by
      rcases ks with _ | ⟨k, _ | ⟨j, ks⟩⟩
      · exact absurd rfl hne
      · exact absurd ⟨logitOf k n, by simp⟩ hx
      · simp
    exact_mod_cast this
  have hs := spread_le ks (fun k => logitOf k n) (fun k => logitOf (k + 1) (n + 1)) hne
    fun a ha b hb => (logit_contract a b n (hks a ha) (hks b hb)).1
  rw [← q3, ← r3, List.length_map, List.length_map] at hs
  have hww : w' ≤ w := by
    have hc : (0 : ℝ) < (ks.length : ℝ) ^ (2 / 5 : ℝ) := Real.rpow_pos_of_pos hpos _
    have : w' ^ 2 ≤ w ^ 2 := by
      have h1 := le_of_mul_le_mul_right hs (by linarith)
      exact le_of_mul_le_mul_right h1 hc
    exact le_of_sq_le_sq this q2.le
  refine ⟨q', r1, ?_⟩
  have hnonneg : ∀ k ∈ ks, 0 ≤ logitOf k n := by
    intro k hk
    have : some (logitOf k n) ∈ rws.map PboRow.logit := by
      rw [e1]
      simp only [List.map_map, List.mem_map]
      exact ⟨k, hk, rfl⟩
    obtain ⟨r, hr1, hr2⟩ := List.mem_map.1 this
    exact h0 r hr1 _ hr2
  have hlt : ((ks.map fun k => logitOf (k + 1) (n + 1)).map fun x => normCdf (-x / w')).sum <
      ((ks.map fun k => logitOf k n).map fun x => normCdf (-x / w)).sum := by
    rw [List.map_map, List.map_map]
    apply List.sum_lt_sum_of_ne_nil hne
    intro k hk
    simp only [Function.comp_apply]
    apply normCdf_strictMono
    have a1 := hnonneg k hk
    have a2 := (logit_pad k n (hks k hk)).2.2
    rw [neg_div, neg_div, neg_lt_neg_iff, div_lt_div_iff₀ q2 r2]
    nlinarith
  rw [← q4, ← r4, List.length_map, List.length_map] at hlt
  exact lt_of_mul_lt_mul_right hlt hpos.le

theorem sharpe_pair (x : ℝ) : Metrics.sharpe [x + 1, x - 1] = some x := by
  rw [sharpe_two _ _ (by intro h; linarith)]
  have : |x + 1 - (x - 1)| = 2 := by
    rw [abs_of_pos] <;> linarith
  rw [this]
  congr 1
  ring

/-- Seven strategies over four days.  The first is the best of the first two days and the third of the others, the
second is the second and the best. -/
def sevenStrategies : List (List ℝ) :=
  [[7, 6, 5, 4, 3, 2, 0], [5, 4, 3, 2, 1, 0, -2], [5, 7, 6, 4, 3, 2, 0], [3, 5, 4, 2, 1, 0, -2]]

theorem evalSharpe_seven (a b c d e f g : ℝ) :
    evalSharpe [[a + 1, b + 1, c + 1, d + 1, e + 1, f + 1, g + 1], [a - 1, b - 1, c - 1, d - 1, e - 1, f - 1, g - 1]] =
      .ok [a, b, c, d, e, f, g] := by
  have : Metrics.sharpeRatio [[a + 1, b + 1, c + 1, d + 1, e + 1, f + 1, g + 1],
      [a - 1, b - 1, c - 1, d - 1, e - 1, f - 1, g - 1]] .rows =
      [Metrics.sharpe [a + 1, a - 1], Metrics.sharpe [b + 1, b - 1], Metrics.sharpe [c + 1, c - 1],
        Metrics.sharpe [d + 1, d - 1], Metrics.sharpe [e + 1, e - 1], Metrics.sharpe [f + 1, f - 1],
        Metrics.sharpe [g + 1, g - 1]] := rfl
  unfold evalSharpe
  rw [this, sharpe_pair, sharpe_pair, sharpe_pair, sharpe_pair, sharpe_pair, sharpe_pair, sharpe_pair]
  rfl

/-- The hypotheses of `C236_probability_partial` are met by the seven strategies. -/
example : (∀ r ∈ sevenStrategies, r.length = 6 + 1) ∧ 2 ≤ sevenStrategies.length ∧
    (∀ ps ∈ combinations (2 / 2) (List.range 2), NoTies evalSharpe sevenStrategies (sevenStrategies.length / 2) ps) ∧
    (∀ ps ∈ combinations (2 / 2) (List.range 2), LastWorst sevenStrategies (sevenStrategies.length / 2) ps) ∧
    (∃ rows', computePbo evalSharpe sortPositions sevenStrategies (2 : ℕ) = .ok rows') ∧
    ∃ p rows, pboProbability evalSharpe sortPositions (sevenStrategies.map List.dropLast) (2 : ℕ) = .ok (p, rows) ∧
      ∀ r ∈ rows, ∀ x, r.logit = some x → 0 ≤ x := by
  have l : sevenStrategies.length = 4 := rfl
  have t0 : pboTrain (sevenStrategies.length / 2) [0] = [0, 1] := by rw [l]; decide
  have t1 : pboTrain (sevenStrategies.length / 2) [1] = [2, 3] := by rw [l]; decide
  have u0 : pboTest sevenStrategies.length [0, 1] = [2, 3] := by rw [l]; decide
  have u1 : pboTest sevenStrategies.length [2, 3] = [0, 1] := by rw [l]; decide
  have c : combinations (2 / 2) (List.range 2) = [[0], [1]] := by decide
  have m0 : [0, 1].mapM (pyGet sevenStrategies) = .ok [[7, 6, 5, 4, 3, 2, 0], [5, 4, 3, 2, 1, 0, -2]] := rfl
  have m1 : [2, 3].mapM (pyGet sevenStrategies) = .ok [[5, 7, 6, 4, 3, 2, 0], [3, 5, 4, 2, 1, 0, -2]] := rfl
  have e1 : evalSharpe [[7, 6, 5, 4, 3, 2, 0], [5, 4, 3, 2, 1, 0, -2]] = .ok [6, 5, 4, 3, 2, 1, -1] := by
    have := evalSharpe_seven 6 5 4 3 2 1 (-1)
    norm_num at this
    exact this
  have e2 : evalSharpe [[5, 7, 6, 4, 3, 2, 0], [3, 5, 4, 2, 1, 0, -2]] = .ok [4, 6, 5, 3, 2, 1, -1] := by
    have := evalSharpe_seven 4 6 5 3 2 1 (-1)
    norm_num at this
    exact this
  have idxs : ∀ ps ∈ combinations (2 / 2) (List.range 2),
      ∀ idx ∈ [pboTrain (sevenStrategies.length / 2) ps,
        pboTest sevenStrategies.length (pboTrain (sevenStrategies.length / 2) ps)],
      idx = [0, 1] ∨ idx = [2, 3] := by
    intro ps hps idx hidx
    rw [c] at hps
    simp only [List.mem_cons, List.not_mem_nil, or_false] at hps hidx
    rcases hps with rfl | rfl
    · rw [t0, u0] at hidx; exact hidx
    · rw [t1, u1] at hidx; exact hidx.symm
  have g1 : ∀ r ∈ sevenStrategies, r.length = 6 + 1 := by simp [sevenStrategies]
  have g2 : 2 ≤ sevenStrategies.length := by simp [sevenStrategies]
  have g3 : ∀ ps ∈ combinations (2 / 2) (List.range 2),
      NoTies evalSharpe sevenStrategies (sevenStrategies.length / 2) ps := by
    intro ps hps idx hidx rows perf hm he
    rcases idxs ps hps idx hidx with rfl | rfl
    · rw [m0] at hm; cases hm; rw [e1] at he; cases he; norm_num
    · rw [m1] at hm; cases hm; rw [e2] at he; cases he; norm_num
  have g4 : ∀ ps ∈ combinations (2 / 2) (List.range 2),
      LastWorst sevenStrategies (sevenStrategies.length / 2) ps := by
    intro ps hps idx hidx rows perf hm he
    rcases idxs ps hps idx hidx with rfl | rfl
    · rw [m0] at hm; cases hm; rw [e1] at he; cases he
      exact ⟨-1, rfl, by norm_num⟩
    · rw [m1] at hm; cases hm; rw [e2] at he; cases he
      exact ⟨-1, rfl, by norm_num⟩
  have a0 : npArgmax [6, 5, 4, 3, 2, 1, -1] = .ok 0 := by
    unfold npArgmax argmaxFrom argmaxFrom argmaxFrom argmaxFrom argmaxFrom argmaxFrom argmaxFrom; norm_num
  have a1 : npArgmax [4, 6, 5, 3, 2, 1, -1] = .ok 1 := by
    unfold npArgmax argmaxFrom argmaxFrom argmaxFrom argmaxFrom argmaxFrom argmaxFrom argmaxFrom; norm_num
  obtain ⟨r0, h0, l0⟩ : ∃ r0, pboOne evalSharpe sortPositions sevenStrategies (sevenStrategies.length / 2) [0] =
      .ok r0 ∧ r0.testAssoc = 4 := by
    unfold pboOne
    simp only
    rw [t0, u0, m0, py_bind_ok, m1, py_bind_ok, e1, py_bind_ok, a0, e2]
    exact ⟨_, rfl, rfl⟩
  obtain ⟨r1, h1, l1⟩ : ∃ r1, pboOne evalSharpe sortPositions sevenStrategies (sevenStrategies.length / 2) [1] =
      .ok r1 ∧ r1.testAssoc = 5 := by
    unfold pboOne
    simp only
    rw [t1, u1, m1, py_bind_ok, m0, py_bind_ok, e2, py_bind_ok, a1, e1]
    exact ⟨_, rfl, rfl⟩
  have hr : computePbo evalSharpe sortPositions sevenStrategies (2 : ℕ) = .ok [r0, r1] := by
    unfold computePbo
    rw [if_neg (by decide), if_neg (by decide), if_neg (by decide)]
    have : ((2 : ℕ) : ℤ).toNat = 2 := rfl
    rw [this, c, mapM_cons_py, h0, py_bind_ok, mapM_cons_py, h1]
    rfl
  have k0 : r0.logit = some (logitOf 4 7) := by
    obtain ⟨_, _, _, _, h⟩ := pboOne_spec evalSharpe sortPositions sortPositions_isArgsort _ _ _ _ h0 _ _ _ _
      (by rw [t0, m0]) (by rw [t0, u0, m1]) e1 e2 (by norm_num)
    rw [h, l0]
    have : below [4, 6, 5, 3, 2, 1, -1] 4 = 3 + 1 := by
      unfold below
      norm_num [List.countP_cons]
    rw [this]
    exact (logit_pad 3 6 (by norm_num)).2.1
  have k1 : r1.logit = some (logitOf 5 7) := by
    obtain ⟨_, _, _, _, h⟩ := pboOne_spec evalSharpe sortPositions sortPositions_isArgsort _ _ _ _ h1 _ _ _ _
      (by rw [t1, m1]) (by rw [t1, u1, m0]) e2 e1 (by norm_num)
    rw [h, l1]
    have : below [6, 5, 4, 3, 2, 1, -1] 5 = 4 + 1 := by
      unfold below
      norm_num [List.countP_cons]
    rw [this]
    exact (logit_pad 4 6 (by norm_num)).2.1
  refine ⟨g1, g2, g3, g4, ⟨_, hr⟩, ?_⟩
  obtain ⟨rows, hrows, hf, -⟩ := C236_pad sortPositions sortPositions_isArgsort sevenStrategies 6 (by norm_num) g1 2
    g2 g3 g4 _ hr
  obtain ⟨s0, l', ⟨-, -, j0, hj0, b0, b1, -⟩, hf', rfl⟩ := List.forall₂_cons_right_iff.1 hf
  obtain ⟨s1, l'', ⟨-, -, j1, hj1, d0, d1, -⟩, hf'', rfl⟩ := List.forall₂_cons_right_iff.1 hf'
  rw [List.forall₂_nil_right_iff] at hf''
  subst hf''
  have hj : ∀ j k : ℕ, j < 6 → k < 6 → some (logitOf (k + 1) 7) = some (logitOf (j + 1) (6 + 1)) → j = k :=
    fun j k h1 h2 h3 => ((logit_contract k j 6 h2 h1).2 (Option.some.inj h3)).symm
  have hj0' : j0 = 3 := hj j0 3 hj0 (by norm_num) (k0.symm.trans b1)
  have hj1' : j1 = 4 := hj j1 4 hj1 (by norm_num) (k1.symm.trans d1)
  subst hj0' hj1'
  have v0 : 0 < logitOf 3 6 := by
    unfold logitOf
    exact Real.log_pos (by norm_num)
  have v1 : logitOf 3 6 < logitOf 4 6 := by
    unfold logitOf
    exact Real.log_lt_log (by norm_num) (by norm_num)
  obtain ⟨xs, x1, -, x3⟩ := C161_pbo_partial evalSharpe sortPositions sortPositions_isArgsort _ 2 _ hrows
  have hinj : Function.Injective (List.map (some : ℝ → Option ℝ)) := List.map_injective_iff.2 (Option.some_injective _)
  have ex : xs = [logitOf 3 6, logitOf 4 6] := hinj (x1.symm.trans (by simp [b0, d0]))
  subst ex
  obtain ⟨p, w, p1, -⟩ := x3 (by
    rintro ⟨c, hc⟩
    have := hc (logitOf 3 6) (by simp)
    have := hc (logitOf 4 6) (by simp)
    linarith)
  refine ⟨p, _, p1, ?_⟩
  intro r hrm x hx
  simp only [List.mem_cons, List.not_mem_nil, or_false] at hrm
  rcases hrm with rfl | rfl
  · rw [b0] at hx; cases hx; exact v0.le
  · rw [d0] at hx; cases hx; exact (v0.trans v1).le

/-! ## The probability can rise -/

/-- Five strategies over four days; the last one is always the worst. -/
def fiveStrategies : List (List ℝ) := [[5, 3, 2, 4, 0], [3, 1, 0, 2, -2], [2, 5, 3, 4, 0], [0, 3, 1, 2, -2]]

theorem evalSharpe_five (a b c d e : ℝ) :
    evalSharpe [[a + 1, b + 1, c + 1, d + 1, e + 1], [a - 1, b - 1, c - 1, d - 1, e - 1]] =
      .ok [a, b, c, d, e] := by
  have : Metrics.sharpeRatio [[a + 1, b + 1, c + 1, d + 1, e + 1], [a - 1, b - 1, c - 1, d - 1, e - 1]] .rows =
      [Metrics.sharpe [a + 1, a - 1], Metrics.sharpe [b + 1, b - 1], Metrics.sharpe [c + 1, c - 1],
        Metrics.sharpe [d + 1, d - 1], Metrics.sharpe [e + 1, e - 1]] := rfl
  unfold evalSharpe
  rw [this, sharpe_pair, sharpe_pair, sharpe_pair, sharpe_pair, sharpe_pair]
  rfl

theorem five_eval : evalSharpe [[5, 3, 2, 4, 0], [3, 1, 0, 2, -2]] = .ok [4, 2, 1, 3, -1] ∧
    evalSharpe [[2, 5, 3, 4, 0], [0, 3, 1, 2, -2]] = .ok [1, 4, 2, 3, -1] := by
  constructor
  · have := evalSharpe_five 4 2 1 3 (-1)
    norm_num at this
    exact this
  · have := evalSharpe_five 1 4 2 3 (-1)
    norm_num at this
    exact this

theorem five_sets : pboTrain (fiveStrategies.length / 2) [0] = [0, 1] ∧
    pboTrain (fiveStrategies.length / 2) [1] = [2, 3] ∧ pboTest fiveStrategies.length [0, 1] = [2, 3] ∧
    pboTest fiveStrategies.length [2, 3] = [0, 1] ∧ combinations (2 / 2) (List.range 2) = [[0], [1]] ∧
    [0, 1].mapM (pyGet fiveStrategies) = .ok [[5, 3, 2, 4, 0], [3, 1, 0, 2, -2]] ∧
    [2, 3].mapM (pyGet fiveStrategies) = .ok [[2, 5, 3, 4, 0], [0, 3, 1, 2, -2]] := by
  have l : fiveStrategies.length = 4 := rfl
  rw [l]
  refine ⟨by decide, by decide, by decide, by decide, by decide, rfl, rfl⟩

/-- The hypotheses of the claim are met by the five strategies. -/
theorem five_hypotheses : (∀ r ∈ fiveStrategies, r.length = 4 + 1) ∧ 2 ≤ fiveStrategies.length ∧
    (∀ ps ∈ combinations (2 / 2) (List.range 2), NoTies evalSharpe fiveStrategies (fiveStrategies.length / 2) ps) ∧
    (∀ ps ∈ combinations (2 / 2) (List.range 2), LastWorst fiveStrategies (fiveStrategies.length / 2) ps) := by
  obtain ⟨t0, t1, u0, u1, c, m0, m1⟩ := five_sets
  obtain ⟨e1, e2⟩ := five_eval
  have idxs : ∀ ps ∈ combinations (2 / 2) (List.range 2),
      ∀ idx ∈ [pboTrain (fiveStrategies.length / 2) ps,
        pboTest fiveStrategies.length (pboTrain (fiveStrategies.length / 2) ps)],
      idx = [0, 1] ∨ idx = [2, 3] := by
    intro ps hps idx hidx
    rw [c] at hps
    simp only [List.mem_cons, List.not_mem_nil, or_false] at hps hidx
    rcases hps with rfl | rfl
    · rw [t0, u0] at hidx; exact hidx
    · rw [t1, u1] at hidx; exact hidx.symm
  refine ⟨by simp [fiveStrategies], by simp [fiveStrategies], ?_, ?_⟩
  · intro ps hps idx hidx rows perf hm he
    rcases idxs ps hps idx hidx with rfl | rfl
    · rw [m0] at hm; cases hm; rw [e1] at he; cases he; norm_num
    · rw [m1] at hm; cases hm; rw [e2] at he; cases he; norm_num
  · intro ps hps idx hidx rows perf hm he
    rcases idxs ps hps idx hidx with rfl | rfl
    · rw [m0] at hm; cases hm; rw [e1] at he; cases he
      exact ⟨-1, rfl, by norm_num⟩
    · rw [m1] at hm; cases hm; rw [e2] at he; cases he
      exact ⟨-1, rfl, by norm_num⟩

theorem five_rows : ∃ r0 r1 : PboRow,
    computePbo evalSharpe sortPositions fiveStrategies (2 : ℕ) = .ok [r0, r1] ∧
      r0.logit = some (logitOf 1 5) ∧ r1.logit = some (logitOf 2 5) := by
  obtain ⟨t0, t1, u0, u1, c, m0, m1⟩ := five_sets
  obtain ⟨e1, e2⟩ := five_eval
  have a0 : npArgmax [4, 2, 1, 3, -1] = .ok 0 := by
    unfold npArgmax argmaxFrom argmaxFrom argmaxFrom argmaxFrom argmaxFrom; norm_num
  have a1 : npArgmax [1, 4, 2, 3, -1] = .ok 1 := by
    unfold npArgmax argmaxFrom argmaxFrom argmaxFrom argmaxFrom argmaxFrom; norm_num
  obtain ⟨r0, h0, l0⟩ : ∃ r0, pboOne evalSharpe sortPositions fiveStrategies (fiveStrategies.length / 2) [0] =
      .ok r0 ∧ r0.testAssoc = 1 := by
    unfold pboOne
    simp only
    rw [t0, u0, m0, py_bind_ok, m1, py_bind_ok, e1, py_bind_ok, a0, e2]
    exact ⟨_, rfl, rfl⟩
  obtain ⟨r1, h1, l1⟩ : ∃ r1, pboOne evalSharpe sortPositions fiveStrategies (fiveStrategies.length / 2) [1] =
      .ok r1 ∧ r1.testAssoc = 2 := by
    unfold pboOne
    simp only
    rw [t1, u1, m1, py_bind_ok, m0, py_bind_ok, e2, py_bind_ok, a1, e1]
    exact ⟨_, rfl, rfl⟩
  refine ⟨r0, r1, ?_, ?_, ?_⟩
  · unfold computePbo
    rw [if_neg (by decide), if_neg (by decide), if_neg (by decide)]
    have : ((2 : ℕ) : ℤ).toNat = 2 := rfl
    rw [this, c, mapM_cons_py, h0, py_bind_ok, mapM_cons_py, h1]
    rfl
  · obtain ⟨_, _, _, _, h⟩ := pboOne_spec evalSharpe sortPositions sortPositions_isArgsort _ _ _ _ h0 _ _ _ _
      (by rw [t0, m0]) (by rw [t0, u0, m1]) e1 e2 (by norm_num)
    rw [h, l0]
    have : below [1, 4, 2, 3, -1] 1 = 0 + 1 := by
      unfold below
      norm_num [List.countP_cons]
    rw [this]
    exact (logit_pad 0 4 (by norm_num)).2.1
  · obtain ⟨_, _, _, _, h⟩ := pboOne_spec evalSharpe sortPositions sortPositions_isArgsort _ _ _ _ h1 _ _ _ _
      (by rw [t1, m1]) (by rw [t1, u1, m0]) e2 e1 (by norm_num)
    rw [h, l1]
    have : below [4, 2, 1, 3, -1] 2 = 1 + 1 := by
      unfold below
      norm_num [List.countP_cons]
    rw [this]
    exact (logit_pad 1 4 (by norm_num)).2.1

/-- Of two logits the probability is a function of their ratio. -/
theorem two_logits (x1 x2 y1 y2 w w' p p' : ℝ) (hx : x1 < x2) (hy : y1 < y2) (hw : 0 < w)
    (hw' : 0 < w') (h : w ^ 2 * (2 : ℝ) ^ (2 / 5 : ℝ) = (x2 - x1) ^ 2 / 2)
    (h' : w' ^ 2 * (2 : ℝ) ^ (2 / 5 : ℝ) = (y2 - y1) ^ 2 / 2) (hr : x2 * y1 < x1 * y2)
    (hp : p * 2 = normCdf (-x1 / w) + normCdf (-x2 / w))
    (hp' : p' * 2 = normCdf (-y1 / w') + normCdf (-y2 / w')) : p < p' := by
  have hc : (0 : ℝ) < (2 : ℝ) ^ (2 / 5 : ℝ) := Real.rpow_pos_of_pos (by norm_num) _
  have hd : 0 < x2 - x1 := by linarith
  have hd' : 0 < y2 - y1 := by linarith
  have hk : w' * (x2 - x1) = w * (y2 - y1) := by
    have : (w' * (x2 - x1)) ^ 2 = (w * (y2 - y1)) ^ 2 := by
      have : ((w' * (x2 - x1)) ^ 2 - (w * (y2 - y1)) ^ 2) * (2 : ℝ) ^ (2 / 5 : ℝ) = 0 := by
        linear_combination (x2 - x1) ^ 2 * h' - (y2 - y1) ^ 2 * h
      rcases mul_eq_zero.1 this with h0 | h0
      · linarith
      · exact absurd h0 hc.ne'
    exact (pow_left_inj₀ (by positivity) (by positivity) (by norm_num)).1 this
  have g1 : -x1 / w < -y1 / w' := by
    rw [div_lt_div_iff₀ hw hw']
    have : -x1 * w' * (x2 - x1) < -y1 * w * (x2 - x1) := by
      have e : -x1 * w' * (x2 - x1) = -x1 * (w * (y2 - y1)) := by rw [← hk]; ring
      rw [e]
      nlinarith
    exact lt_of_mul_lt_mul_right this hd.le
  have g2 : -x2 / w < -y2 / w' := by
    rw [div_lt_div_iff₀ hw hw']
    have : -x2 * w' * (x2 - x1) < -y2 * w * (x2 - x1) := by
      have e : -x2 * w' * (x2 - x1) = -x2 * (w * (y2 - y1)) := by rw [← hk]; ring
      rw [e]
      nlinarith
    exact lt_of_mul_lt_mul_right this hd.le
  have := normCdf_strictMono g1
  have := normCdf_strictMono g2
  linarith

theorem logit_values : logitOf 0 4 < logitOf 1 4 ∧ logitOf 1 5 < logitOf 2 5 ∧
    logitOf 1 4 * logitOf 1 5 < logitOf 0 4 * logitOf 2 5 := by
  have e1 : logitOf 0 4 = -Real.log 1000 := by
    unfold logitOf
    rw [← Real.log_inv]
    norm_num
  have e2 : logitOf 1 4 = -Real.log (3000 / 1003) := by
    unfold logitOf
    rw [← Real.log_inv]
    norm_num
  have e3 : logitOf 1 5 = -Real.log (1000 / 251) := by
    unfold logitOf
    rw [← Real.log_inv]
    norm_num
  have e4 : logitOf 2 5 = -Real.log (3000 / 2003) := by
    unfold logitOf
    rw [← Real.log_inv]
    norm_num
  rw [e1, e2, e3, e4]
  have l2 := Real.log_two_lt_d9
  have l2' := Real.log_two_gt_d9
  have b1 : 6 < Real.log 1000 := by
    have : Real.log (2 ^ 9) < Real.log 1000 := Real.log_lt_log (by norm_num) (by norm_num)
    rw [Real.log_pow] at this
    push_cast at this
    linarith
  have b2 : Real.log (3000 / 1003) < 1.4 := by
    have : Real.log (3000 / 1003) < Real.log (2 ^ 2) := Real.log_lt_log (by norm_num) (by norm_num)
    rw [Real.log_pow] at this
    push_cast at this
    linarith
  have b2' : 0 < Real.log (3000 / 1003) := Real.log_pos (by norm_num)
  have b3 : Real.log (1000 / 251) < 1.4 := by
    have : Real.log (1000 / 251) < Real.log (2 ^ 2) := Real.log_lt_log (by norm_num) (by norm_num)
    rw [Real.log_pow] at this
    push_cast at this
    linarith
  have b3' : Real.log (3000 / 2003) < Real.log (1000 / 251) := Real.log_lt_log (by norm_num) (by norm_num)
  have b4 : 0.33 < Real.log (3000 / 2003) := by
    have := Real.one_sub_inv_le_log_of_pos (x := 3000 / 2003) (by norm_num)
    norm_num at this ⊢
    linarith
  refine ⟨by linarith, by linarith, ?_⟩
  have h1 : Real.log (3000 / 1003) * Real.log (1000 / 251) < 1.4 * 1.4 :=
    mul_lt_mul'' b2 b3 b2'.le (by linarith)
  have h2 : 6 * 0.33 < Real.log 1000 * Real.log (3000 / 2003) :=
    mul_lt_mul'' b1 b4 (by norm_num) (by norm_num)
  linarith

/-- C236, counterexample: four strategies, of which the one selected is the last and the last but one on the test
rows.  A fifth strategy that is worse moves both logits up, but also closer together, and the kernel gets so much
narrower that more of the estimate lies below 0. -/
theorem C236_probability_counterexample : ¬ PaddingNeverRaises := by
  intro hall
  obtain ⟨g1, g2, g3, g4⟩ := five_hypotheses
  obtain ⟨r0, r1, hr, k0, k1⟩ := five_rows
  obtain ⟨rows, hrows, hf, -⟩ := C236_pad sortPositions sortPositions_isArgsort fiveStrategies 4 (by norm_num) g1 2
    g2 g3 g4 _ hr
  obtain ⟨s0, l', ⟨-, -, j0, hj0, a0, b0, -⟩, hf', rfl⟩ := List.forall₂_cons_right_iff.1 hf
  obtain ⟨s1, l'', ⟨-, -, j1, hj1, a1, b1, -⟩, hf'', rfl⟩ := List.forall₂_cons_right_iff.1 hf'
  rw [List.forall₂_nil_right_iff] at hf''
  subst hf''
  have hj : ∀ j k : ℕ, j < 4 → k < 4 → some (logitOf (k + 1) 5) = some (logitOf (j + 1) (4 + 1)) → j = k :=
    fun j k h1 h2 h3 => ((logit_contract k j 4 h2 h1).2 (Option.some.inj h3)).symm
  have hj0' : j0 = 0 := hj j0 0 hj0 (by norm_num) (k0.symm.trans b0)
  have hj1' : j1 = 1 := hj j1 1 hj1 (by norm_num) (k1.symm.trans b1)
  subst hj0' hj1'
  obtain ⟨v1, v3, v4⟩ := logit_values
  obtain ⟨xs, x1, -, x3⟩ := C161_pbo_partial evalSharpe sortPositions sortPositions_isArgsort _ 2 _ hrows
  obtain ⟨ys, y1, -, y3⟩ := C161_pbo_partial evalSharpe sortPositions sortPositions_isArgsort _ 2 _ hr
  have hinj : Function.Injective (List.map (some : ℝ → Option ℝ)) := List.map_injective_iff.2 (Option.some_injective _)
  have ex : xs = [logitOf 0 4, logitOf 1 4] := hinj (x1.symm.trans (by simp [a0, a1]))
  have ey : ys = [logitOf 1 5, logitOf 2 5] := hinj (y1.symm.trans (by simp [k0, k1]))
  subst ex ey
  obtain ⟨p, w, p1, p2, p3, p4, -⟩ := x3 (by
    rintro ⟨c, hc⟩
    have := hc (logitOf 0 4) (by simp)
    have := hc (logitOf 1 4) (by simp)
    linarith)
  obtain ⟨p', w', q1, q2, q3, q4, -⟩ := y3 (by
    rintro ⟨c, hc⟩
    have := hc (logitOf 1 5) (by simp)
    have := hc (logitOf 2 5) (by simp)
    linarith)
  have hle := hall sortPositions sortPositions_isArgsort fiveStrategies 4 (by norm_num) g1 2 g2 g3 g4 _ _ _ _ p1 q1
  simp only [List.length_cons, List.length_nil, List.map_cons, List.map_nil, List.sum_cons, List.sum_nil,
    Nat.cast_ofNat, zero_add, Nat.reduceAdd, add_zero] at p3 p4 q3 q4
  have := two_logits (logitOf 0 4) (logitOf 1 4) (logitOf 1 5) (logitOf 2 5) w w' p p' v1 v3 p2 q2
    (by linear_combination p3) (by linear_combination q3) v4 p4 q4
  linarith

end FinML.Stats
