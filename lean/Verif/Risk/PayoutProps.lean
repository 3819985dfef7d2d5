import Verif.Risk.Props
import Mathlib.Data.List.Forall2

/-! # Better payouts (C259) -/

namespace FinML.Risk

theorem bet_eq {p freq profit loss : ℝ} (hp0 : 0 < p) (hp1 : p < 1) (hf : 0 ≤ freq) (hd : loss < profit) :
    betSharpe p freq profit loss = (p + loss / (profit - loss)) / √(p * (1 - p)) * √freq := by
  have h := (C102_bets p freq profit loss hp0 hp1 hf hd).symm.trans (strategySharpe_eq p freq profit loss hp0 hp1 hf hd)
  rw [Except.ok.inj h]
  have hΔ : profit - loss ≠ 0 := by intro h; linarith
  have hs : √(p * (1 - p)) ≠ 0 := (Real.sqrt_pos.2 (mul_pos hp0 (by linarith))).ne'
  congr 1
  field_simp

theorem bet_precision {p q freq profit loss : ℝ} (hp0 : 0 < p) (hpq : p < q) (hq1 : q < 1) (hf : 0 < freq)
    (hl : loss < 0) (hpr : 0 < profit) : betSharpe p freq profit loss < betSharpe q freq profit loss := by
  obtain ⟨x, y, hx, hy, hxy⟩ := C102_sharpe_increasing p q freq profit loss hp0 hpq hq1 hf hl hpr
  rw [C102_bets p freq profit loss hp0 (hpq.trans hq1) hf.le (by linarith)] at hx
  rw [C102_bets q freq profit loss (hp0.trans hpq) hq1 hf.le (by linarith)] at hy
  rw [Except.ok.inj hx, Except.ok.inj hy]
  exact hxy

theorem bet_payout {p freq profit profit' loss loss' : ℝ} (hp0 : 0 < p) (hp1 : p < 1) (hf : 0 < freq)
    (hpr : 0 < profit) (hpp : profit ≤ profit') (hll : loss ≤ loss') (hl : loss' < 0)
    (hne : profit < profit' ∨ loss < loss') :
    betSharpe p freq profit loss < betSharpe p freq profit' loss' := by
  rw [bet_eq hp0 hp1 hf.le (by linarith), bet_eq hp0 hp1 hf.le (by linarith)]
  refine mul_lt_mul_of_pos_right ?_ (Real.sqrt_pos.2 hf)
  refine div_lt_div_of_pos_right ?_ (Real.sqrt_pos.2 (mul_pos hp0 (by linarith)))
  have : loss / (profit - loss) < loss' / (profit' - loss') := by
    rw [div_lt_div_iff₀ (by linarith) (by linarith)]
    rcases hne with h | h
    · nlinarith
    · nlinarith
  linarith

/-- C259: a larger profit or a smaller loss lowers the precision that is required, whatever the target. -/
theorem C259_precision {target freq profit profit' loss loss' p p' : ℝ} (hf : 0 < freq) (hpr : 0 < profit)
    (hpp : profit ≤ profit') (hll : loss ≤ loss') (hl : loss' < 0) (hne : profit < profit' ∨ loss < loss')
    (hp : requiredPrecision target freq profit loss = .ok p)
    (hp' : requiredPrecision target freq profit' loss' = .ok p') : p' < p := by
  obtain ⟨x, h1, h2, h3, -, h4, -⟩ := C100_required_precision target freq profit loss hf (by linarith) hpr
  obtain ⟨x', h1', h2', h3', -, h4', -⟩ := C100_required_precision target freq profit' loss' hf hl (by linarith)
  obtain rfl := Except.ok.inj (hp.symm.trans h1)
  obtain rfl := Except.ok.inj (hp'.symm.trans h1')
  by_contra hc
  have a := bet_payout h2 h3 hf hpr hpp hll hl hne
  rcases (not_lt.1 hc).eq_or_lt with e | e
  · rw [← e, ← h4] at h4'
    linarith
  · have := bet_precision h2 e h3' hf hl (hpr.trans_le hpp)
    linarith

/-- C259: a higher precision, a larger profit or a smaller loss lowers the number of bets that are required
for a positive target, if the bets gain on average. -/
theorem C259_freq {target p p' profit profit' loss loss' f f' : ℝ} (ht : 0 < target) (hp0 : 0 < p)
    (hpp' : p ≤ p') (hp1 : p' < 1) (hpr : 0 < profit) (hpp : profit ≤ profit') (hll : loss ≤ loss') (hl : loss' < 0)
    (hne : p < p' ∨ profit < profit' ∨ loss < loss') (hm : 0 < p * profit + (1 - p) * loss)
    (hf : requiredFreq target p profit loss = .ok (some f))
    (hf' : requiredFreq target p' profit' loss' = .ok (some f')) : f' < f := by
  have hm' : 0 < p' * profit' + (1 - p') * loss' := by
    have a : p * profit ≤ p' * profit' := mul_le_mul hpp' hpp hpr.le (by linarith)
    have b : (1 - p) * loss ≤ (1 - p') * loss' := by nlinarith
    linarith
  obtain ⟨r, h1, h2, -⟩ := C101_required_freq target p profit loss hp0 (by linarith) (by linarith)
    (by intro h; linarith)
  obtain ⟨r', h1', h2', -⟩ := C101_required_freq target p' profit' loss' (by linarith) hp1 (by linarith)
    (by intro h; linarith)
  obtain rfl := Except.ok.inj (hf.symm.trans h1)
  obtain rfl := Except.ok.inj (hf'.symm.trans h1')
  obtain ⟨x, e, hx0, hx⟩ := h2 (mul_pos ht hm).le
  obtain rfl := Option.some.inj e
  obtain ⟨x', e', hx0', hx'⟩ := h2' (mul_pos ht hm').le
  obtain rfl := Option.some.inj e'
  have hfp : 0 < f := by
    rcases hx0.eq_or_lt with h | h
    · rw [← h] at hx; unfold betSharpe at hx; rw [Real.sqrt_zero, mul_zero] at hx; linarith
    · exact h
  by_contra hc
  have hff := not_lt.1 hc
  have s1 : betSharpe p f profit loss ≤ betSharpe p f' profit loss := by
    rw [bet_eq hp0 (by linarith) hx0 (by linarith), bet_eq hp0 (by linarith) hx0' (by linarith)] at *
    refine mul_le_mul_of_nonneg_left (Real.sqrt_le_sqrt hff) ?_
    by_contra hneg
    have := mul_nonpos_of_nonpos_of_nonneg (not_le.1 hneg).le (Real.sqrt_nonneg f)
    linarith
  have hfp' : 0 < f' := by linarith
  have s2 : betSharpe p f' profit loss ≤ betSharpe p' f' profit loss ∧
      (p < p' → betSharpe p f' profit loss < betSharpe p' f' profit loss) := by
    rcases hpp'.eq_or_lt with h | h
    · subst h; exact ⟨le_refl _, fun h => absurd h (lt_irrefl _)⟩
    · have := bet_precision hp0 h hp1 hfp' (by linarith : loss < 0) hpr
      exact ⟨this.le, fun _ => this⟩
  have s3 : betSharpe p' f' profit loss ≤ betSharpe p' f' profit' loss' ∧
      (profit < profit' ∨ loss < loss' → betSharpe p' f' profit loss < betSharpe p' f' profit' loss') := by
    by_cases h : profit < profit' ∨ loss < loss'
    · have := bet_payout (by linarith : 0 < p') hp1 hfp' hpr hpp hll hl h
      exact ⟨this.le, fun _ => this⟩
    · push Not at h
      rw [le_antisymm hpp h.1, le_antisymm hll h.2]
      exact ⟨le_refl _, fun h => absurd h (by simp)⟩
  rcases hne with h | h
  · have := s2.2 h
    linarith [s3.1]
  · have := s3.2 h
    linarith [s2.1]

/-! ## The probability of failure -/

/-- C259, full claim: raising returns never raises the probability of failure. -/
def HigherNeverWorse : Prop := ∀ (returns returns' : List ℝ) (freq target x x' : ℝ), 0 < freq → 0 ≤ target →
  List.Forall₂ (fun r r' => r ≤ r') returns returns' →
  probabilityOfFailure returns freq target = .ok (some x) →
  probabilityOfFailure returns' freq target = .ok (some x') → x' ≤ x

/-- C259, counterexample: four gains of 1, a return of 0 and a loss of 3; raising the 0 to 0.1 lowers the mean
gain and the mean loss so much that the probability of failure rises. -/
theorem C259_higher_counterexample : ¬ HigherNeverWorse := by
  intro hc
  have hg : ∃ r ∈ ([1, 1, 1, 1, 0, -3] : List ℝ), 0 < r := ⟨1, by simp, by norm_num⟩
  have hl : ∃ r ∈ ([1, 1, 1, 1, 0, -3] : List ℝ), r < 0 := ⟨-3, by simp, by norm_num⟩
  have hg' : ∃ r ∈ ([1, 1, 1, 1, 1 / 10, -3] : List ℝ), 0 < r := ⟨1, by simp, by norm_num⟩
  have hl' : ∃ r ∈ ([1, 1, 1, 1, 1 / 10, -3] : List ℝ), r < 0 := ⟨-3, by simp, by norm_num⟩
  obtain ⟨p, up, down, -, -, -, -, e1, e2, e3, hfail⟩ := C102_failure_formula _ hg hl
  obtain ⟨p', up', down', -, -, -, -, e1', e2', e3', hfail'⟩ := C102_failure_formula _ hg' hl'
  obtain ⟨th, h1, h2⟩ := hfail 1 (1 / 2) (by norm_num)
  obtain ⟨th', h1', h2'⟩ := hfail' 1 (1 / 2) (by norm_num)
  have h3 := hc _ _ _ _ _ _ (by norm_num) (by norm_num)
    (.cons (by norm_num) (.cons (by norm_num) (.cons (by norm_num) (.cons (by norm_num)
      (.cons (by norm_num) (.cons (by norm_num) .nil)))))) h2 h2'
  have f1 : ([1, 1, 1, 1, 0, -3] : List ℝ).filter (fun r => 0 < r) = [1, 1, 1, 1] := by norm_num [List.filter]
  have f2 : ([1, 1, 1, 1, 0, -3] : List ℝ).filter (fun r => r ≤ 0) = [0, -3] := by norm_num [List.filter]
  have f1' : ([1, 1, 1, 1, 1 / 10, -3] : List ℝ).filter (fun r => 0 < r) = [1, 1, 1, 1, 1 / 10] := by
    norm_num [List.filter]
  have f2' : ([1, 1, 1, 1, 1 / 10, -3] : List ℝ).filter (fun r => r ≤ 0) = [-3] := by norm_num [List.filter]
  rw [f1] at e1 e2
  rw [f2] at e3
  rw [f1'] at e1' e2'
  rw [f2'] at e3'
  norm_num at e1 e2 e3 e1' e2' e3'
  subst e1 e2 e3 e1' e2' e3'
  obtain ⟨y, k1, k2, k3, -, -, k4, k5⟩ := C100_required_precision (1 / 2) 1 1 (-(3 / 2)) (by norm_num) (by norm_num)
    (by norm_num)
  obtain ⟨y', k1', k2', k3', -, -, k4', k5'⟩ := C100_required_precision (1 / 2) 1 (41 / 50) (-3) (by norm_num)
    (by norm_num) (by norm_num)
  obtain rfl := Except.ok.inj (h1.symm.trans k1)
  obtain rfl := Except.ok.inj (h1'.symm.trans k1')
  have t1 : th = 4 / 5 := by
    refine (k5 (4 / 5) (by norm_num) (by norm_num) ?_).symm
    rw [bet_eq (by norm_num) (by norm_num) (by norm_num) (by norm_num)]
    rw [show (4 / 5 : ℝ) * (1 - 4 / 5) = (2 / 5) ^ 2 by norm_num, Real.sqrt_sq (by norm_num)]
    norm_num [abs_of_pos]
  have t2 : 11 / 12 < th' := by
    by_contra hle
    have hb : betSharpe (11 / 12) 1 (41 / 50) (-3) < 1 / 2 := by
      rw [bet_eq (by norm_num) (by norm_num) (by norm_num) (by norm_num), Real.sqrt_one, mul_one]
      rw [div_lt_iff₀ (Real.sqrt_pos.2 (by norm_num))]
      have : (27 / 100 : ℝ) < √(11 / 12 * (1 - 11 / 12)) := by
        rw [Real.lt_sqrt (by norm_num)]; norm_num
      norm_num at this ⊢
      linarith
    have k6 := k4' (by norm_num)
    rcases (not_lt.1 hle).eq_or_lt with h | h
    · rw [h] at k6; linarith
    · have := bet_precision k2' h (by norm_num) (by norm_num : (0 : ℝ) < 1) (by norm_num : (-3 : ℝ) < 0)
        (by norm_num : (0 : ℝ) < 41 / 50)
      linarith
  have h4 := normCdf_strictMono.le_iff_le.1 h3
  rw [t1] at h4
  norm_num at h4
  linarith

theorem forall₂_parts {l l' : List ℝ} (h : List.Forall₂ (fun r r' => r ≤ r' ∧ (0 < r ↔ 0 < r')) l l') :
    l.length = l'.length ∧
    (l.filter fun r => 0 < r).length = (l'.filter fun r => 0 < r).length ∧
    (l.filter fun r => r ≤ 0).length = (l'.filter fun r => r ≤ 0).length ∧
    (l.filter fun r => 0 < r).sum ≤ (l'.filter fun r => 0 < r).sum ∧
    (l.filter fun r => r ≤ 0).sum ≤ (l'.filter fun r => r ≤ 0).sum ∧
    (l ≠ l' → (l.filter fun r => 0 < r).sum < (l'.filter fun r => 0 < r).sum ∨
      (l.filter fun r => r ≤ 0).sum < (l'.filter fun r => r ≤ 0).sum) := by
  induction h with
  | nil => simp
  | @cons a b l l' hab _ ih =>
    obtain ⟨i0, i1, i2, i3, i4, i5⟩ := ih
    obtain ⟨hle, hiff⟩ := hab
    by_cases ha : 0 < a
    · have hb := hiff.1 ha
      rw [List.filter_cons_of_pos (by simpa using ha), List.filter_cons_of_pos (by simpa using hb),
        List.filter_cons_of_neg (by simpa using ha), List.filter_cons_of_neg (by simpa using hb)]
      refine ⟨by simpa using i0, by simpa using i1, i2, by simp only [List.sum_cons]; linarith, i4, fun hne => ?_⟩
      simp only [List.sum_cons]
      rcases hle.eq_or_lt with rfl | h
      · rcases i5 (fun e => hne (by rw [e])) with h | h
        · exact .inl (by linarith)
        · exact .inr h
      · exact .inl (by linarith)
    · have hb : ¬ 0 < b := fun h => ha (hiff.2 h)
      rw [List.filter_cons_of_neg (by simpa using ha), List.filter_cons_of_neg (by simpa using hb),
        List.filter_cons_of_pos (by simpa using ha), List.filter_cons_of_pos (by simpa using hb)]
      refine ⟨by simpa using i0, i1, by simpa using i2, i3, by simp only [List.sum_cons]; linarith, fun hne => ?_⟩
      simp only [List.sum_cons]
      rcases hle.eq_or_lt with rfl | h
      · rcases i5 (fun e => hne (by rw [e])) with h | h
        · exact .inl h
        · exact .inr (by linarith)
      · exact .inr (by linarith)

/-- C259, what holds: if returns are raised, none of them from a loss (or zero) to a gain, the probability of
failure falls, strictly unless nothing is changed (missing: losses that turn into gains, which can raise it). -/
theorem C259_higher_partial {returns returns' : List ℝ} {freq target x x' : ℝ} (hf : 0 < freq)
    (hgain : ∃ r ∈ returns, 0 < r) (hloss : ∃ r ∈ returns', r < 0)
    (hle : List.Forall₂ (fun r r' => r ≤ r' ∧ (0 < r ↔ 0 < r')) returns returns')
    (hx : probabilityOfFailure returns freq target = .ok (some x))
    (hx' : probabilityOfFailure returns' freq target = .ok (some x')) :
    x' ≤ x ∧ (returns ≠ returns' → x' < x) := by
  have hgain' : ∃ r ∈ returns', 0 < r := by
    obtain ⟨r, hr, h0⟩ := hgain
    obtain ⟨i, hi, rfl⟩ := List.mem_iff_getElem.1 hr
    have hi' : i < returns'.length := by rw [← hle.length_eq]; exact hi
    exact ⟨returns'[i], List.getElem_mem _, ((List.forall₂_iff_get.1 hle).2 i hi hi').2.1 h0⟩
  have hloss' : ∃ r ∈ returns, r < 0 := by
    obtain ⟨r, hr, h0⟩ := hloss
    obtain ⟨i, hi, rfl⟩ := List.mem_iff_getElem.1 hr
    have hi' : i < returns.length := by rw [hle.length_eq]; exact hi
    exact ⟨returns[i], List.getElem_mem _, lt_of_le_of_lt ((List.forall₂_iff_get.1 hle).2 i hi' hi).1 h0⟩
  obtain ⟨p, up, down, hp0, hp1, hd, hu, e1, e2, e3, hfail⟩ := C102_failure_formula returns hgain hloss'
  obtain ⟨p', up', down', -, -, hd', hu', e1', e2', e3', hfail'⟩ := C102_failure_formula returns' hgain' hloss
  obtain ⟨i0, i1, i2, i3, i4, i5⟩ := forall₂_parts hle
  obtain ⟨th, h1, h2⟩ := hfail freq target hf
  obtain ⟨th', h1', h2'⟩ := hfail' freq target hf
  have hpp : p' = p := by rw [e1, e1', i0, i1]
  subst hpp
  have hx2 := Option.some.inj (Except.ok.inj (hx.symm.trans h2))
  have hx2' := Option.some.inj (Except.ok.inj (hx'.symm.trans h2'))
  have hpos : 0 < p' * (1 - p') := mul_pos hp0 (by linarith)
  have hlp : (0 : ℝ) < ((returns'.filter fun r => 0 < r).length : ℝ) := by
    obtain ⟨r, hr, h0⟩ := hgain'
    exact_mod_cast List.length_pos_of_mem (List.mem_filter.2 ⟨hr, by simpa using h0⟩)
  have hln : (0 : ℝ) < ((returns'.filter fun r => r ≤ 0).length : ℝ) := by
    obtain ⟨r, hr, h0⟩ := hloss
    exact_mod_cast List.length_pos_of_mem (List.mem_filter.2 ⟨hr, by simpa using h0.le⟩)
  rw [i1] at e2
  rw [i2] at e3
  have hstrict : returns ≠ returns' → x' < x := by
    intro hne
    have hth : th' < th := by
      refine C259_precision hf hu ?_ ?_ hd' ?_ h1 h1'
      · rw [e2, e2']; exact div_le_div_of_nonneg_right i3 hlp.le
      · rw [e3, e3']; exact div_le_div_of_nonneg_right i4 hln.le
      · rcases i5 hne with h | h
        · left; rw [e2, e2']; exact div_lt_div_of_pos_right h hlp
        · right; rw [e3, e3']; exact div_lt_div_of_pos_right h hln
    rw [hx2, hx2']
    exact normCdf_strictMono (div_lt_div_of_pos_right (by linarith) hpos)
  refine ⟨?_, hstrict⟩
  by_cases he : returns = returns'
  · subst he
    rw [Option.some.inj (Except.ok.inj (hx.symm.trans hx'))]
  · exact (hstrict he).le

/-- The hypotheses of C259 can be met: a gain that grows and a loss that shrinks. -/
example : ∃ x x' : ℝ, probabilityOfFailure [1, 1, -1] 52 1 = .ok (some x) ∧
    probabilityOfFailure [1, 2, -1 / 2] 52 1 = .ok (some x') ∧ x' < x := by
  have hg : ∃ r ∈ ([1, 1, -1] : List ℝ), 0 < r := ⟨1, by simp, by norm_num⟩
  have hl : ∃ r ∈ ([1, 1, -1] : List ℝ), r < 0 := ⟨-1, by simp, by norm_num⟩
  have hg' : ∃ r ∈ ([1, 2, -1 / 2] : List ℝ), 0 < r := ⟨1, by simp, by norm_num⟩
  have hl' : ∃ r ∈ ([1, 2, -1 / 2] : List ℝ), r < 0 := ⟨-1 / 2, by simp, by norm_num⟩
  obtain ⟨x, h1, -⟩ := (C102_failure_partial _ hg hl).1 52 1 (by norm_num)
  obtain ⟨x', h1', -⟩ := (C102_failure_partial _ hg' hl').1 52 1 (by norm_num)
  refine ⟨x, x', h1, h1', (C259_higher_partial (by norm_num) hg hl' ?_ h1 h1').2 (by norm_num)⟩
  exact .cons (by norm_num) (.cons (by norm_num) (.cons (by norm_num) .nil))

end FinML.Risk
