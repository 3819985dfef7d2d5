import Verif.Risk.MissModel
import Verif.Risk.Props

/-! # Probability of failure for returns with missing values (C369) -/

namespace FinML.Risk

/-- C369.  Without missing values the probability is that of C102. -/
theorem C369_complete (returns : List ℝ) (freq target : ℝ) :
    probabilityOfFailureM (returns.map some) freq target = probabilityOfFailure returns freq target := by
  unfold probabilityOfFailureM probabilityOfFailure
  have : (returns.map some).filterMap id = returns := by simp
  rw [List.length_map, this]

/-- Below a threshold of a proper precision, a lower precision looks riskier. -/
theorem score_anti {t p q : ℝ} (ht0 : 0 < t) (ht1 : t < 1) (hp0 : 0 < p) (hpq : p < q) (hq1 : q < 1) :
    (t - q) / (q * (1 - q)) < (t - p) / (p * (1 - p)) := by
  have h1 : 0 < p * (1 - p) := mul_pos hp0 (by linarith)
  have h2 : 0 < q * (1 - q) := mul_pos (by linarith) (by linarith)
  rw [div_lt_div_iff₀ h2 h1]
  have h3 : 0 < t * (1 - p) * (1 - q) + (1 - t) * p * q := by
    have := mul_pos (mul_pos ht0 (by linarith : 0 < 1 - p)) (by linarith : 0 < 1 - q)
    have := mul_pos (mul_pos (by linarith : 0 < 1 - t) hp0) (by linarith : 0 < q)
    linarith
  have h4 := mul_pos (by linarith : 0 < q - p) h3
  nlinarith

/-- C369.  A missing return raises the probability of failure: it counts as a bet that was not won. -/
theorem C369_higher (returns : List (Option ℝ)) (freq target : ℝ) (hf : 0 < freq) (hm : none ∈ returns)
    (hgain : ∃ r, some r ∈ returns ∧ 0 < r) (hloss : ∃ r, some r ∈ returns ∧ r < 0) :
    ∃ x y, probabilityOfFailureM returns freq target = .ok (some x) ∧
      probabilityOfFailure (returns.filterMap id) freq target = .ok (some y) ∧ y < x := by
  obtain ⟨g, hg, hg0⟩ := hgain
  obtain ⟨l, hl, hl0⟩ := hloss
  have hlen : (returns.filterMap id).length < returns.length := by
    refine lt_of_le_of_ne (List.length_filterMap_le _ _) fun h => ?_
    rw [List.length_filterMap_eq_countP, List.countP_eq_length] at h
    simpa using h none hm
  have hne : returns.length ≠ 0 := by omega
  have hgk : g ∈ returns.filterMap id := List.mem_filterMap.2 ⟨some g, hg, rfl⟩
  have hlk : l ∈ returns.filterMap id := List.mem_filterMap.2 ⟨some l, hl, rfl⟩
  unfold probabilityOfFailureM
  rw [if_neg hne]
  simp only []
  generalize hk : returns.filterMap id = known at *
  obtain ⟨q, up, down, hq0, hq1, hd, hu, hqe, hue, hde, hall⟩ := C102_failure_formula known ⟨g, hgk, hg0⟩ ⟨l, hlk, hl0⟩
  obtain ⟨t, ht, hrisk⟩ := hall freq target hf
  obtain ⟨t', ht', h0, h1, _⟩ := requiredPrecision_spec target freq up down hf hd hu
  rw [ht] at ht'
  cases ht'
  have hgm : g ∈ known.filter fun r => 0 < r := List.mem_filter.2 ⟨hgk, by simpa using hg0⟩
  have hlm : l ∈ known.filter fun r => r ≤ 0 := List.mem_filter.2 ⟨hlk, by simpa using hl0.le⟩
  have hmp : meanOpt (known.filter fun r => 0 < r) = some up := by
    unfold meanOpt
    rw [if_neg (List.ne_nil_of_mem hgm), hue]
  have hmn : meanOpt (known.filter fun r => r ≤ 0) = some down := by
    unfold meanOpt
    rw [if_neg (List.ne_nil_of_mem hlm), hde]
  have hpos : (0 : ℝ) < ((known.filter fun r => 0 < r).length : ℝ) := by
    exact_mod_cast List.length_pos_of_mem hgm
  have hkpos : (0 : ℝ) < (known.length : ℝ) := by exact_mod_cast List.length_pos_of_mem hgk
  have hlt : (known.length : ℝ) < (returns.length : ℝ) := by exact_mod_cast hlen
  have hp0 : 0 < ((known.filter fun r => 0 < r).length : ℝ) / (returns.length : ℝ) := div_pos hpos (by linarith)
  have hpq : ((known.filter fun r => 0 < r).length : ℝ) / (returns.length : ℝ) < q := by
    rw [hqe]
    exact div_lt_div_of_pos_left hpos hkpos hlt
  have hs : 0 < ((known.filter fun r => 0 < r).length : ℝ) / (returns.length : ℝ) *
      (1 - ((known.filter fun r => 0 < r).length : ℝ) / (returns.length : ℝ)) := mul_pos hp0 (by linarith)
  refine ⟨_, _, ?_, hrisk, normCdf_strictMono (score_anti h0 h1 hp0 hpq hq1)⟩
  rw [hmp, hmn]
  simp only [Option.bind_some, ht, Except.toOption, cdfAt, if_pos hs]

/-- C369, the full claim: missing returns do not count. -/
def KnownReturnsOnly : Prop :=
  ∀ (returns : List (Option ℝ)) (freq target : ℝ), 0 < freq →
    probabilityOfFailureM returns freq target = probabilityOfFailure (returns.filterMap id) freq target

/-- C369.  A gain, a loss and a missing return. -/
theorem C369_counterexample : ¬ KnownReturnsOnly := by
  intro h
  obtain ⟨x, y, hx, hy, hlt⟩ := C369_higher [some 1, some (-1), none] 1 1 one_pos (by simp) ⟨1, by simp, one_pos⟩
    ⟨-1, by simp, by norm_num⟩
  rw [h _ _ _ one_pos, hy] at hx
  cases hx
  exact lt_irrefl _ hlt

/-- C369.  Missing returns do not count if there are none, or if no bet was won or none lost: then both results are NaN
(missing from the full claim: gains and losses beside missing returns). -/
theorem C369_known_partial (returns : List (Option ℝ)) (freq target : ℝ)
    (h : none ∉ returns ∨ ((∃ r, some r ∈ returns) ∧ ((∀ r, some r ∈ returns → r ≤ 0) ∨ ∀ r, some r ∈ returns → 0 < r))) :
    probabilityOfFailureM returns freq target = probabilityOfFailure (returns.filterMap id) freq target := by
  rcases h with h | ⟨⟨r, hr⟩, h⟩
  · have e : returns = (returns.filterMap id).map some := by
      clear freq target
      induction returns with
      | nil => rfl
      | cons a l ih =>
        cases a with
        | none => simp at h
        | some x =>
          simp only [List.filterMap_cons_some (f := id) (a := some x) rfl, List.map_cons]
          rw [← ih (by simpa using h)]
    conv_lhs => rw [e]
    exact C369_complete _ freq target
  · have hrk : r ∈ returns.filterMap id := List.mem_filterMap.2 ⟨some r, hr, rfl⟩
    have h1 : returns.length ≠ 0 := (List.length_pos_of_mem hr).ne'
    have h2 : (returns.filterMap id).length ≠ 0 := (List.length_pos_of_mem hrk).ne'
    have hmem : ∀ x ∈ returns.filterMap id, some x ∈ returns := by
      intro x hx
      obtain ⟨o, ho, he⟩ := List.mem_filterMap.1 hx
      rw [id_eq] at he
      exact he ▸ ho
    have hz : meanOpt [] = none := if_pos rfl
    unfold probabilityOfFailureM probabilityOfFailure
    rw [if_neg h1, if_neg h2]
    simp only []
    rcases h with h | h
    · have : (returns.filterMap id).filter (fun r => 0 < r) = [] := by
        rw [List.filter_eq_nil_iff]
        intro x hx
        simpa using h x (hmem x hx)
      rw [this, hz]
      simp only [Option.bind_none]
    · have : (returns.filterMap id).filter (fun r => r ≤ 0) = [] := by
        rw [List.filter_eq_nil_iff]
        intro x hx
        simpa using h x (hmem x hx)
      rw [this, hz]
      cases meanOpt ((returns.filterMap id).filter fun r => 0 < r) <;> simp only [Option.bind_none, Option.bind_some]

/-- Two losses and a missing return: NaN both times. -/
example : probabilityOfFailureM [some (-1), none, some (-2)] 10 1 = probabilityOfFailure [-1, -2] 10 1 :=
  C369_known_partial [some (-1), none, some (-2)] 10 1
    (Or.inr ⟨⟨-1, by simp⟩, Or.inl (by simp)⟩)

end FinML.Risk
