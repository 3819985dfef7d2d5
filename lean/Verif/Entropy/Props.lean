import Verif.Entropy.Model
import Verif.Py.Lemmas
import Mathlib.Analysis.SpecialFunctions.Log.Base
import Mathlib.Algebra.BigOperators.Group.List.Basic
import Mathlib.Algebra.Order.BigOperators.Group.List
import Mathlib.Tactic.FieldSimp
import Mathlib.Data.Rat.Floor

/-! # Properties C70, C71 and C137: word frequencies and plug-in entropy -/

set_option linter.unusedSectionVars false

namespace FinML.Entropy

section

variable {α : Type} [DecidableEq α]

/-! ## The dictionary of words -/

theorem addWord_keys (lib : List (List α × List ℕ)) (p : List α × ℕ) :
    (addWord lib p).map Prod.fst =
      if p.1 ∈ lib.map Prod.fst then lib.map Prod.fst else lib.map Prod.fst ++ [p.1] := by
  unfold addWord
  by_cases h : p.1 ∈ lib.map Prod.fst
  · rw [if_pos h, if_pos h, List.map_map]
    apply List.map_congr_left
    intro e _
    by_cases he : e.1 = p.1 <;> simp [he]
  · rw [if_neg h, if_neg h]
    simp

theorem lib_spec (ps : List (List α × ℕ)) :
    ((ps.foldl addWord []).map Prod.fst).Nodup ∧
    (∀ x, x ∈ (ps.foldl addWord []).map Prod.fst ↔ x ∈ ps.map Prod.fst) ∧
    (∀ e ∈ ps.foldl addWord [], e.2 = (ps.filter fun p => p.1 = e.1).map Prod.snd) := by
  induction ps using List.reverseRecOn with
  | nil => simp
  | append_singleton ps p ih =>
    obtain ⟨h1, h2, h3⟩ := ih
    rw [List.foldl_append, List.foldl_cons, List.foldl_nil]
    generalize hl : ps.foldl addWord [] = lib at *
    refine ⟨?_, ?_, ?_⟩
    · rw [addWord_keys]
      by_cases h : p.1 ∈ lib.map Prod.fst
      · rw [if_pos h]; exact h1
      · rw [if_neg h, List.nodup_append']
        refine ⟨h1, by simp, ?_⟩
        intro a ha hb
        rw [List.mem_singleton] at hb
        exact h (hb ▸ ha)
    · intro x
      rw [addWord_keys, List.map_append, List.mem_append]
      by_cases h : p.1 ∈ lib.map Prod.fst
      · rw [if_pos h, h2]
        constructor
        · intro hx; exact Or.inl hx
        · rintro (hx | hx)
          · exact hx
          · simp only [List.map_cons, List.map_nil, List.mem_singleton] at hx
            rw [hx]; exact (h2 _).1 h
      · rw [if_neg h, List.mem_append, h2]
        simp
    · intro e he
      unfold addWord at he
      by_cases h : p.1 ∈ lib.map Prod.fst
      · rw [if_pos h] at he
        obtain ⟨e', he', rfl⟩ := List.mem_map.1 he
        rw [List.filter_append, List.map_append]
        by_cases hc : e'.1 = p.1
        · rw [if_pos hc]
          simp only
          rw [h3 e' he']
          simp [hc]
        · rw [if_neg hc, h3 e' he']
          simp [Ne.symm hc]
      · rw [if_neg h, List.mem_append] at he
        rw [List.filter_append, List.map_append]
        rcases he with he | he
        · have hne : e.1 ≠ p.1 := by
            intro hc
            exact h (hc ▸ List.mem_map.2 ⟨e, he, rfl⟩)
          rw [h3 e he]
          simp [Ne.symm hne]
        · rw [List.mem_singleton] at he
          subst he
          have : (ps.filter fun q => q.1 = p.1) = [] := by
            rw [List.filter_eq_nil_iff]
            intro q hq hq'
            simp only [decide_eq_true_eq] at hq'
            exact h ((h2 _).2 (hq' ▸ List.mem_map.2 ⟨q, hq, rfl⟩))
          simp [this]

/-- The word of length `w` at position `j`. -/
def wordAt (msg : List α) (w j : ℕ) : List α := (msg.drop j).take w

/-- The words of length `w`, in order of position. -/
def words (msg : List α) (w : ℕ) : List (List α) := (List.range (msg.length + 1 - w)).map (wordAt msg w)

theorem pmf_spec (msg : List α) (w : ℕ) :
    ∃ lib : List (List α × List ℕ), wordPmf ℝ msg w = lib.map (fun e => (e.1, (e.2.length : ℝ) / ((msg.length : ℝ) - w + 1))) ∧
      (lib.map Prod.fst).Nodup ∧ (∀ x, x ∈ lib.map Prod.fst ↔ x ∈ words msg w) ∧
      ∀ e ∈ lib, e.2.length = (words msg w).countP (fun y => decide (y = e.1)) := by
  have hps : (List.range' w (msg.length + 1 - w)).foldl
      (fun lib i => addWord lib (slice msg (i - w) i, i - w)) [] =
      ((List.range (msg.length + 1 - w)).map fun j => (wordAt msg w j, j)).foldl addWord [] := by
    rw [List.range'_eq_map_range, List.foldl_map, List.foldl_map]
    congr 1
    funext lib j
    congr 2
    · unfold slice wordAt
      rw [List.drop_take]
      congr 1
      · omega
      · congr 1; omega
    · omega
  obtain ⟨h1, h2, h3⟩ := lib_spec ((List.range (msg.length + 1 - w)).map fun j => (wordAt msg w j, j))
  refine ⟨_, ?_, h1, ?_, ?_⟩
  · unfold wordPmf
    simp only
    rw [hps]
  · intro x
    rw [h2, List.map_map]
    rfl
  · intro e he
    rw [h3 e he, List.length_map, ← List.countP_eq_length_filter, List.countP_map, words, List.countP_map]
    rfl

theorem count_eq_card (msg : List α) (w : ℕ) (x : List α) :
    (words msg w).countP (fun y => decide (y = x)) = (((Finset.range (msg.length + 1 - w)).filter
      fun j => wordAt msg w j = x).card) := by
  rw [words, List.countP_map, List.countP_eq_length_filter]
  rw [Finset.card_def, Finset.filter_val, Finset.range_val, Multiset.range, Multiset.filter_coe,
    Multiset.coe_card]
  rfl

/-- C70.  The table lists each word that occurs exactly once, with its number of occurrences (overlaps
included) divided by the number of positions. -/
theorem C70_frequencies (msg : List α) (w : ℕ) (hw : w ≤ msg.length) :
    ((wordPmf ℝ msg w).map Prod.fst).Nodup ∧
    (∀ x, x ∈ (wordPmf ℝ msg w).map Prod.fst ↔ ∃ j, j + w ≤ msg.length ∧ (msg.drop j).take w = x) ∧
    (∀ e ∈ wordPmf ℝ msg w, e.2 = (((Finset.range (msg.length + 1 - w)).filter
      fun j => (msg.drop j).take w = e.1).card : ℝ) / ((msg.length - w + 1 : ℕ) : ℝ)) := by
  obtain ⟨lib, h1, h2, h3, h4⟩ := pmf_spec msg w
  rw [h1, List.map_map]
  refine ⟨h2, ?_, ?_⟩
  · intro x
    have : (Prod.fst ∘ fun e : List α × List ℕ => (e.1, (e.2.length : ℝ) / ((msg.length : ℝ) - w + 1))) =
        Prod.fst := rfl
    rw [this, h3, words, List.mem_map]
    constructor
    · rintro ⟨j, hj, rfl⟩
      rw [List.mem_range] at hj
      exact ⟨j, by omega, rfl⟩
    · rintro ⟨j, hj, rfl⟩
      exact ⟨j, List.mem_range.2 (by omega), rfl⟩
  · intro e he
    obtain ⟨e', he', rfl⟩ := List.mem_map.1 he
    simp only
    rw [h4 e' he', count_eq_card]
    congr 1
    push_cast [hw]
    ring

theorem pmf_sum (msg : List α) (w : ℕ) (hw : w ≤ msg.length) :
    ((wordPmf ℝ msg w).map Prod.snd).sum = 1 := by
  obtain ⟨lib, h1, h2, h3, h4⟩ := pmf_spec msg w
  have hpos : (0 : ℝ) < (msg.length : ℝ) - w + 1 := by
    have : (w : ℝ) ≤ msg.length := by exact_mod_cast hw
    linarith
  rw [h1, List.map_map]
  have e1 : (lib.map (Prod.snd ∘ fun e : List α × List ℕ =>
      (e.1, (e.2.length : ℝ) / ((msg.length : ℝ) - w + 1)))) =
      ((lib.map Prod.fst).map fun x => (((words msg w).countP (fun y => decide (y = x)) : ℕ) : ℝ)).map
        fun c => c / ((msg.length : ℝ) - w + 1) := by
    rw [List.map_map, List.map_map]
    apply List.map_congr_left
    intro e he
    simp only [Function.comp_apply]
    rw [h4 e he]
  have hperm : (lib.map Prod.fst).Perm (words msg w).dedup := by
    rw [List.perm_ext_iff_of_nodup h2 (List.nodup_dedup _)]
    intro x
    rw [h3, List.mem_dedup]
  have hdiv : ∀ (l : List ℝ) (c : ℝ), (l.map fun x => x / c).sum = l.sum / c := by
    intro l c
    induction l with
    | nil => simp
    | cons a l ih => simp [ih, add_div]
  have hcast : ∀ (l : List (List α)), (l.map fun x => (((words msg w).countP (fun y => decide (y = x)) : ℕ) : ℝ)).sum =
      (((l.map fun x => (words msg w).countP fun y => decide (y = x)).sum : ℕ) : ℝ) := by
    intro l
    induction l with
    | nil => simp
    | cons a l ih => simp [ih]
  rw [e1, hdiv, hcast, (hperm.map _).sum_eq,
    show ((words msg w).dedup.map fun x => (words msg w).countP fun y => decide (y = x)).sum =
      (words msg w).length from List.sum_map_count_dedup_eq_length (words msg w)]
  rw [div_eq_one_iff_eq hpos.ne']
  unfold words
  rw [List.length_map, List.length_range, Nat.sub_add_comm hw]
  push_cast [hw]
  ring

theorem pmf_pos (msg : List α) (w : ℕ) (hw : w ≤ msg.length) (e : List α × ℝ) (he : e ∈ wordPmf ℝ msg w) :
    0 < e.2 := by
  obtain ⟨lib, h1, h2, h3, h4⟩ := pmf_spec msg w
  have hpos : (0 : ℝ) < (msg.length : ℝ) - w + 1 := by
    have : (w : ℝ) ≤ msg.length := by exact_mod_cast hw
    linarith
  rw [h1] at he
  obtain ⟨e', he', rfl⟩ := List.mem_map.1 he
  have : 0 < (words msg w).countP fun y => decide (y = e'.1) := by
    rw [List.countP_pos_iff]
    exact ⟨e'.1, (h3 _).1 (List.mem_map.2 ⟨e', he', rfl⟩), by simp⟩
  simp only
  rw [h4 e' he']
  have : (0 : ℝ) < ((words msg w).countP (fun y => decide (y = e'.1)) : ℕ) := by exact_mod_cast this
  positivity

/-- C70.  The frequencies are positive and sum to 1. -/
theorem C70_distribution (msg : List α) (w : ℕ) (hw : w ≤ msg.length) :
    (∀ e ∈ wordPmf ℝ msg w, 0 < e.2) ∧ ((wordPmf ℝ msg w).map Prod.snd).sum = 1 :=
  ⟨pmf_pos msg w hw, pmf_sum msg w hw⟩

example : wordPmf ℚ "01001".toList 2 = [("01".toList, 1 / 2), ("10".toList, 1 / 4), ("00".toList, 1 / 4)] := by
  decide +kernel

/-! ## C71 -/

theorem entropy_bounds (l : List ℝ) (hpos : ∀ p ∈ l, 0 < p) (hsum : l.sum = 1) :
    0 ≤ -(l.map fun p => p * Real.logb 2 p).sum ∧
    -(l.map fun p => p * Real.logb 2 p).sum ≤ Real.logb 2 l.length ∧
    (-(l.map fun p => p * Real.logb 2 p).sum = 0 ↔ l.length = 1) := by
  have hlog2 : 0 < Real.log 2 := Real.log_pos (by norm_num)
  have hle : ∀ p ∈ l, p ≤ 1 := by
    intro p hp
    rw [← hsum]
    exact List.single_le_sum (fun x hx => (hpos x hx).le) p hp
  have hneg : ∀ (l : List ℝ), -(l.map fun p => p * Real.logb 2 p).sum =
      (l.map fun p => -(p * Real.logb 2 p)).sum := by
    intro l
    induction l with
    | nil => simp
    | cons a l ih =>
      simp only [List.map_cons, List.sum_cons]
      rw [← ih]
      ring
  have hterm : ∀ p ∈ l, 0 ≤ -(p * Real.logb 2 p) := by
    intro p hp
    have : Real.logb 2 p ≤ 0 := Real.logb_nonpos (by norm_num) (hpos p hp).le (hle p hp)
    nlinarith [hpos p hp]
  have hne : l ≠ [] := by
    rintro rfl
    simp at hsum
  have hN : (0 : ℝ) < l.length := by
    have := List.length_pos_iff.2 hne
    exact_mod_cast this
  refine ⟨?_, ?_, ?_⟩
  · rw [hneg]
    apply List.sum_nonneg
    intro x hx
    obtain ⟨p, hp, rfl⟩ := List.mem_map.1 hx
    exact hterm p hp
  · -- Gibbs: log x ≤ x - 1 at x = 1 / (p N)
    have key : ∀ m : List ℝ, (∀ p ∈ m, 0 < p) →
        (m.map fun p => -(p * Real.log p)).sum - m.sum * Real.log l.length ≤
          m.length / (l.length : ℝ) - m.sum := by
      intro m hm
      induction m with
      | nil => simp
      | cons a m ih =>
        have ha := hm a (by simp)
        have h1 := ih fun p hp => hm p (by simp [hp])
        have h2 := Real.log_le_sub_one_of_pos (show 0 < 1 / (a * (l.length : ℝ)) by positivity)
        rw [one_div, Real.log_inv, Real.log_mul ha.ne' hN.ne'] at h2
        have h3 : a * (-(Real.log a + Real.log (l.length : ℝ))) ≤ 1 / (l.length : ℝ) - a := by
          have h4 := mul_le_mul_of_nonneg_left h2 ha.le
          have h5 : a * ((a * (l.length : ℝ))⁻¹ - 1) = 1 / (l.length : ℝ) - a := by
            field_simp
          rw [h5] at h4
          exact h4
        simp only [List.map_cons, List.sum_cons, List.length_cons]
        push_cast
        have h6 : ((m.length : ℝ) + 1) / (l.length : ℝ) = m.length / (l.length : ℝ) + 1 / (l.length : ℝ) := by
          ring
        rw [h6]
        nlinarith
    have h := key l hpos
    rw [hsum, div_self hN.ne', one_mul, sub_self] at h
    rw [hneg]
    have e1 : (l.map fun p => -(p * Real.logb 2 p)).sum = (l.map fun p => -(p * Real.log p)).sum / Real.log 2 := by
      clear h key hsum hpos hle hneg hterm hne hN
      induction l with
      | nil => simp
      | cons a l ih =>
        simp only [List.map_cons, List.sum_cons, ih]
        unfold Real.logb
        ring
    rw [e1, Real.logb]
    apply div_le_div_of_nonneg_right _ hlog2.le
    linarith
  · rw [hneg]
    constructor
    · intro h0
      have hall : ∀ p ∈ l, p = 1 := by
        intro p hp
        have h1 : -(p * Real.logb 2 p) ≤ 0 := by
          rw [← h0]
          apply List.single_le_sum _ _ (List.mem_map.2 ⟨p, hp, rfl⟩)
          intro x hx
          obtain ⟨q, hq, rfl⟩ := List.mem_map.1 hx
          exact hterm q hq
        have h2 := hterm p hp
        have h3 : p * Real.logb 2 p = 0 := by linarith
        rcases mul_eq_zero.1 h3 with h | h
        · exact absurd h (hpos p hp).ne'
        · rw [Real.logb, div_eq_zero_iff] at h
          rcases h with h | h
          · exact Real.eq_one_of_pos_of_log_eq_zero (hpos p hp) h
          · exact absurd h hlog2.ne'
      have : l = List.replicate l.length 1 := List.eq_replicate_iff.2 ⟨rfl, hall⟩
      rw [this, List.sum_replicate, nsmul_eq_mul, mul_one] at hsum
      exact_mod_cast hsum
    · intro h1
      obtain ⟨a, rfl⟩ := List.length_eq_one_iff.1 h1
      simp only [List.sum_cons, List.sum_nil, add_zero] at hsum
      simp [hsum]

/-- C71.  Plug-in entropy is between 0 and `log2` of the number of distinct words over `w`, and is 0
exactly if one word occurs. -/
theorem C71_bounds (msg : List α) (w : ℕ) (h1 : 1 ≤ w) (hw : w ≤ msg.length) (distinct : Finset (List α))
    (hd : ∀ x, x ∈ distinct ↔ ∃ j, j + w ≤ msg.length ∧ (msg.drop j).take w = x) :
    0 ≤ pluginEntropy msg w ∧ pluginEntropy msg w ≤ Real.logb 2 distinct.card / w ∧
    (pluginEntropy msg w = 0 ↔ distinct.card = 1) := by
  have hw0 : (0 : ℝ) < w := by exact_mod_cast h1
  obtain ⟨k1, k2, -⟩ := C70_frequencies msg w hw
  have hcard : distinct.card = (wordPmf ℝ msg w).length := by
    have : distinct = ((wordPmf ℝ msg w).map Prod.fst).toFinset := by
      ext x
      rw [hd, List.mem_toFinset, k2]
    rw [this, List.toFinset_card_of_nodup k1, List.length_map]
  obtain ⟨b1, b2, b3⟩ := entropy_bounds ((wordPmf ℝ msg w).map Prod.snd) (by
      intro p hp
      obtain ⟨e, he, rfl⟩ := List.mem_map.1 hp
      exact pmf_pos msg w hw e he) (pmf_sum msg w hw)
  have e1 : ((wordPmf ℝ msg w).map Prod.snd).map (fun p => p * Real.logb 2 p) =
      (wordPmf ℝ msg w).map fun e => e.2 * Real.logb 2 e.2 := by
    rw [List.map_map]; rfl
  rw [e1] at b1 b2 b3
  rw [List.length_map] at b2 b3
  unfold pluginEntropy
  rw [hcard]
  refine ⟨by positivity, by gcongr, ?_⟩
  rw [div_eq_zero_iff, ← b3]
  constructor
  · rintro (h | h)
    · exact h
    · exact absurd h hw0.ne'
  · exact fun h => Or.inl h

/-- Both bounds are reached: two equally frequent symbols carry one bit each. -/
example : pluginEntropy "01".toList 1 = 1 ∧ pluginEntropy "00".toList 1 = 0 := by
  have h2 : Real.logb 2 (1 / 2) = -1 := by
    rw [one_div, Real.logb_inv, Real.logb_self_eq_one (by norm_num)]
  constructor
  · have : wordPmf ℝ "01".toList 1 = [("0".toList, 1 / 2), ("1".toList, 1 / 2)] := by
      simp [wordPmf, addWord, slice, List.range']
    unfold pluginEntropy
    rw [this]
    simp only [List.map_cons, List.map_nil, List.sum_cons, List.sum_nil, h2]
    norm_num
  · have : wordPmf ℝ "00".toList 1 = [("0".toList, 1)] := by
      simp [wordPmf, addWord, slice, List.range']
    unfold pluginEntropy
    rw [this]
    simp

/-! ## C137 -/

/-- C137, full claim: for a list message the frequency of an element is its share of the list. -/
def ListMessages : Prop := ∀ (msg : List (List Char)) (x : List Char), x ∈ msg →
  (x, (msg.count x : ℚ) / (msg.length : ℚ)) ∈ wordPmf ℚ (stringify msg) 1

/-- C137, counterexample: in `[1, 11]` the element 11 is not a symbol of the joined string. -/
theorem C137_list_messages_counterexample : ¬ ListMessages := by
  intro h
  have := h ["1".toList, "11".toList] "11".toList (by decide)
  revert this
  decide +kernel

/-- C137, what holds: if every element is written with one character, the joined string is the list of
these characters (missing: elements of several characters). -/
theorem C137_list_messages_partial (msg : List (List α)) (h : ∀ x ∈ msg, x.length = 1) :
    (stringify msg).length = msg.length ∧
    ∀ (i : ℕ) x, msg[i]? = some x → ∃ c, x = [c] ∧ (stringify msg)[i]? = some c := by
  unfold stringify
  induction msg with
  | nil => simp
  | cons a msg ih =>
    obtain ⟨c, rfl⟩ := List.length_eq_one_iff.1 (h a (by simp))
    obtain ⟨h1, h2⟩ := ih fun x hx => h x (by simp [hx])
    refine ⟨by simp [h1], ?_⟩
    intro i x hx
    cases i with
    | zero => exact ⟨c, by simpa using hx.symm, by simp⟩
    | succ i =>
      obtain ⟨c', e1, e2⟩ := h2 i x (by simpa using hx)
      exact ⟨c', e1, by simpa using e2⟩

example : stringify ["1".toList, "0".toList, "1".toList] = "101".toList := by decide

end

end FinML.Entropy
