import Verif.Entropy.RecodeProps
import Verif.Entropy.ExtremalProps
import Mathlib.Algebra.Order.Floor.Semifield

/-!
# Property C340: merging symbols adds no information

A coarser code gives some symbols of a finer code the same name.
-/

set_option linter.unusedSectionVars false

namespace FinML.Entropy

variable {α β : Type} [DecidableEq α] [DecidableEq β]

/-! ## Plug-in entropy -/

/-- How often the word at position `j` occurs. -/
def occurrences (msg : List α) (w j : ℕ) : ℕ :=
  ((Finset.range (msg.length + 1 - w)).filter fun i => wordAt msg w i = wordAt msg w j).card

/-- The plug-in entropy is the mean of the logarithms of the frequencies over the positions. -/
theorem plugin_positions (msg : List α) (w : ℕ) (hw : w ≤ msg.length) : pluginEntropy msg w =
    -((∑ j ∈ Finset.range (msg.length + 1 - w),
        Real.logb 2 ((occurrences msg w j : ℝ) / ((msg.length - w + 1 : ℕ) : ℝ))) / ((msg.length - w + 1 : ℕ) : ℝ)) / w := by
  obtain ⟨h1, h2, h3⟩ := C70_frequencies msg w hw
  unfold pluginEntropy
  congr 2
  set N : ℝ := ((msg.length - w + 1 : ℕ) : ℝ) with hN
  set s := Finset.range (msg.length + 1 - w) with hs
  let cnt : List α → ℕ := fun x => (s.filter fun i => wordAt msg w i = x).card
  have e1 : (wordPmf ℝ msg w).map (fun e => e.2 * Real.logb 2 e.2) =
      ((wordPmf ℝ msg w).map Prod.fst).map fun x => (cnt x : ℝ) / N * Real.logb 2 ((cnt x : ℝ) / N) := by
    rw [List.map_map]
    apply List.map_congr_left
    intro e he
    have := h3 e he
    show e.2 * Real.logb 2 e.2 = (cnt e.1 : ℝ) / N * Real.logb 2 ((cnt e.1 : ℝ) / N)
    rw [this]
    rfl
  rw [e1, ← List.sum_toFinset _ h1]
  have e2 : ((wordPmf ℝ msg w).map Prod.fst).toFinset = s.image (wordAt msg w) := by
    ext x
    rw [List.mem_toFinset, h2, Finset.mem_image]
    constructor
    · rintro ⟨j, hj, rfl⟩
      exact ⟨j, by rw [hs, Finset.mem_range]; omega, rfl⟩
    · rintro ⟨j, hj, rfl⟩
      rw [hs, Finset.mem_range] at hj
      exact ⟨j, by omega, rfl⟩
  rw [e2]
  have e3 := Finset.sum_comp (s := s) (fun x => Real.logb 2 ((cnt x : ℝ) / N)) (wordAt msg w)
  change ∑ j ∈ s, Real.logb 2 ((occurrences msg w j : ℝ) / N) = _ at e3
  rw [e3, Finset.sum_div]
  apply Finset.sum_congr rfl
  intro x _
  rw [nsmul_eq_mul]
  show (cnt x : ℝ) / N * _ = (cnt x : ℝ) * _ / N
  ring

theorem wordAt_map (g : α → β) (msg : List α) (w j : ℕ) : wordAt (msg.map g) w j = (wordAt msg w j).map g := by
  unfold wordAt
  rw [← List.map_drop, ← List.map_take]

theorem occurrences_map (g : α → β) (msg : List α) (w j : ℕ) : occurrences msg w j ≤ occurrences (msg.map g) w j := by
  unfold occurrences
  rw [List.length_map]
  apply Finset.card_le_card
  intro i hi
  rw [Finset.mem_filter] at hi ⊢
  exact ⟨hi.1, by rw [wordAt_map, wordAt_map, hi.2]⟩

theorem occurrences_pos (msg : List α) (w j : ℕ) (hj : j ∈ Finset.range (msg.length + 1 - w)) :
    0 < occurrences msg w j :=
  Finset.card_pos.2 ⟨j, Finset.mem_filter.2 ⟨hj, rfl⟩⟩

/-- C340, plug-in.  Merging symbols never raises the plug-in entropy; it leaves the entropy unchanged exactly if no two
different words of the message become equal. -/
theorem C340_plugin (g : α → β) (msg : List α) (w : ℕ) (h1 : 1 ≤ w) (hw : w ≤ msg.length) :
    pluginEntropy (msg.map g) w ≤ pluginEntropy msg w ∧
      (pluginEntropy (msg.map g) w = pluginEntropy msg w ↔
        ∀ i j, i + w ≤ msg.length → j + w ≤ msg.length →
          ((msg.drop i).take w).map g = ((msg.drop j).take w).map g → (msg.drop i).take w = (msg.drop j).take w) := by
  have hN : (0 : ℝ) < ((msg.length - w + 1 : ℕ) : ℝ) := by exact_mod_cast Nat.succ_pos _
  have hw0 : (0 : ℝ) < w := by exact_mod_cast h1
  have hterm : ∀ j ∈ Finset.range (msg.length + 1 - w),
      Real.logb 2 ((occurrences msg w j : ℝ) / ((msg.length - w + 1 : ℕ) : ℝ)) ≤
        Real.logb 2 ((occurrences (msg.map g) w j : ℝ) / ((msg.length - w + 1 : ℕ) : ℝ)) := by
    intro j hj
    have hp : (0 : ℝ) < occurrences msg w j := by exact_mod_cast occurrences_pos msg w j hj
    apply Real.logb_le_logb_of_le (by norm_num) (by positivity)
    gcongr
    exact occurrences_map g msg w j
  rw [plugin_positions msg w hw, plugin_positions (msg.map g) w (by rw [List.length_map]; exact hw), List.length_map]
  refine ⟨?_, ?_⟩
  · apply div_le_div_of_nonneg_right _ hw0.le
    rw [neg_le_neg_iff]
    exact div_le_div_of_nonneg_right (Finset.sum_le_sum hterm) hN.le
  · rw [div_left_inj' hw0.ne', neg_inj, div_left_inj' hN.ne', eq_comm, Finset.sum_eq_sum_iff_of_le hterm]
    constructor
    · intro h i j hi hj he
      have hj' : j ∈ Finset.range (msg.length + 1 - w) := Finset.mem_range.2 (by omega)
      have hp : (0 : ℝ) < occurrences msg w j := by exact_mod_cast occurrences_pos msg w j hj'
      have hp' : (0 : ℝ) < occurrences (msg.map g) w j := by
        have := occurrences_map g msg w j
        have h2 : (occurrences msg w j : ℝ) ≤ occurrences (msg.map g) w j := by exact_mod_cast this
        linarith
      have h2 := h j hj'
      have h3 := Real.logb_injOn_pos (by norm_num) (show _ ∈ Set.Ioi (0 : ℝ) from div_pos hp hN)
        (show _ ∈ Set.Ioi (0 : ℝ) from div_pos hp' hN) h2
      rw [div_left_inj' hN.ne', Nat.cast_inj] at h3
      unfold occurrences at h3
      rw [List.length_map] at h3
      have hsub : ((Finset.range (msg.length + 1 - w)).filter fun i => wordAt msg w i = wordAt msg w j) ⊆
          (Finset.range (msg.length + 1 - w)).filter fun i => wordAt (msg.map g) w i = wordAt (msg.map g) w j := by
        intro i hi
        rw [Finset.mem_filter] at hi ⊢
        exact ⟨hi.1, by rw [wordAt_map, wordAt_map, hi.2]⟩
      have h4 := Finset.eq_of_subset_of_card_le hsub h3.ge
      have h5 : i ∈ (Finset.range (msg.length + 1 - w)).filter fun i => wordAt (msg.map g) w i = wordAt (msg.map g) w j :=
        Finset.mem_filter.2 ⟨Finset.mem_range.2 (by omega), by rw [wordAt_map, wordAt_map]; exact he⟩
      rw [← h4] at h5
      exact (Finset.mem_filter.1 h5).2
    · intro h j hj
      congr 3
      unfold occurrences
      rw [List.length_map]
      congr 1
      apply Finset.filter_congr
      intro i hi
      rw [Finset.mem_range] at hi hj
      rw [wordAt_map, wordAt_map]
      exact ⟨fun e => by rw [e], fun e => h i j (by omega) (by omega) e⟩

/-! ## Kontoyiannis entropy -/

theorem longestMatch_map (g : α → β) (msg : List α) (i n : ℕ) (hn : n ≤ i) (hlen : i + n ≤ msg.length) :
    (longestMatch msg i n).1 ≤ (longestMatch (msg.map g) i n).1 := by
  rcases Nat.eq_zero_or_pos n with rfl | hpos
  · exact le_rfl
  · obtain ⟨L, ⟨⟨hL, j, hj1, hj2, hM⟩, -⟩, h2⟩ := C73_longest msg i n hpos hn hlen
    obtain ⟨L', ⟨-, hL'⟩, h2'⟩ := C73_longest (msg.map g) i n hpos hn (by rw [List.length_map]; exact hlen)
    rw [h2, h2']
    apply Nat.succ_le_succ
    refine hL' ⟨hL, j, hj1, hj2, ?_⟩
    rw [← List.map_drop, ← List.map_take, ← List.map_drop, ← List.map_take, hM]

/-- C340, Kontoyiannis.  Merging symbols never raises the estimate of Kontoyiannis, for any window. -/
theorem C340_konto (g : α → β) (msg : List α) (window : Option ℕ) (v : ℝ) (h : kontoEntropy msg window = .ok v) :
    ∃ v', kontoEntropy (msg.map g) window = .ok v' ∧ v' ≤ v := by
  unfold kontoEntropy at h ⊢
  rw [List.length_map]
  simp only at h ⊢
  by_cases h0 : (kontoPoints msg.length window).length = 0
  · rw [if_pos h0] at h; cases h
  rw [if_neg h0] at h ⊢
  refine ⟨_, rfl, ?_⟩
  injection h with h
  rw [← h]
  apply div_le_div_of_nonneg_right _ (Nat.cast_nonneg _)
  apply List.sum_le_sum
  intro p hp
  obtain ⟨h1, h2⟩ := kontoPoints_range _ _ _ hp
  have hpos : 0 < (longestMatch msg p.1 p.2).1 := by unfold longestMatch; simp
  have hlog : 0 ≤ Real.logb 2 ((p.2 : ℝ) + 1) := Real.logb_nonneg (by norm_num) (by
    have : (0 : ℝ) ≤ p.2 := Nat.cast_nonneg _
    linarith)
  apply div_le_div_of_nonneg_left hlog (by exact_mod_cast hpos)
  exact_mod_cast longestMatch_map g msg p.1 p.2 h1 h2

/-! ## Lempel-Ziv -/

/-- C340, the full claim for the dictionary: merging symbols never makes it larger. -/
def CoarserIsSimpler : Prop :=
  ∀ (msg : List Char) (g : Char → Char) (lib lib' : List (List Char)), lempelzivLib msg = .ok lib →
    lempelzivLib (msg.map g) = .ok lib' → lib'.length ≤ lib.length

/-- C340, the claim for the dictionary is false: `bbacba` has three words, `bbabba` has four. -/
theorem C340_lempelziv_counterexample : ¬ CoarserIsSimpler := by
  intro h
  have := h "bbacba".toList (fun c => if c = 'c' then 'b' else c) ["b".toList, "ba".toList, "c".toList]
    ["b".toList, "ba".toList, "bb".toList, "a".toList] (by decide +kernel) (by decide +kernel)
  revert this
  decide +kernel

/-- C340, what holds for the dictionary: it does not grow if no two symbols or all symbols are merged.  Missing: other
mergers, for which the claim is false (`C340_lempelziv_counterexample`). -/
theorem C340_lempelziv_partial (g : α → β) (msg : List α) (lib : List (List α)) (lib' : List (List β))
    (hg : Function.Injective g ∨ ∃ c, ∀ a ∈ msg, g a = c) (h : lempelzivLib msg = .ok lib)
    (h' : lempelzivLib (msg.map g) = .ok lib') : lib'.length ≤ lib.length := by
  rcases hg with hg | ⟨c, hc⟩
  · rw [C169_lempelziv hg, h] at h'
    cases h'
    rw [List.length_map]
  · have hne : msg ≠ [] := by
      rintro rfl
      cases h
    have hm : msg.map g = List.replicate msg.length c := by
      rw [List.eq_replicate_iff]
      refine ⟨List.length_map _, ?_⟩
      intro b hb
      obtain ⟨a, ha, rfl⟩ := List.mem_map.1 hb
      exact hc a ha
    obtain ⟨l0, l1, e1, e2, -, -, e3⟩ := C195_lempelziv c msg hne
    rw [hm, e1] at h'
    rw [h] at e2
    cases h'
    cases e2
    exact e3

example : pluginEntropy ("abcb".toList.map fun c => if c = 'c' then 'b' else c) 1 = pluginEntropy "abbb".toList 1 := by
  congr 1

/-! ## Spacings -/

section Spacing

variable {K : Type} [Field K] [LinearOrder K] [IsStrictOrderedRing K] [FloorRing K]

/-- C340, the full claim for `sigma_encode`: a spacing `k` times as wide gives a code with no more plug-in entropy. -/
def WiderIsSimpler : Prop :=
  ∀ (series : List ℚ) (sigma : ℚ) (k w : ℕ) (code code' : List Char), 0 < sigma → 1 ≤ k → 1 ≤ w → w ≤ series.length →
    sigmaEncode series sigma = .ok code → sigmaEncode series (k * sigma) = .ok code' →
    pluginEntropy code' w ≤ pluginEntropy code w

/-- C340, the claim for `sigma_encode` is false: with the spacing 1 the values 100 and 130 are both beyond the alphabet,
with the spacing 2 they are told apart. -/
theorem C340_spacing_counterexample : ¬ WiderIsSimpler := by
  intro h
  have := h [0, 100, 130] 1 2 1 "0??".toList "0O?".toList (by norm_num) (by norm_num) le_rfl (by simp)
    (by decide +kernel) (by decide +kernel)
  rw [plugin_positions _ _ (by decide), plugin_positions _ _ (by decide)] at this
  have o1 : ∀ j ∈ Finset.range ("0O?".toList.length + 1 - 1), occurrences "0O?".toList 1 j = 1 := by decide +kernel
  have o2 : occurrences "0??".toList 1 0 = 1 ∧ occurrences "0??".toList 1 1 = 2 ∧ occurrences "0??".toList 1 2 = 2 := by
    decide +kernel
  have e1 : ("0O?".toList.length + 1 - 1) = 3 := by decide
  have e2 : ("0??".toList.length + 1 - 1) = 3 := by decide
  have e3 : ("0O?".toList.length - 1 + 1) = 3 := by decide
  have e4 : ("0??".toList.length - 1 + 1) = 3 := by decide
  rw [e1] at o1
  rw [e1, e2, e3, e4, Finset.sum_congr rfl fun j hj => by rw [o1 j hj]] at this
  simp only [Finset.sum_range_succ, Finset.sum_range_zero, o2.1, o2.2.1, o2.2.2] at this
  have hl : Real.logb 2 (((1 : ℕ) : ℝ) / ((3 : ℕ) : ℝ)) < Real.logb 2 (((2 : ℕ) : ℝ) / ((3 : ℕ) : ℝ)) :=
    Real.logb_lt_logb (by norm_num) (by norm_num) (by norm_num)
  generalize Real.logb 2 (((1 : ℕ) : ℝ) / ((3 : ℕ) : ℝ)) = a at *
  generalize Real.logb 2 (((2 : ℕ) : ℝ) / ((3 : ℕ) : ℝ)) = b at *
  push_cast at this
  linarith

theorem sigmaPos_coarse (lo sigma x : K) (k : ℕ) (hs : 0 < sigma) (hx : lo ≤ x) (hx' : x - lo < 63 * sigma) :
    sigmaPos lo (k * sigma) x = sigmaPos lo sigma x / k := by
  unfold sigmaPos
  have h0 : 0 ≤ (x - lo) / sigma := div_nonneg (by linarith) hs.le
  have e : (x - lo) / (k * sigma) = (x - lo) / sigma / (k : K) := by rw [div_div, mul_comm]
  have hb := (floor_bounds _ h0).1
  have hlt : (x - lo) / sigma < 63 := by rw [div_lt_iff₀ hs]; exact hx'
  have h63 : ⌊(x - lo) / sigma⌋.toNat < 63 := by
    have : ((⌊(x - lo) / sigma⌋.toNat : ℕ) : K) < ((63 : ℕ) : K) := by push_cast; linarith
    exact_mod_cast this
  have h62 : ⌊(x - lo) / sigma⌋.toNat ≤ 62 := by omega
  rw [e, min_eq_left h62]
  rw [Int.floor_toNat] at h62
  rw [Int.floor_toNat, Int.floor_toNat, Nat.floor_div_natCast]
  have := Nat.div_le_self ⌊(x - lo) / sigma⌋₊ k
  omega

/-- C340, what holds for `sigma_encode`: the claim if no value is more than the alphabet away from the least one.
Missing: series beyond the alphabet, for which the claim is false (`C340_spacing_counterexample`). -/
theorem C340_spacing_partial (series : List K) (sigma lo : K) (k w : ℕ) (code code' : List Char) (hs : 0 < sigma)
    (hk : 1 ≤ k) (h1 : 1 ≤ w) (hw : w ≤ series.length) (hlo : IsLeast {x | x ∈ series} lo)
    (hhi : ∀ x ∈ series, x - lo < 63 * sigma) (h : sigmaEncode series sigma = .ok code)
    (h' : sigmaEncode series (k * sigma) = .ok code') : pluginEntropy code' w ≤ pluginEntropy code w := by
  have hk0 : (0 : K) < k := by exact_mod_cast hk
  have hfa : (fullAlphabet ++ ['?']).length = 63 := by decide
  have hnd : (fullAlphabet ++ ['?']).Nodup := by decide
  rw [sigmaEncode_eq _ _ _ hs hlo, Except.ok.injEq] at h
  rw [sigmaEncode_eq _ _ _ (mul_pos hk0 hs) hlo, Except.ok.injEq] at h'
  have hc : code' = code.map fun ch => (fullAlphabet ++ ['?']).getD ((fullAlphabet ++ ['?']).idxOf ch / k) ' ' := by
    rw [← h, ← h', List.map_map]
    apply List.map_congr_left
    intro x hx
    have hp : sigmaPos lo sigma x < (fullAlphabet ++ ['?']).length := by rw [hfa]; unfold sigmaPos; omega
    show _ = (fullAlphabet ++ ['?']).getD ((fullAlphabet ++ ['?']).idxOf
      ((fullAlphabet ++ ['?']).getD (sigmaPos lo sigma x) ' ') / k) ' '
    rw [sigmaPos_coarse lo sigma x k hs (hlo.2 hx) (hhi x hx), List.getD_eq_getElem _ _ hp, hnd.idxOf_getElem]
  rw [hc]
  refine (C340_plugin _ code w h1 ?_).1
  rw [← h, List.length_map]
  exact hw

example : sigmaEncode [0, 1, 2, (3 : ℚ)] 1 = .ok "0123".toList ∧ sigmaEncode [0, 1, 2, (3 : ℚ)] ((2 : ℕ) * 1) = .ok "0011".toList := by
  decide +kernel

end Spacing

end FinML.Entropy
