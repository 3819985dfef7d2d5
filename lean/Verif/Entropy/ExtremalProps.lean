import Verif.Entropy.LzProps
import Verif.Entropy.Props

/-! # Properties C195, C196: constant messages are the least complex, direction of reading -/

set_option linter.unusedSectionVars false

namespace FinML.Entropy

variable {α β : Type} [DecidableEq α] [DecidableEq β]

/-! ## C195 -/

theorem word_length_le {lib : List (List α)}
    (hp : ∀ (k : ℕ) x, lib[k]? = some x → ∀ l, 1 ≤ l → l < x.length → x.take l ∈ lib.take k)
    (k : ℕ) (x : List α) (hx : lib[k]? = some x) : x.length ≤ k + 1 := by
  induction k using Nat.strong_induction_on generalizing x with
  | _ k ih =>
    rcases Nat.lt_or_ge x.length 2 with h | h
    · omega
    · have hm := hp k x hx (x.length - 1) (by omega) (by omega)
      obtain ⟨j, hj⟩ := List.mem_iff_getElem?.1 hm
      have hjk : j < k := by
        have := (List.getElem?_eq_some_iff.1 hj).1
        rw [List.length_take] at this
        omega
      rw [List.getElem?_take_of_lt hjk] at hj
      have := ih j hjk _ hj
      rw [List.length_take] at this
      omega

theorem flatten_take_succ {lib : List (List α)} (m : ℕ) (x : List α) (hx : lib[m]? = some x) :
    (lib.take (m + 1)).flatten.length = (lib.take m).flatten.length + x.length := by
  rw [List.take_add_one, hx]
  simp

theorem flatten_length_le {lib : List (List α)} (h : ∀ (k : ℕ) x, lib[k]? = some x → x.length ≤ k + 1)
    (m : ℕ) (hm : m ≤ lib.length) : 2 * (lib.take m).flatten.length ≤ m * (m + 1) := by
  induction m with
  | zero => simp
  | succ m ih =>
    have hx : lib[m]? = some lib[m] := List.getElem?_eq_getElem (by omega)
    rw [flatten_take_succ m _ hx]
    have := h m _ hx
    have := ih (by omega)
    nlinarith

theorem flatten_length_eq {lib : List (List α)} (h : ∀ (k : ℕ) x, lib[k]? = some x → x.length = k + 1)
    (m : ℕ) (hm : m ≤ lib.length) : 2 * (lib.take m).flatten.length = m * (m + 1) := by
  induction m with
  | zero => simp
  | succ m ih =>
    have hx : lib[m]? = some lib[m] := List.getElem?_eq_getElem (by omega)
    rw [flatten_take_succ m _ hx]
    have := h m _ hx
    have := ih (by omega)
    nlinarith

theorem lz_length_bound (msg : List α) (lib : List (List α)) (h : lempelzivLib msg = .ok lib) :
    2 * msg.length ≤ lib.length * (lib.length + 3) := by
  cases msg with
  | nil => cases h
  | cons c msg =>
    obtain ⟨lib', tail, h1, -, -, -, h5, h6, h7⟩ := C72_dictionary c msg
    rw [h] at h1
    cases h1
    have hw := fun k x => word_length_le h7 k x
    have hf := flatten_length_le hw lib.length le_rfl
    rw [List.take_length] at hf
    have ht : tail.length ≤ lib.length := by
      rcases h6 with rfl | h6
      · simp
      · obtain ⟨k, hk⟩ := List.mem_iff_getElem?.1 h6
        have := hw k _ hk
        have := (List.getElem?_eq_some_iff.1 hk).1
        omega
    have hl := congrArg List.length h5
    rw [List.length_append] at hl
    nlinarith

theorem lz_constant (c : α) (n : ℕ) (lib : List (List α))
    (h : lempelzivLib (List.replicate n c) = .ok lib) : lib.length * (lib.length + 1) ≤ 2 * n := by
  cases n with
  | zero => cases h
  | succ n =>
    rw [List.replicate_succ] at h
    obtain ⟨lib', tail, h1, -, h3, h4, h5, h6, h7⟩ := C72_dictionary c (List.replicate n c)
    rw [h] at h1
    cases h1
    have hrep : ∀ x ∈ lib, x = List.replicate x.length c := by
      intro x hx
      rw [List.eq_replicate_iff]
      refine ⟨rfl, ?_⟩
      intro b hb
      have : b ∈ lib.flatten ++ tail := by
        rw [List.mem_append, List.mem_flatten]
        exact Or.inl ⟨x, hx, hb⟩
      rw [h5, ← List.replicate_succ] at this
      exact List.eq_of_mem_replicate this
    have hlen : ∀ (k : ℕ) x, lib[k]? = some x → x.length = k + 1 := by
      intro k
      induction k using Nat.strong_induction_on with
      | _ k ih =>
        intro x hx
        have hle := word_length_le h7 k x hx
        have hmem := List.mem_of_getElem? hx
        have hk := (List.getElem?_eq_some_iff.1 hx).1
        by_contra hne
        have hpos := List.length_pos_iff.2 (h4 x hmem)
        have hj : lib[x.length - 1]? = some (lib[x.length - 1]'(by omega)) :=
          List.getElem?_eq_getElem (by omega)
        have hjl := ih (x.length - 1) (by omega) _ hj
        have heq : lib[x.length - 1]'(by omega) = x := by
          refine (hrep _ (List.mem_of_getElem? hj)).trans ?_
          rw [hjl, Nat.sub_add_cancel hpos]
          exact (hrep x hmem).symm
        rw [heq] at hj
        have := (List.getElem?_inj hk h3).1 (hx.trans hj.symm)
        omega
    have hf := flatten_length_eq hlen lib.length le_rfl
    rw [List.take_length] at hf
    have hl := congrArg List.length h5
    rw [List.length_append, List.length_cons, List.length_replicate] at hl
    omega

/-- C195, Lempel-Ziv.  The dictionary of a constant message of length `n` has `k` words, where
`k(k+1)/2 ≤ n < (k+1)(k+2)/2`; no message of that length, over any alphabet, has fewer. -/
theorem C195_lempelziv (c : β) (msg : List α) (hne : msg ≠ []) :
    ∃ lib₀ lib, lempelzivLib (List.replicate msg.length c) = .ok lib₀ ∧ lempelzivLib msg = .ok lib ∧
      lib₀.length * (lib₀.length + 1) ≤ 2 * msg.length ∧
      2 * msg.length < (lib₀.length + 1) * (lib₀.length + 2) ∧ lib₀.length ≤ lib.length := by
  obtain ⟨a, m, rfl⟩ := List.exists_cons_of_ne_nil hne
  obtain ⟨lib, tail, h1, -⟩ := C72_dictionary a m
  obtain ⟨lib₀, tail₀, g1, -⟩ := C72_dictionary c (List.replicate m.length c)
  rw [← List.replicate_succ, ← List.length_cons (a := a)] at g1
  have b1 := lz_length_bound _ _ h1
  have b2 := lz_length_bound _ _ g1
  have b3 := lz_constant _ _ _ g1
  rw [List.length_replicate] at b2
  refine ⟨lib₀, lib, g1, h1, b3, by nlinarith, ?_⟩
  by_contra hlt
  push Not at hlt
  nlinarith

theorem longestMatch_le (msg : List α) (i n : ℕ) (hn : n ≤ i) (hlen : i + n ≤ msg.length) :
    (longestMatch msg i n).1 ≤ n + 1 := by
  have h := (longestMatch_fold msg i n n hn hlen le_rfl).2.1
  unfold longestMatch
  exact Nat.succ_le_succ h

theorem longestMatch_constant (c : α) (m i n : ℕ) (hn : n ≤ i) (hlen : i + n ≤ m) :
    (longestMatch (List.replicate m c) i n).1 = n + 1 := by
  have hl : i + n ≤ (List.replicate m c).length := by rw [List.length_replicate]; exact hlen
  obtain ⟨-, h2, -, h4⟩ := longestMatch_fold (List.replicate m c) i n n hn hl le_rfl
  unfold longestMatch
  simp only at h2 h4 ⊢
  rcases Nat.eq_zero_or_pos n with rfl | hpos
  · simp
  · have := h4 n le_rfl hpos ⟨i - n, le_rfl, by omega, by
      rw [List.drop_replicate, List.drop_replicate, List.take_replicate, List.take_replicate]
      congr 1
      omega⟩
    omega

theorem kontoPoints_range (len : ℕ) (window : Option ℕ) (p : ℕ × ℕ) (hp : p ∈ kontoPoints len window) :
    p.2 ≤ p.1 ∧ p.1 + p.2 ≤ len := by
  cases window with
  | none =>
    obtain ⟨i, hi, rfl⟩ := List.mem_map.1 hp
    rw [List.mem_range'_1] at hi
    simp only
    omega
  | some w =>
    obtain ⟨i, hi, rfl⟩ := List.mem_map.1 hp
    rw [List.mem_range'_1] at hi
    simp only
    omega

/-- C195, Kontoyiannis.  A constant message has the smallest estimate among all messages of its length,
for every window; it is the mean of `log2(n+1)/(n+1)` over the windows `n` used. -/
theorem C195_konto (c : β) (msg : List α) (window : Option ℕ) (v : ℝ)
    (h : kontoEntropy msg window = .ok v) :
    ∃ v₀, kontoEntropy (List.replicate msg.length c) window = .ok v₀ ∧ v₀ ≤ v ∧
      (window = none → v₀ * ((msg.length / 2 : ℕ) : ℝ) =
        ∑ i ∈ Finset.range (msg.length / 2), Real.logb 2 ((i : ℝ) + 2) / ((i : ℝ) + 2)) := by
  unfold kontoEntropy at h ⊢
  simp only [List.length_replicate] at h ⊢
  by_cases h0 : (kontoPoints msg.length window).length = 0
  · rw [if_pos h0] at h; cases h
  rw [if_neg h0] at h ⊢
  have hN : (0 : ℝ) < ((kontoPoints msg.length window).length : ℝ) := by
    exact_mod_cast Nat.pos_of_ne_zero h0
  refine ⟨_, rfl, ?_, ?_⟩
  · injection h with h
    rw [← h]
    apply div_le_div_of_nonneg_right _ hN.le
    apply List.sum_le_sum
    intro p hp
    obtain ⟨h1, h2⟩ := kontoPoints_range _ _ _ hp
    rw [longestMatch_constant c _ _ _ h1 h2]
    have hle := longestMatch_le msg p.1 p.2 h1 h2
    have hpos : 0 < (longestMatch msg p.1 p.2).1 := by unfold longestMatch; simp
    have hlog : 0 ≤ Real.logb 2 ((p.2 : ℝ) + 1) := Real.logb_nonneg (by norm_num) (by
      have : (0 : ℝ) ≤ p.2 := Nat.cast_nonneg _
      linarith)
    apply div_le_div_of_nonneg_left hlog (by exact_mod_cast hpos)
    exact_mod_cast hle
  · rintro rfl
    have hlen : (kontoPoints msg.length none).length = msg.length / 2 := by simp [kontoPoints]
    rw [hlen] at hN ⊢
    rw [div_mul_cancel₀ _ hN.ne', Finset.sum_range, ← List.sum_ofFn]
    congr 1
    apply List.ext_getElem
    · simp [kontoPoints]
    · intro i h1 h2
      simp only [List.length_map, hlen] at h1
      simp only [List.getElem_map, List.getElem_ofFn, kontoPoints, List.getElem_range', one_mul]
      rw [longestMatch_constant c _ _ _ (by omega) (by omega)]
      push_cast
      rw [show (1 + (i : ℝ)) + 1 = (i : ℝ) + 2 by ring]

/-- C195, plug-in.  A constant message has entropy 0, the smallest value. -/
theorem C195_plugin (c : β) (msg : List α) (w : ℕ) (h1 : 1 ≤ w) (hw : w ≤ msg.length) :
    pluginEntropy (List.replicate msg.length c) w = 0 ∧ 0 ≤ pluginEntropy msg w := by
  constructor
  · have hd : ∀ x : List β, x ∈ ({List.replicate w c} : Finset (List β)) ↔
        ∃ j, j + w ≤ (List.replicate msg.length c).length ∧
          ((List.replicate msg.length c).drop j).take w = x := by
      intro x
      rw [Finset.mem_singleton, List.length_replicate]
      constructor
      · rintro rfl
        refine ⟨0, by omega, ?_⟩
        rw [List.drop_zero, List.take_replicate]
        congr 1
        omega
      · rintro ⟨j, hj, rfl⟩
        rw [List.drop_replicate, List.take_replicate]
        congr 1
        omega
    exact (C71_bounds (List.replicate msg.length c) w h1 (by rwa [List.length_replicate]) _ hd).2.2.2
      (by simp)
  · exact (C71_bounds msg w h1 hw ((words msg w).toFinset) (by
      intro x
      rw [List.mem_toFinset]
      unfold words wordAt
      simp only [List.mem_map, List.mem_range]
      constructor
      · rintro ⟨j, hj, rfl⟩; exact ⟨j, by omega, rfl⟩
      · rintro ⟨j, hj, rfl⟩; exact ⟨j, by omega, rfl⟩)).1

example : ∃ lib, lempelzivLib "0100011011".toList = .ok lib ∧ lib.length = 6 := by
  refine ⟨["0".toList, "1".toList, "00".toList, "01".toList, "10".toList, "11".toList], by decide +kernel, rfl⟩

example : lempelzivLib "0000000000".toList =
    .ok ["0".toList, "00".toList, "000".toList, "0000".toList] := by decide +kernel

/-! ## C196 -/

theorem mem_wordPmf_iff (msg : List α) (w : ℕ) (hw : w ≤ msg.length) (e : List α × ℝ) :
    e ∈ wordPmf ℝ msg w ↔ (∃ j, j + w ≤ msg.length ∧ (msg.drop j).take w = e.1) ∧
      e.2 = (((Finset.range (msg.length + 1 - w)).filter
        fun j => (msg.drop j).take w = e.1).card : ℝ) / ((msg.length - w + 1 : ℕ) : ℝ) := by
  obtain ⟨-, h2, h3⟩ := C70_frequencies msg w hw
  constructor
  · intro he
    exact ⟨(h2 e.1).1 (List.mem_map_of_mem he), h3 e he⟩
  · rintro ⟨ho, hf⟩
    obtain ⟨e', he', heq⟩ := List.mem_map.1 ((h2 e.1).2 ho)
    have := h3 e' he'
    rw [heq, ← hf] at this
    have : e' = e := Prod.ext heq this
    exact this ▸ he'

theorem reverse_window (msg : List α) (w j : ℕ) (hj : j + w ≤ msg.length) :
    (msg.reverse.drop j).take w = ((msg.drop (msg.length - w - j)).take w).reverse := by
  rw [List.drop_reverse, List.take_reverse, List.length_take, List.drop_take,
    Nat.min_eq_left (Nat.sub_le _ _)]
  congr 2
  · omega
  · congr 1; omega

theorem count_reverse (msg : List α) (w : ℕ) (hw : w ≤ msg.length) (x : List α) :
    ((Finset.range (msg.length + 1 - w)).filter
      fun j => (msg.reverse.drop j).take w = x.reverse).card =
    ((Finset.range (msg.length + 1 - w)).filter fun j => (msg.drop j).take w = x).card := by
  apply Finset.card_bij' (fun j _ => msg.length - w - j) (fun j _ => msg.length - w - j)
  · intro j hj
    rw [Finset.mem_filter, Finset.mem_range] at hj ⊢
    refine ⟨by omega, ?_⟩
    have := hj.2
    rw [reverse_window msg w j (by omega)] at this
    exact List.reverse_injective this
  · intro j hj
    rw [Finset.mem_filter, Finset.mem_range] at hj ⊢
    refine ⟨by omega, ?_⟩
    rw [reverse_window msg w _ (by omega), show msg.length - w - (msg.length - w - j) = j by omega, hj.2]
  · intro j hj
    rw [Finset.mem_filter, Finset.mem_range] at hj
    omega
  · intro j hj
    rw [Finset.mem_filter, Finset.mem_range] at hj
    omega

/-- C196.  Read backwards, a message has the same words backwards with the same frequencies. -/
theorem C196_frequencies (msg : List α) (w : ℕ) (hw : w ≤ msg.length) :
    (wordPmf ℝ msg.reverse w).Perm ((wordPmf ℝ msg w).map fun e => (e.1.reverse, e.2)) := by
  have hw' : w ≤ msg.reverse.length := by rwa [List.length_reverse]
  have n1 := List.Nodup.of_map _ (C70_frequencies msg.reverse w hw').1
  have n2 := List.Nodup.of_map _ (C70_frequencies msg w hw).1
  have hinj : Function.Injective fun e : List α × ℝ => (e.1.reverse, e.2) := by
    rintro ⟨a, b⟩ ⟨c, d⟩ h
    simp only [Prod.mk.injEq, List.reverse_inj] at h
    exact Prod.ext h.1 h.2
  rw [List.perm_ext_iff_of_nodup n1 (n2.map hinj)]
  rintro ⟨x, p⟩
  rw [mem_wordPmf_iff _ _ hw', List.mem_map]
  simp only [List.length_reverse]
  have hc := count_reverse msg w hw x.reverse
  rw [List.reverse_reverse] at hc
  rw [hc]
  constructor
  · rintro ⟨⟨j, hj, hx⟩, hp⟩
    refine ⟨(x.reverse, p), (mem_wordPmf_iff msg w hw _).2 ⟨⟨msg.length - w - j, by omega, ?_⟩, hp⟩, by simp⟩
    rw [reverse_window msg w j hj] at hx
    rw [← hx, List.reverse_reverse]
  · rintro ⟨e, he, heq⟩
    obtain ⟨⟨j, hj, hx⟩, hp⟩ := (mem_wordPmf_iff msg w hw e).1 he
    simp only [Prod.mk.injEq] at heq
    obtain ⟨rfl, rfl⟩ := heq
    rw [List.reverse_reverse]
    refine ⟨⟨msg.length - w - j, by omega, ?_⟩, hp⟩
    rw [reverse_window msg w _ (by omega), show msg.length - w - (msg.length - w - j) = j by omega, hx]

/-- C196.  The plug-in entropy does not depend on the direction in which the message is read. -/
theorem C196_plugin (msg : List α) (w : ℕ) (hw : w ≤ msg.length) :
    pluginEntropy msg.reverse w = pluginEntropy msg w := by
  unfold pluginEntropy
  rw [((C196_frequencies msg w hw).map fun e => e.2 * Real.logb 2 e.2).sum_eq, List.map_map]
  rfl

/-- A message whose words of length two are not those of the reversed message. -/
example : wordPmf ℚ "0011".toList 2 =
    [("00".toList, 1 / 3), ("01".toList, 1 / 3), ("11".toList, 1 / 3)] ∧
    wordPmf ℚ "0011".toList.reverse 2 =
    [("11".toList, 1 / 3), ("10".toList, 1 / 3), ("00".toList, 1 / 3)] := by decide +kernel

/-- The Lempel-Ziv dictionary does depend on the direction. -/
example : lempelzivLib "0010".toList = .ok ["0".toList, "01".toList] ∧
    lempelzivLib "0010".toList.reverse = .ok ["0".toList, "1".toList, "00".toList] := by decide +kernel

end FinML.Entropy
