import Verif.Entropy.ExtremalProps

/-! # Property C317: periodic messages -/

set_option linter.unusedSectionVars false

namespace FinML.Entropy

variable {α : Type} [DecidableEq α]

/-- The message repeats itself after `p` symbols. -/
def Periodic (p : ℕ) (msg : List α) : Prop := ∀ i, i + p < msg.length → msg[i]? = msg[i + p]?

theorem window_shift {p : ℕ} {msg : List α} (h : Periodic p msg) (j L : ℕ) (hj : j + p + L ≤ msg.length) :
    (msg.drop (j + p)).take L = (msg.drop j).take L := by
  apply List.ext_getElem?
  intro k
  rw [List.getElem?_take, List.getElem?_take]
  split_ifs with hk
  · rw [List.getElem?_drop, List.getElem?_drop, show j + p + k = j + k + p by omega]
    exact (h (j + k) (by omega)).symm
  · rfl

theorem window_mod {p : ℕ} (hp : 1 ≤ p) {msg : List α} (h : Periodic p msg) (L j : ℕ)
    (hj : j + L ≤ msg.length) : (msg.drop j).take L = (msg.drop (j % p)).take L := by
  induction j using Nat.strong_induction_on with
  | _ j ih =>
    rcases Nat.lt_or_ge j p with hlt | hge
    · rw [Nat.mod_eq_of_lt hlt]
    · have h1 := window_shift h (j - p) L (by omega)
      rw [Nat.sub_add_cancel hge] at h1
      rw [h1, ih (j - p) (by omega) (by omega), Nat.mod_eq_sub_mod hge]

/-- At most `p` different words of each length occur. -/
theorem card_words_le {p : ℕ} (hp : 1 ≤ p) {msg : List α} (h : Periodic p msg) (L : ℕ) (s : Finset (List α))
    (hs : ∀ x ∈ s, ∃ j, j + L ≤ msg.length ∧ (msg.drop j).take L = x) : s.card ≤ p := by
  have hsub : s ⊆ (Finset.range p).image fun j => (msg.drop j).take L := by
    intro x hx
    obtain ⟨j, hj, rfl⟩ := hs x hx
    rw [Finset.mem_image]
    exact ⟨j % p, Finset.mem_range.2 (Nat.mod_lt _ (by omega)), (window_mod hp h L j hj).symm⟩
  refine (Finset.card_le_card hsub).trans (Finset.card_image_le.trans ?_)
  rw [Finset.card_range]

/-- C317, plug-in.  A message of period `p` has at most `log2 p / w` bits for words of length `w`. -/
theorem C317_plugin (p : ℕ) (hp : 1 ≤ p) (msg : List α) (h : Periodic p msg) (w : ℕ) (h1 : 1 ≤ w)
    (hw : w ≤ msg.length) : pluginEntropy msg w ≤ Real.logb 2 p / w := by
  have hd : ∀ x, x ∈ (words msg w).toFinset ↔ ∃ j, j + w ≤ msg.length ∧ (msg.drop j).take w = x := by
    intro x
    rw [List.mem_toFinset]
    unfold words wordAt
    simp only [List.mem_map, List.mem_range]
    constructor
    · rintro ⟨j, hj, rfl⟩; exact ⟨j, by omega, rfl⟩
    · rintro ⟨j, hj, rfl⟩; exact ⟨j, by omega, rfl⟩
  refine (C71_bounds msg w h1 hw _ hd).2.1.trans ?_
  apply div_le_div_of_nonneg_right _ (Nat.cast_nonneg w)
  have hpos : 0 < (words msg w).toFinset.card :=
    Finset.card_pos.2 ⟨(msg.drop 0).take w, (hd _).2 ⟨0, by omega, rfl⟩⟩
  apply Real.logb_le_logb_of_le (by norm_num) (by exact_mod_cast hpos)
  exact_mod_cast card_words_le hp h w _ fun x hx => (hd x).1 hx

theorem longestMatch_periodic {p : ℕ} (hp : 1 ≤ p) {msg : List α} (h : Periodic p msg) (i n : ℕ)
    (hpn : p ≤ n) (hn : n ≤ i) (hlen : i + n ≤ msg.length) : (longestMatch msg i n).1 = n + 1 := by
  obtain ⟨-, h2, -, h4⟩ := longestMatch_fold msg i n n hn hlen le_rfl
  unfold longestMatch
  simp only at h2 h4 ⊢
  have h1 := window_shift h (i - p) n (by omega)
  rw [Nat.sub_add_cancel (by omega)] at h1
  have := h4 n le_rfl (by omega) ⟨i - p, by omega, by omega, h1.symm⟩
  omega

/-- C317, Kontoyiannis with a window.  If the period fits into the window, then the estimate is that of a
message with a single symbol. -/
theorem C317_konto_window (p : ℕ) (hp : 1 ≤ p) (msg : List α) (h : Periodic p msg) (w : ℕ) (hpw : p ≤ w)
    (hpl : 2 * p ≤ msg.length) (c : α) :
    kontoEntropy msg (some w) = kontoEntropy (List.replicate msg.length c) (some w) := by
  unfold kontoEntropy
  simp only [List.length_replicate]
  split_ifs with h0
  · rfl
  · congr 3
    apply List.map_congr_left
    intro q hq
    obtain ⟨h1, h2⟩ := kontoPoints_range _ _ _ hq
    have hq2 : q.2 = min w (msg.length / 2) := by
      obtain ⟨i, -, rfl⟩ := List.mem_map.1 hq
      rfl
    rw [longestMatch_constant c _ _ _ h1 h2, longestMatch_periodic hp h q.1 q.2 (by omega) h1 h2]

/-- C317, Kontoyiannis with the expanding window.  The estimate exceeds that of a message with a single
symbol by at most `log2 1 + … + log2 p` over the number of positions. -/
theorem C317_konto (p : ℕ) (hp : 1 ≤ p) (msg : List α) (h : Periodic p msg) (c : α) (v v₀ : ℝ)
    (hv : kontoEntropy msg none = .ok v) (hv₀ : kontoEntropy (List.replicate msg.length c) none = .ok v₀) :
    v₀ ≤ v ∧ (v - v₀) * ((msg.length / 2 : ℕ) : ℝ) ≤ ∑ k ∈ Finset.range p, Real.logb 2 ((k : ℝ) + 1) := by
  constructor
  · obtain ⟨u, hu, hle, -⟩ := C195_konto c msg none v hv
    rw [hv₀] at hu
    injection hu with hu
    rw [hu]; exact hle
  unfold kontoEntropy at hv hv₀
  simp only [List.length_replicate] at hv hv₀
  by_cases h0 : (kontoPoints msg.length none).length = 0
  · rw [if_pos h0] at hv; cases hv
  rw [if_neg h0] at hv hv₀
  injection hv with hv
  injection hv₀ with hv₀
  have hlen : (kontoPoints msg.length none).length = msg.length / 2 := by simp [kontoPoints]
  have hN : ((msg.length / 2 : ℕ) : ℝ) ≠ 0 := by rw [← hlen]; exact_mod_cast h0
  rw [← hv, ← hv₀, hlen, ← sub_div, div_mul_cancel₀ _ hN]
  unfold kontoPoints
  simp only [List.map_map]
  have key : ∀ N, N ≤ msg.length / 2 →
      (((List.range' 1 N).map ((fun q : ℕ × ℕ => Real.logb 2 ((q.2 : ℝ) + 1) /
        ((longestMatch msg q.1 q.2).1 : ℝ)) ∘ fun i => (i, i))).sum -
      ((List.range' 1 N).map ((fun q : ℕ × ℕ => Real.logb 2 ((q.2 : ℝ) + 1) /
        ((longestMatch (List.replicate msg.length c) q.1 q.2).1 : ℝ)) ∘ fun i => (i, i))).sum) ≤
      ∑ k ∈ Finset.range (min (N + 1) p), Real.logb 2 ((k : ℝ) + 1) := by
    intro N
    induction N with
    | zero =>
      intro _
      rw [Nat.min_eq_left (by omega)]
      simp
    | succ N ih =>
      intro hN
      have hi := ih (by omega)
      rw [List.range'_1_concat]
      simp only [List.map_append, List.map_cons, List.map_nil, List.sum_append, List.sum_singleton,
        Function.comp] at hi ⊢
      rw [longestMatch_constant c _ _ _ le_rfl (by omega)]
      have hlog : 0 ≤ Real.logb 2 (((1 + N : ℕ) : ℝ) + 1) := Real.logb_nonneg (by norm_num) (by
        have : (0 : ℝ) ≤ ((1 + N : ℕ) : ℝ) := Nat.cast_nonneg _
        linarith)
      rcases Nat.lt_or_ge N.succ p with hlt | hge
      · rw [Nat.min_eq_left (by omega), Finset.sum_range_succ]
        rw [Nat.min_eq_left (by omega)] at hi
        have hpos : (1 : ℝ) ≤ ((longestMatch msg (1 + N) (1 + N)).1 : ℝ) := by
          unfold longestMatch
          push_cast
          have : (0 : ℝ) ≤ ((((List.range (1 + N)).foldl (fun m length =>
            if hasMatch msg (1 + N) (1 + N) length then slice msg (1 + N) (1 + N + length + 1) else m)
              []).length : ℕ) : ℝ) := Nat.cast_nonneg _
          linarith
        have ht := div_le_self hlog hpos
        have hz : 0 ≤ Real.logb 2 (((1 + N : ℕ) : ℝ) + 1) / ((1 + N + 1 : ℕ) : ℝ) :=
          div_nonneg hlog (Nat.cast_nonneg _)
        rw [show ((N + 1 : ℕ) : ℝ) = ((1 + N : ℕ) : ℝ) by push_cast; ring]
        linarith
      · rw [longestMatch_periodic hp h _ _ (by omega) le_rfl (by omega)]
        rw [Nat.min_eq_right (by omega)]
        have hmono : ∑ k ∈ Finset.range (min (N + 1) p), Real.logb 2 ((k : ℝ) + 1) ≤
            ∑ k ∈ Finset.range p, Real.logb 2 ((k : ℝ) + 1) := by
          apply Finset.sum_le_sum_of_subset_of_nonneg
          · intro k hk
            rw [Finset.mem_range] at hk ⊢
            omega
          · intro k _ _
            exact Real.logb_nonneg (by norm_num) (by
              have : (0 : ℝ) ≤ (k : ℝ) := Nat.cast_nonneg _
              linarith)
        linarith
  refine (key _ le_rfl).trans ?_
  apply Finset.sum_le_sum_of_subset_of_nonneg
  · intro k hk
    rw [Finset.mem_range] at hk ⊢
    omega
  · intro k _ _
    exact Real.logb_nonneg (by norm_num) (by
      have : (0 : ℝ) ≤ (k : ℝ) := Nat.cast_nonneg _
      linarith)

theorem infix_window {x msg : List α} (h : x <:+: msg) :
    ∃ j, j + x.length ≤ msg.length ∧ (msg.drop j).take x.length = x := by
  obtain ⟨s, t, rfl⟩ := h
  refine ⟨s.length, by simp, ?_⟩
  rw [List.append_assoc, List.drop_left, List.take_left]

/-- Few short words, so many words must be long. -/
theorem length_sum_bound (s : Finset (List α)) (p : ℕ) (hs : ∀ L, (s.filter fun x => x.length = L).card ≤ p)
    (h0 : ∀ x ∈ s, x ≠ []) (m : ℕ) :
    2 * (s.card * (m + 1)) ≤ 2 * ∑ x ∈ s, x.length + p * (m * (m + 1)) := by
  have hc : ∀ m, (s.filter fun x => x.length ≤ m).card ≤ p * m := by
    intro m
    induction m with
    | zero =>
      rw [Finset.filter_false_of_mem]
      · simp
      · intro x hx hl
        exact h0 x hx (List.length_eq_zero_iff.1 (by omega))
    | succ m ih =>
      have : (s.filter fun x => x.length ≤ m + 1) =
          (s.filter fun x => x.length ≤ m) ∪ s.filter fun x => x.length = m + 1 := by
        ext x
        simp only [Finset.mem_union, Finset.mem_filter]
        constructor
        · rintro ⟨h1, h2⟩
          rcases Nat.lt_or_ge m x.length with h | h
          · exact Or.inr ⟨h1, by omega⟩
          · exact Or.inl ⟨h1, h⟩
        · rintro (⟨h1, h2⟩ | ⟨h1, h2⟩)
          · exact ⟨h1, by omega⟩
          · exact ⟨h1, by omega⟩
      rw [this]
      refine (Finset.card_union_le _ _).trans ?_
      have := hs (m + 1)
      rw [Nat.mul_succ]
      omega
  have hf : 2 * ∑ x ∈ s, (m + 1 - x.length) ≤ p * (m * (m + 1)) := by
    induction m with
    | zero =>
      rw [Finset.sum_eq_zero]
      · simp
      · intro x hx
        have := List.length_pos_iff.2 (h0 x hx)
        omega
    | succ m ih =>
      have hstep : ∑ x ∈ s, (m + 1 + 1 - x.length) =
          ∑ x ∈ s, (m + 1 - x.length) + (s.filter fun x => x.length ≤ m + 1).card := by
        rw [Finset.card_filter, ← Finset.sum_add_distrib]
        apply Finset.sum_congr rfl
        intro x _
        split_ifs <;> omega
      rw [hstep]
      have := hc (m + 1)
      nlinarith
  have hg : s.card * (m + 1) ≤ ∑ x ∈ s, x.length + ∑ x ∈ s, (m + 1 - x.length) := by
    rw [← Finset.sum_add_distrib, ← smul_eq_mul, ← Finset.sum_const]
    apply Finset.sum_le_sum
    intro x _
    omega
  omega

/-- C317, Lempel-Ziv.  The dictionary of a message of period `p` and length `n` has `k` words with
`k(k+p) ≤ 2pn`. -/
theorem C317_lempelziv (p : ℕ) (hp : 1 ≤ p) (msg : List α) (h : Periodic p msg) (lib : List (List α))
    (hl : lempelzivLib msg = .ok lib) : lib.length * (lib.length + p) ≤ 2 * (p * msg.length) := by
  cases msg with
  | nil => cases hl
  | cons c msg =>
    obtain ⟨lib', tail, h1, -, h3, h4, h5, -, -⟩ := C72_dictionary c msg
    rw [hl] at h1
    cases h1
    have hin : ∀ x ∈ lib, x <:+: c :: msg := by
      intro x hx
      rw [← h5]
      exact (List.infix_of_mem_flatten hx).trans (List.prefix_append _ _).isInfix
    have hs : ∀ L, (lib.toFinset.filter fun x => x.length = L).card ≤ p := by
      intro L
      apply card_words_le hp h L
      intro x hx
      rw [Finset.mem_filter, List.mem_toFinset] at hx
      obtain ⟨j, hj, hx'⟩ := infix_window (hin x hx.1)
      rw [hx.2] at hj hx'
      exact ⟨j, hj, hx'⟩
    have hb := length_sum_bound lib.toFinset p hs (fun x hx => h4 x (List.mem_toFinset.1 hx))
      (lib.length / p)
    rw [List.toFinset_card_of_nodup h3, List.sum_toFinset _ h3, ← List.length_flatten] at hb
    have hlen := congrArg List.length h5
    rw [List.length_append] at hlen
    have hdm := Nat.div_add_mod lib.length p
    have hr := Nat.mod_lt lib.length (show 0 < p by omega)
    generalize lib.length / p = q at *
    generalize lib.length % p = r at *
    generalize lib.length = D at *
    generalize lib.flatten.length = S at *
    generalize (c :: msg).length = n at *
    have hS : S ≤ n := by omega
    subst hdm
    have e1 : 2 * ((p * q + r) * (q + 1)) ≤ 2 * n + p * (q * (q + 1)) := by omega
    have e2 := Nat.mul_le_mul_left p e1
    have e3 : r * r ≤ p * r := Nat.mul_le_mul_right r hr.le
    nlinarith

example : Periodic 3 "abcabcabcab".toList := by
  intro i hi
  have h : i + 3 < 11 := by simpa using hi
  have h8 : ∀ j : Fin 8, "abcabcabcab".toList[j.1]? = "abcabcabcab".toList[j.1 + 3]? := by decide +kernel
  exact h8 ⟨i, by omega⟩

/-- The bound is reached: period 3 and length 12 allow 7 words. -/
example : ∃ lib, lempelzivLib "abcabcabcabc".toList = .ok lib ∧ lib.length = 7 := by
  refine ⟨["a".toList, "b".toList, "c".toList, "ab".toList, "ca".toList, "bc".toList, "abc".toList],
    by decide +kernel, rfl⟩

end FinML.Entropy
