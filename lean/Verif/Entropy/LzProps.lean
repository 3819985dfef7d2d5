import Verif.Entropy.Model
import Verif.Py.Lemmas
import Mathlib.Data.Rat.Floor

/-! # Properties C72-C74: Lempel-Ziv dictionary, longest match, Kontoyiannis entropy -/

set_option linter.unusedSectionVars false

namespace FinML.Entropy

variable {α : Type} [DecidableEq α]

/-! ## C72 -/

theorem slice_eq (msg : List α) (i m : ℕ) : slice msg i (i + m) = (msg.drop i).take m := by
  unfold slice
  rw [List.drop_take]
  congr 1
  omega

theorem lzInner_spec (msg : List α) (i : ℕ) (lib : List (List α)) (len m j : ℕ)
    (hpre : ∀ l, 1 ≤ l → l ≤ m → (msg.drop i).take l ∈ lib) :
    (∃ k < len, (∀ l, 1 ≤ l → l ≤ m + k → (msg.drop i).take l ∈ lib) ∧
      (msg.drop i).take (m + k + 1) ∉ lib ∧
      lzInner msg i lib (List.range' (i + m) len) j = (i + m + k, lib ++ [(msg.drop i).take (m + k + 1)])) ∨
    ((∀ l, 1 ≤ l → l ≤ m + len → (msg.drop i).take l ∈ lib) ∧
      lzInner msg i lib (List.range' (i + m) len) j = (if len = 0 then j else i + m + len - 1, lib)) := by
  induction len generalizing m j with
  | zero =>
    right
    exact ⟨by simpa using hpre, by simp [lzInner]⟩
  | succ len ih =>
    rw [List.range'_succ]
    have hs : slice msg i (i + m + 1) = (msg.drop i).take (m + 1) := by
      rw [Nat.add_assoc, slice_eq]
    by_cases hin : (msg.drop i).take (m + 1) ∈ lib
    · have hstep : lzInner msg i lib ((i + m) :: List.range' (i + m + 1) len) j =
          lzInner msg i lib (List.range' (i + (m + 1)) len) (i + m) := by
        rw [lzInner, hs, if_pos hin, Nat.add_assoc]
      rw [hstep]
      rcases ih (m + 1) (i + m) (by
        intro l h1 hl
        rcases Nat.eq_or_lt_of_le hl with rfl | hl
        · exact hin
        · exact hpre l h1 (by omega)) with ⟨k, hk, h1, h2, h3⟩ | ⟨h1, h2⟩
      · left
        refine ⟨k + 1, by omega, ?_, ?_, ?_⟩
        · intro l hl hl'; exact h1 l hl (by omega)
        · rw [show m + (k + 1) + 1 = m + 1 + k + 1 by omega]; exact h2
        · rw [h3, show m + (k + 1) + 1 = m + 1 + k + 1 by omega]
          congr 1
          omega
      · right
        refine ⟨fun l hl hl' => h1 l hl (by omega), ?_⟩
        rw [h2, if_neg (Nat.succ_ne_zero len)]
        congr 1
        by_cases hlen : len = 0
        · rw [if_pos hlen]; omega
        · rw [if_neg hlen]; omega
    · left
      refine ⟨0, by omega, ?_, hin, ?_⟩
      · intro l hl hl'; exact hpre l hl (by omega)
      · rw [lzInner, hs, if_neg hin]
        simp

/-- The parse so far: `lib` are the words in order. -/
structure Parse (lib : List (List α)) : Prop where
  nodup : lib.Nodup
  ne_nil : ∀ x ∈ lib, x ≠ []
  prefixes : ∀ (k : ℕ) x, lib[k]? = some x → ∀ l, 1 ≤ l → l < x.length → x.take l ∈ lib.take k

theorem Parse.snoc {lib : List (List α)} (h : Parse lib) (s : List α) (m : ℕ) (hm : m < s.length)
    (hpre : ∀ l, 1 ≤ l → l ≤ m → s.take l ∈ lib) (hnew : s.take (m + 1) ∉ lib) :
    Parse (lib ++ [s.take (m + 1)]) := by
  refine ⟨?_, ?_, ?_⟩
  · rw [List.nodup_append']
    refine ⟨h.nodup, by simp, ?_⟩
    intro a ha hb
    rw [List.mem_singleton] at hb
    exact hnew (hb ▸ ha)
  · intro x hx
    rw [List.mem_append, List.mem_singleton] at hx
    rcases hx with hx | rfl
    · exact h.ne_nil x hx
    · intro hc
      have := congrArg List.length hc
      rw [List.length_take, List.length_nil] at this
      omega
  · intro k x hx l h1 hl
    rcases Nat.lt_trichotomy k lib.length with hk | hk | hk
    · rw [List.getElem?_append_left hk] at hx
      rw [List.take_append_of_le_length hk.le]
      exact h.prefixes k x hx l h1 hl
    · subst hk
      rw [List.getElem?_append_right le_rfl, Nat.sub_self] at hx
      simp only [List.getElem?_cons_zero, Option.some.injEq] at hx
      subst hx
      rw [List.length_take] at hl
      rw [List.take_left', List.take_take]
      · rw [Nat.min_eq_left (by omega)]
        exact hpre l h1 (by omega)
      · rfl
    · rw [List.getElem?_eq_none (by simp; omega)] at hx
      cases hx

theorem lzLoop_spec (msg : List α) (fuel i : ℕ) (lib : List (List α)) (hfuel : msg.length ≤ fuel + i)
    (hi : i ≤ msg.length) (hcat : lib.flatten = msg.take i) (hP : Parse lib) :
    ∃ res tail, lzLoop msg fuel i lib = .ok res ∧ Parse res ∧ res.flatten ++ tail = msg ∧
      (tail = [] ∨ tail ∈ res) ∧ lib <+: res := by
  have hdone : i = msg.length → lib.flatten ++ [] = msg := by
    intro h
    rw [hcat, h]
    simp
  induction fuel generalizing i lib with
  | zero =>
    have : i = msg.length := by omega
    refine ⟨lib, [], ?_, hP, hdone this, Or.inl rfl, List.prefix_rfl⟩
    rw [lzLoop, if_neg (by omega)]
  | succ fuel ih =>
    by_cases hlt : i < msg.length
    · rw [lzLoop, if_pos hlt]
      simp only
      have hlen : (msg.drop i).length = msg.length - i := List.length_drop
      rcases lzInner_spec msg i lib (msg.length - i) 0 0 (by intro l h1 h2; omega) with
        ⟨k, hk, h1, h2, h3⟩ | ⟨h1, h2⟩
      · rw [Nat.add_zero] at h3
        rw [h3]
        simp only [Nat.zero_add] at h1 h2 h3 ⊢
        have hcat' : (lib ++ [(msg.drop i).take (k + 1)]).flatten = msg.take (i + k + 1) := by
          rw [List.flatten_append, hcat, List.flatten_singleton, Nat.add_assoc,
            List.take_add (i := i)]
        have hP' := hP.snoc (msg.drop i) k (by rw [hlen]; exact hk) h1 h2
        obtain ⟨res, tail, r1, r2, r3, r4, r5⟩ := ih (i + k + 1) _ (by omega) (by omega) hcat' hP' (by
          intro h
          rw [hcat', h]
          simp)
        exact ⟨res, tail, r1, r2, r3, r4, (List.prefix_append _ _).trans r5⟩
      · rw [Nat.add_zero] at h2
        rw [h2, if_neg (by omega)]
        simp only
        have hfin : i + (msg.length - i) - 1 + 1 = msg.length := by omega
        refine ⟨lib, msg.drop i, ?_, hP, ?_, ?_, List.prefix_rfl⟩
        · rw [hfin]
          cases fuel with
          | zero => rw [lzLoop, if_neg (by omega)]
          | succ f => rw [lzLoop, if_neg (by omega)]
        · rw [hcat, List.take_append_drop]
        · right
          have := h1 (msg.length - i) (by omega) (by omega)
          rwa [List.take_of_length_le (by rw [hlen])] at this
    · have : i = msg.length := by omega
      refine ⟨lib, [], ?_, hP, hdone this, Or.inl rfl, List.prefix_rfl⟩
      rw [lzLoop, if_neg hlt]

/-- C72.  On a non-empty message the loop ends; the words, in the order in which they are added, are
distinct and non-empty, start with the first symbol, concatenate to the message up to a repeated word
at the end, and each word is one symbol longer than a word added before it (all its shorter prefixes
were added before). -/
theorem C72_dictionary (c : α) (msg : List α) :
    ∃ lib tail, lempelzivLib (c :: msg) = .ok lib ∧ lib.head? = some [c] ∧ lib.Nodup ∧
      (∀ x ∈ lib, x ≠ []) ∧ lib.flatten ++ tail = c :: msg ∧ (tail = [] ∨ tail ∈ lib) ∧
      ∀ (k : ℕ) x, lib[k]? = some x → ∀ l, 1 ≤ l → l < x.length → x.take l ∈ lib.take k := by
  have hP : Parse [[c]] := by
    refine ⟨by simp, by simp, ?_⟩
    intro k x hx l h1 hl
    cases k with
    | zero =>
      simp only [List.getElem?_cons_zero, Option.some.injEq] at hx
      subst hx
      simp at hl
      omega
    | succ k => simp at hx
  obtain ⟨res, tail, r1, r2, r3, r4, r5⟩ := lzLoop_spec (c :: msg) (msg.length + 1) 1 [[c]] (by simp)
    (by simp) (by simp) hP
  refine ⟨res, tail, ?_, ?_, r2.nodup, r2.ne_nil, r3, r4, r2.prefixes⟩
  · unfold lempelzivLib
    exact r1
  · obtain ⟨q, rfl⟩ := r5
    simp

/-- C72.  An empty message raises IndexError. -/
theorem C72_empty : lempelzivLib ([] : List α) = .error .indexError := rfl

/-- C72.  Consequently every word is a substring of the message, and the set has every non-empty prefix
of each of its words. -/
theorem C72_substrings (msg : List α) (lib : List (List α)) (h : lempelzivLib msg = .ok lib) (x : List α)
    (hx : x ∈ lib) : x <:+: msg ∧ ∀ p, p <+: x → p ≠ [] → p ∈ lib := by
  cases msg with
  | nil => cases h
  | cons c msg =>
    obtain ⟨lib', tail, h1, -, -, -, h5, -, h7⟩ := C72_dictionary c msg
    rw [h] at h1
    cases h1
    constructor
    · rw [← h5]
      exact (List.infix_of_mem_flatten hx).trans (List.prefix_append _ _).isInfix
    · intro p hp hne
      obtain ⟨k, hk, hkx⟩ := List.getElem_of_mem hx
      have hpl := List.prefix_iff_eq_take.1 hp
      rcases Nat.lt_or_ge p.length x.length with hl | hl
      · have := h7 k x (by rw [List.getElem?_eq_getElem hk, hkx]) p.length
          (List.length_pos_iff.2 hne) hl
        rw [← hpl] at this
        exact List.mem_of_mem_take this
      · rw [List.take_of_length_le hl] at hpl
        rw [hpl]; exact hx

example : lempelzivLib "0010100".toList =
    .ok ["0".toList, "01".toList, "010".toList] := by decide +kernel

/-! ## C73 -/

/-- Message `msg` has the same `L` symbols at `i` as at some start in `[i - n, i)`. -/
def Matches (msg : List α) (i n L : ℕ) : Prop :=
  ∃ j, i - n ≤ j ∧ j < i ∧ (msg.drop j).take L = (msg.drop i).take L

theorem hasMatch_iff (msg : List α) (i n length : ℕ) (hn : n ≤ i) :
    hasMatch msg i n length = true ↔ Matches msg i n (length + 1) := by
  unfold hasMatch Matches
  rw [List.any_eq_true]
  simp only [List.mem_range'_1, decide_eq_true_eq, Nat.add_assoc _ length 1, slice_eq]
  constructor
  · rintro ⟨j, hj, h⟩
    exact ⟨j, by omega, by omega, h.symm⟩
  · rintro ⟨j, h1, h2, h⟩
    exact ⟨j, by omega, h.symm⟩

theorem longestMatch_fold (msg : List α) (i n m : ℕ) (hn : n ≤ i) (hlen : i + n ≤ msg.length) (hm : m ≤ n) :
    let r := (List.range m).foldl
      (fun m length => if hasMatch msg i n length then slice msg i (i + length + 1) else m) []
    r = (msg.drop i).take r.length ∧ r.length ≤ m ∧ (r = [] ∨ Matches msg i n r.length) ∧
      ∀ L, L ≤ m → 1 ≤ L → Matches msg i n L → L ≤ r.length := by
  induction m with
  | zero => simp
  | succ m ih =>
    have h := ih (by omega)
    simp only at h ⊢
    rw [List.range_succ, List.foldl_append, List.foldl_cons, List.foldl_nil]
    generalize (List.range m).foldl
      (fun m length => if hasMatch msg i n length then slice msg i (i + length + 1) else m) [] = r at *
    obtain ⟨h1, h2, h3, h4⟩ := h
    by_cases hm' : hasMatch msg i n m = true
    · rw [if_pos hm', Nat.add_assoc, slice_eq]
      have hl : ((msg.drop i).take (m + 1)).length = m + 1 := by
        rw [List.length_take, List.length_drop]; omega
      rw [hl]
      exact ⟨rfl, le_rfl, Or.inr ((hasMatch_iff msg i n m hn).1 hm'), fun L hL _ _ => hL⟩
    · rw [if_neg hm']
      refine ⟨h1, by omega, h3, ?_⟩
      intro L hL hL1 hM
      rcases Nat.eq_or_lt_of_le hL with rfl | hL
      · exact absurd ((hasMatch_iff msg i n m hn).2 hM) hm'
      · exact h4 L (by omega) hL1 hM

/-- C73.  With `1 ≤ n ≤ i` and `n` symbols from `i` on, the length is one plus the largest `L ≤ n` such
that the `L` symbols at `i` are also found at some start in `[i - n, i)`; the match is these symbols. -/
theorem C73_longest (msg : List α) (i n : ℕ) (h1 : 1 ≤ n) (hn : n ≤ i) (hlen : i + n ≤ msg.length) :
    ∃ L, IsGreatest {L | L ≤ n ∧ Matches msg i n L} L ∧
      longestMatch msg i n = (L + 1, (msg.drop i).take L) := by
  obtain ⟨a1, a2, a3, a4⟩ := longestMatch_fold msg i n n hn hlen le_rfl
  unfold longestMatch
  simp only at a1 a2 a3 a4 ⊢
  generalize (List.range n).foldl
      (fun m length => if hasMatch msg i n length then slice msg i (i + length + 1) else m) [] = r at *
  refine ⟨r.length, ⟨⟨a2, ?_⟩, ?_⟩, by rw [← a1]⟩
  · rcases a3 with rfl | h
    · exact ⟨i - n, le_rfl, by omega, by simp⟩
    · exact h
  · rintro L ⟨hL, hM⟩
    rcases Nat.eq_zero_or_pos L with rfl | hpos
    · exact Nat.zero_le _
    · exact a4 L hL hpos hM

example : longestMatch "0101011".toList 3 3 = (4, "101".toList) := by decide +kernel

/-! ## C74 -/

theorem sum_bounds (l : List (ℕ × ℕ)) (f : ℕ × ℕ → ℝ) (B : ℝ) (hne : l ≠ [])
    (h : ∀ p ∈ l, 0 < f p ∧ f p ≤ B) :
    0 < (l.map f).sum / l.length ∧ (l.map f).sum / l.length ≤ B := by
  have hN : (0 : ℝ) < l.length := by
    have := List.length_pos_iff.2 hne
    exact_mod_cast this
  have h2 : (l.map f).sum ≤ l.length * B := by
    clear hne hN
    induction l with
    | nil => simp
    | cons a l ih =>
      have h1 := ih fun p hp => h p (by simp [hp])
      have h3 := (h a (by simp)).2
      simp only [List.map_cons, List.sum_cons, List.length_cons]
      push_cast
      linarith
  have h1 : 0 < (l.map f).sum := by
    clear hN h2
    induction l with
    | nil => exact absurd rfl hne
    | cons a l ih =>
      have h3 := (h a (by simp)).1
      simp only [List.map_cons, List.sum_cons]
      rcases l with _ | ⟨b, l⟩
      · simpa using h3
      · have := ih (by simp) fun p hp => h p (by simp [hp])
        linarith
  constructor
  · positivity
  · rw [div_le_iff₀ hN]; linarith

/-- C74.  Every point used is in range; the estimate is positive and at most `log2(len/2 + 1)`. -/
theorem C74_bounds (msg : List α) (window : Option ℕ) (hlen : 2 ≤ msg.length)
    (hw : ∀ w, window = some w → 1 ≤ w) :
    ∃ v, kontoEntropy msg window = .ok v ∧ 0 < v ∧ v ≤ Real.logb 2 ((msg.length : ℝ) / 2 + 1) := by
  have hpts : kontoPoints msg.length window ≠ [] ∧ ∀ p ∈ kontoPoints msg.length window,
      1 ≤ p.2 ∧ p.2 ≤ msg.length / 2 := by
    cases window with
    | none =>
      constructor
      · simp [kontoPoints]; omega
      · intro p hp
        obtain ⟨i, hi, rfl⟩ := List.mem_map.1 hp
        rw [List.mem_range'_1] at hi
        simp only
        omega
    | some w =>
      have h1 := hw w rfl
      constructor
      · simp [kontoPoints]; omega
      · intro p hp
        obtain ⟨i, hi, rfl⟩ := List.mem_map.1 hp
        simp only
        omega
  have hterm : ∀ p ∈ kontoPoints msg.length window,
      0 < Real.logb 2 ((p.2 : ℝ) + 1) / ((longestMatch msg p.1 p.2).1 : ℝ) ∧
      Real.logb 2 ((p.2 : ℝ) + 1) / ((longestMatch msg p.1 p.2).1 : ℝ) ≤
        Real.logb 2 ((msg.length : ℝ) / 2 + 1) := by
    intro p hp
    obtain ⟨h1, h2⟩ := hpts.2 p hp
    have hp1 : (1 : ℝ) ≤ p.2 := by exact_mod_cast h1
    have hl : (1 : ℝ) ≤ ((longestMatch msg p.1 p.2).1 : ℝ) := by
      unfold longestMatch
      simp
    have hlog : 0 < Real.logb 2 ((p.2 : ℝ) + 1) := Real.logb_pos (by norm_num) (by linarith)
    constructor
    · positivity
    · have hle : Real.logb 2 ((p.2 : ℝ) + 1) / ((longestMatch msg p.1 p.2).1 : ℝ) ≤
          Real.logb 2 ((p.2 : ℝ) + 1) := div_le_self hlog.le hl
      refine hle.trans ?_
      apply Real.logb_le_logb_of_le (by norm_num) (by linarith)
      have : (p.2 : ℝ) * 2 ≤ msg.length := by
        have : p.2 * 2 ≤ msg.length := by omega
        exact_mod_cast this
      linarith
  obtain ⟨b1, b2⟩ := sum_bounds _ _ _ hpts.1 hterm
  refine ⟨_, ?_, b1, b2⟩
  unfold kontoEntropy
  simp only
  rw [if_neg (by simpa using hpts.1)]

/-- C74.  Which points are averaged: with an expanding window the positions `1 … len/2`, with window `w`
(cut to half of the message) the positions with `w` symbols on both sides; each contributes
`log2(window + 1)` over one plus the length of the longest match. -/
theorem C74_value (msg : List α) (window : Option ℕ) (hlen : 2 ≤ msg.length)
    (hw : ∀ w, window = some w → 1 ≤ w) (n : ℕ → ℕ)
    (hn : ∀ i, n i = window.elim i fun w => min w (msg.length / 2))
    (pts : List ℕ) (hs : pts.Pairwise (· < ·))
    (hp : ∀ i, i ∈ pts ↔ n i ≤ i ∧ 1 ≤ i ∧ i + n i ≤ msg.length) (L : ℕ → ℕ)
    (hL : ∀ i ∈ pts, IsGreatest {L | L ≤ n i ∧ Matches msg i (n i) L} (L i)) :
    kontoEntropy msg window = .ok ((pts.map fun i => Real.logb 2 ((n i : ℝ) + 1) / ((L i : ℝ) + 1)).sum /
      pts.length) := by
  have hpts : kontoPoints msg.length window = pts.map fun i => (i, n i) := by
    have hsorted : ∀ a b : ℕ, (List.range' a b).Pairwise (· < ·) := fun a b => List.pairwise_lt_range'
    have hext : ∀ l : List ℕ, l.Pairwise (· < ·) → (∀ i, i ∈ l ↔ i ∈ pts) → l = pts := by
      intro l hl hmem
      have hnd : l.Nodup := hl.imp fun h => ne_of_lt h
      have hnd' : pts.Nodup := hs.imp fun h => ne_of_lt h
      exact ((List.perm_ext_iff_of_nodup hnd hnd').2 hmem).eq_of_pairwise
        (fun a b _ _ h1 h2 => absurd h1 (not_lt.2 h2.le)) hl hs
    cases window with
    | none =>
      simp only [Option.elim_none] at hn
      unfold kontoPoints
      rw [hext (List.range' 1 (msg.length / 2)) (hsorted _ _) (by
        intro i
        rw [hp, hn, List.mem_range'_1]
        omega)]
      apply List.map_congr_left
      intro i _
      rw [hn]
    | some w =>
      simp only [Option.elim_some] at hn
      have h1 := hw w rfl
      simp only [kontoPoints]
      rw [hext (List.range' (min w (msg.length / 2)) (msg.length - min w (msg.length / 2) + 1 -
        min w (msg.length / 2))) (hsorted _ _) (by
        intro i
        rw [hp, hn, List.mem_range'_1]
        omega)]
      apply List.map_congr_left
      intro i _
      rw [hn]
  have hne : pts ≠ [] := by
    intro h
    have : (1 : ℕ) ∈ pts ∨ (min ((window.getD 1)) (msg.length / 2)) ∈ pts := by
      cases window with
      | none => left; rw [hp, hn]; simp; omega
      | some w =>
        have := hw w rfl
        right; rw [hp, hn]; simp; omega
    rw [h] at this
    simp at this
  unfold kontoEntropy
  simp only
  rw [hpts, if_neg (by simpa using hne), List.map_map, List.length_map]
  congr 3
  apply List.map_congr_left
  intro i hi
  simp only [Function.comp_apply]
  have hi' := (hp i).1 hi
  have hn1 : 1 ≤ n i := by
    rw [hn]
    cases window with
    | none => simp; omega
    | some w =>
      have := hw w rfl
      simp; omega
  obtain ⟨L', h1, h2⟩ := C73_longest msg i (n i) hn1 hi'.1 hi'.2.2
  have : L' = L i := h1.unique (hL i hi)
  rw [h2, this]
  push_cast
  rfl

/-- C74.  With an expanding window a message of fewer than two symbols raises ZeroDivisionError. -/
theorem C74_short (msg : List α) (h : msg.length < 2) : kontoEntropy msg none = .error .zeroDivision := by
  unfold kontoEntropy kontoPoints
  simp only
  rw [if_pos (by simp; omega)]

example : ∃ v, kontoEntropy "01".toList none = .ok v ∧ 0 < v ∧ v ≤ Real.logb 2 ((2 : ℝ) / 2 + 1) := by
  have := C74_bounds "01".toList none (by decide) (by simp)
  simpa using this

example : kontoPoints 7 (some 2) = [(2, 2), (3, 2), (4, 2), (5, 2)] := by decide

end FinML.Entropy
