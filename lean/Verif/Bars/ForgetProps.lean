import Verif.Bars.EwmaProps

/-!
# C244: how the exponentially weighted mean forgets, and that it is linear
-/

namespace FinML.Bars

open Finset

variable {K : Type} [Field K] [LinearOrder K] [IsStrictOrderedRing K]

theorem span_alpha (span : ℕ) (hs : 1 ≤ span) :
    0 < 2 / ((span : K) + 1) ∧ 0 ≤ 1 - 2 / ((span : K) + 1) := by
  have h1 : (1 : K) ≤ (span : K) := by exact_mod_cast hs
  have h2 : (0 : K) < (span : K) + 1 := by linarith
  refine ⟨by positivity, ?_⟩
  rw [sub_nonneg, div_le_one h2]
  linarith

/-- C244.  If two series differ by at most `d` before position `m` and agree from there on, the means at position
`i` differ by at most `d` times the decay factor to the power of the number of common values seen. -/
theorem C244_forget (l l' : List K) (hlen : l.length = l'.length) (span : ℕ) (hs : 1 ≤ span) (adjust : Bool)
    (m : ℕ) (d : K) (hd : ∀ i < l.length, |l.getD i 0 - l'.getD i 0| ≤ d)
    (hsame : ∀ i, m ≤ i → i < l.length → l.getD i 0 = l'.getD i 0) (r r' : List K)
    (hr : fastEwma l span adjust = .ok r) (hr' : fastEwma l' span adjust = .ok r') (i : ℕ) (e e' : K)
    (he : r[i]? = some e) (he' : r'[i]? = some e') :
    |e - e'| ≤ d * (1 - 2 / ((span : K) + 1)) ^ (i + 1 - m) := by
  obtain ⟨ha, hq⟩ := span_alpha (K := K) span hs
  obtain ⟨q, hqd⟩ : ∃ q : K, 1 - 2 / ((span : K) + 1) = q := ⟨_, rfl⟩
  have hα : 2 / ((span : K) + 1) = 1 - q := by rw [← hqd]; ring
  cases adjust with
  | true =>
    obtain ⟨s, h1, h2, h3⟩ := C13_ewma_adjusted l span hs
    obtain ⟨s', g1, g2, g3⟩ := C13_ewma_adjusted l' span hs
    rw [h1] at hr
    rw [g1] at hr'
    cases hr
    cases hr'
    have hi : i < l.length := by rw [← h2]; exact (List.getElem?_eq_some_iff.1 he).1
    rw [h3 i hi] at he
    rw [g3 i (hlen ▸ hi)] at he'
    cases he
    cases he'
    rw [hqd] at hq ⊢
    have hd0 : 0 ≤ d := le_trans (abs_nonneg _) (hd i hi)
    have hW : 0 < ∑ k ∈ range (i + 1), q ^ k := by
      rw [sum_range_succ']
      have : 0 ≤ ∑ k ∈ range i, q ^ (k + 1) := sum_nonneg fun k _ => pow_nonneg hq _
      simp only [pow_zero]
      linarith
    rw [← sub_div, ← sum_sub_distrib, abs_div, abs_of_pos hW, div_le_iff₀ hW]
    refine (abs_sum_le_sum_abs _ _).trans ?_
    obtain ⟨c, hc⟩ : ∃ c, i + 1 = (i + 1 - m) + c := ⟨i + 1 - (i + 1 - m), by omega⟩
    obtain ⟨j, hj⟩ : ∃ j, i + 1 - m = j := ⟨_, rfl⟩
    rw [hj] at hc ⊢
    have hterm : ∀ k, k ≤ i → |q ^ k * l.getD (i - k) 0 - q ^ k * l'.getD (i - k) 0| =
        q ^ k * |l.getD (i - k) 0 - l'.getD (i - k) 0| := by
      intro k _
      rw [← mul_sub, abs_mul, abs_of_nonneg (pow_nonneg hq k)]
    have hsum : ∑ k ∈ range (i + 1), |q ^ k * l.getD (i - k) 0 - q ^ k * l'.getD (i - k) 0| ≤
        d * q ^ j * ∑ k ∈ range c, q ^ k := by
      rw [hc, sum_range_add]
      have z : ∑ k ∈ range j, |q ^ k * l.getD (i - k) 0 - q ^ k * l'.getD (i - k) 0| = 0 := by
        apply sum_eq_zero
        intro k hk
        rw [mem_range] at hk
        rw [hterm k (by omega), hsame (i - k) (by omega) (by omega)]
        simp
      rw [z, zero_add, mul_sum]
      apply sum_le_sum
      intro k hk
      rw [mem_range] at hk
      rw [hterm (j + k) (by omega), pow_add]
      have := hd (i - (j + k)) (by omega)
      have h5 : 0 ≤ q ^ j * q ^ k := mul_nonneg (pow_nonneg hq _) (pow_nonneg hq _)
      calc q ^ j * q ^ k * |l.getD (i - (j + k)) 0 - l'.getD (i - (j + k)) 0| ≤ q ^ j * q ^ k * d :=
            mul_le_mul_of_nonneg_left this h5
        _ = d * q ^ j * q ^ k := by ring
    refine hsum.trans (mul_le_mul_of_nonneg_left ?_ (mul_nonneg hd0 (pow_nonneg hq _)))
    apply sum_le_sum_of_subset_of_nonneg
    · intro k hk
      rw [mem_range] at hk ⊢
      omega
    · intro k _ _
      exact pow_nonneg hq _
  | false =>
    cases l with
    | nil => cases hr; simp at he
    | cons x xs =>
      cases l' with
      | nil => simp at hlen
      | cons x' xs' =>
        obtain ⟨s, h1, h2, h3, h4⟩ := C13_ewma_recursive x xs span
        obtain ⟨s', g1, g2, g3, g4⟩ := C13_ewma_recursive x' xs' span
        rw [h1] at hr
        rw [g1] at hr'
        cases hr
        cases hr'
        have hx := hd 0 (by simp)
        simp only [List.getD_cons_zero] at hx
        have hd0 : 0 ≤ d := le_trans (abs_nonneg _) hx
        rw [hqd] at hq ⊢
        clear h1 g1
        induction i generalizing e e' with
        | zero =>
          rw [h3] at he
          rw [g3] at he'
          cases he
          cases he'
          cases m with
          | zero =>
            have := hsame 0 le_rfl (by simp)
            simp only [List.getD_cons_zero] at this
            rw [this]
            simpa using mul_nonneg hd0 hq
          | succ m => simpa using hx
        | succ i ih =>
          have hi := (List.getElem?_eq_some_iff.1 he).1
          have hi1 : i < xs.length := by omega
          have hi2 : i < xs'.length := by simp at hlen; omega
          obtain ⟨e0, e1, a1, a2, a3⟩ := h4 i hi1
          obtain ⟨f0, f1, b1, b2, b3⟩ := g4 i hi2
          rw [a2] at he
          rw [b2] at he'
          cases he
          cases he'
          have hih := ih e0 f0 a1 b1
          have hdi := hd (i + 1) (by simpa using hi1)
          rw [List.getD_cons_succ, List.getD_cons_succ, List.getD_eq_getElem _ _ hi1,
            List.getD_eq_getElem _ _ hi2] at hdi
          rw [a3, b3, hqd, hα]
          rw [hα] at ha
          have hsplit : (1 - q) * xs[i] + q * e0 - ((1 - q) * xs'[i] + q * f0) =
              (1 - q) * (xs[i] - xs'[i]) + q * (e0 - f0) := by ring
          rw [hsplit]
          have habs : |(1 - q) * (xs[i] - xs'[i]) + q * (e0 - f0)| ≤
              (1 - q) * |xs[i] - xs'[i]| + q * |e0 - f0| := by
            refine (abs_add_le _ _).trans ?_
            rw [abs_mul, abs_mul, abs_of_pos ha, abs_of_nonneg hq]
          refine habs.trans ?_
          by_cases hm : m ≤ i + 1
          · have := hsame (i + 1) hm (by simpa using hi1)
            rw [List.getD_cons_succ, List.getD_cons_succ, List.getD_eq_getElem _ _ hi1,
              List.getD_eq_getElem _ _ hi2] at this
            rw [this, sub_self, abs_zero, mul_zero, zero_add,
              show i + 1 + 1 - m = (i + 1 - m) + 1 by omega, pow_succ]
            calc q * |e0 - f0| ≤ q * (d * q ^ (i + 1 - m)) := mul_le_mul_of_nonneg_left hih hq
              _ = d * (q ^ (i + 1 - m) * q) := by ring
          · rw [show i + 1 - m = 0 by omega, pow_zero, mul_one] at hih
            rw [show i + 1 + 1 - m = 0 by omega, pow_zero, mul_one]
            have h6 := mul_le_mul_of_nonneg_left hdi ha.le
            have h7 := mul_le_mul_of_nonneg_left hih hq
            linarith

/-- C244.  The mean is linear: that of `a x + b y` is `a` times that of `x` plus `b` times that of `y`. -/
theorem C244_linear (l l' : List K) (hlen : l.length = l'.length) (span : ℕ) (hs : 1 ≤ span) (adjust : Bool)
    (a b : K) (r r' s : List K) (hr : fastEwma l span adjust = .ok r) (hr' : fastEwma l' span adjust = .ok r')
    (hsum : fastEwma (List.zipWith (fun x y => a * x + b * y) l l') span adjust = .ok s) (i : ℕ) (e e' : K)
    (he : r[i]? = some e) (he' : r'[i]? = some e') : s[i]? = some (a * e + b * e') := by
  cases adjust with
  | true =>
    obtain ⟨s1, h1, h2, h3⟩ := C13_ewma_adjusted l span hs
    obtain ⟨s2, g1, g2, g3⟩ := C13_ewma_adjusted l' span hs
    obtain ⟨s3, k1, k2, k3⟩ := C13_ewma_adjusted (List.zipWith (fun x y => a * x + b * y) l l') span hs
    rw [h1] at hr
    rw [g1] at hr'
    rw [k1] at hsum
    cases hr
    cases hr'
    cases hsum
    have hi : i < l.length := by rw [← h2]; exact (List.getElem?_eq_some_iff.1 he).1
    rw [h3 i hi] at he
    rw [g3 i (hlen ▸ hi)] at he'
    rw [k3 i (by rw [List.length_zipWith]; omega)]
    cases he
    cases he'
    congr 1
    rw [← mul_div_assoc, ← mul_div_assoc, ← add_div, mul_sum, mul_sum, ← sum_add_distrib]
    congr 1
    apply sum_congr rfl
    intro k hk
    rw [mem_range] at hk
    have e1 : i - k < l.length := by omega
    have e2 : i - k < l'.length := by omega
    rw [List.getD_eq_getElem _ _ (by rw [List.length_zipWith]; omega), List.getElem_zipWith,
      List.getD_eq_getElem _ _ e1, List.getD_eq_getElem _ _ e2]
    ring
  | false =>
    cases l with
    | nil => cases hr; simp at he
    | cons x xs =>
      cases l' with
      | nil => simp at hlen
      | cons x' xs' =>
        obtain ⟨s1, h1, h2, h3, h4⟩ := C13_ewma_recursive x xs span
        obtain ⟨s2, g1, g2, g3, g4⟩ := C13_ewma_recursive x' xs' span
        obtain ⟨s3, k1, k2, k3, k4⟩ := C13_ewma_recursive (a * x + b * x')
          (List.zipWith (fun x y => a * x + b * y) xs xs') span
        rw [List.zipWith_cons_cons, k1] at hsum
        rw [h1] at hr
        rw [g1] at hr'
        cases hr
        cases hr'
        cases hsum
        clear h1 g1 k1
        simp only [List.length_cons, Nat.add_right_cancel_iff] at hlen
        induction i generalizing e e' with
        | zero =>
          rw [h3] at he
          rw [g3] at he'
          cases he
          cases he'
          exact k3
        | succ i ih =>
          have hi := (List.getElem?_eq_some_iff.1 he).1
          have hi1 : i < xs.length := by omega
          have hi2 : i < xs'.length := by omega
          obtain ⟨e0, e1, a1, a2, a3⟩ := h4 i hi1
          obtain ⟨f0, f1, b1, b2, b3⟩ := g4 i hi2
          obtain ⟨m0, m1, c1, c2, c3⟩ := k4 i (by rw [List.length_zipWith]; omega)
          rw [a2] at he
          rw [b2] at he'
          cases he
          cases he'
          have hih := ih e0 f0 a1 b1
          rw [c1] at hih
          cases hih
          rw [c2, c3, a3, b3, List.getElem_zipWith]
          congr 1
          ring

/-- A case: series that differ in the first value only. -/
example : fastEwma ([5, 2, 4] : List ℚ) 3 false = .ok [5, 7 / 2, 15 / 4] ∧
    fastEwma ([1, 2, 4] : List ℚ) 3 false = .ok [1, 3 / 2, 11 / 4] := by decide +kernel

end FinML.Bars
