import Verif.CV.CountModel
import Verif.CV.DoubleProps

/-! # A fraction of the observations, in doubles (C212) -/

namespace FinML.CV

/-- C212, full claim: where the fraction of the items is a whole number, that number is taken. -/
def WholeCounts : Prop := ∀ (n : ℕ) (p : ℚ) (k : ℕ), 0 ≤ p → p ≤ 1 → (n : ℚ) * p = k →
  countOf roundDouble n p = k

/-- C212, counterexample: 29 percent of 100 bars are 28 bars. -/
theorem C212_count_counterexample : ¬ WholeCounts := by
  intro h
  have h1 := h 100 (29 / 100) 29 (by norm_num) (by norm_num) (by norm_num)
  have h2 : countOf roundDouble 100 (29 / 100) = 28 := by decide +kernel
  rw [h1] at h2
  norm_num at h2

theorem countOf_near (n : ℕ) (p : ℚ) (hp : 0 ≤ p) (hp1 : p ≤ 1) (hn : n < 2 ^ 51) :
    0 ≤ roundDouble ((n : ℚ) * roundDouble p) ∧
      |(n : ℚ) * p - roundDouble ((n : ℚ) * roundDouble p)| < 1 := by
  refine ⟨roundDouble_nonneg _, ?_⟩
  have hn0 : (0 : ℚ) ≤ n := Nat.cast_nonneg n
  have hn' : (n : ℚ) < 2 ^ 51 := by exact_mod_cast hn
  have e1 := (C45_rounding p hp).2.2.2
  have hx0 := roundDouble_nonneg p
  generalize roundDouble p = x at *
  have e2 := (C45_rounding ((n : ℚ) * x) (mul_nonneg hn0 hx0)).2.2.2
  generalize roundDouble ((n : ℚ) * x) = y at *
  have hx1 : x ≤ 2 := by
    have h1 : p / 2 ^ 53 ≤ 1 := by rw [div_le_one (by positivity)]; exact hp1.trans (by norm_num)
    have := (abs_le.1 e1).1
    linarith
  have e3 : |(n : ℚ) * p - n * x| ≤ 1 / 4 := by
    rw [← mul_sub, abs_mul, abs_of_nonneg hn0]
    calc (n : ℚ) * |p - x| ≤ 2 ^ 51 * (1 / 2 ^ 53) := by
          apply mul_le_mul hn'.le _ (abs_nonneg _) (by positivity)
          exact e1.trans (div_le_div_of_nonneg_right hp1 (by positivity))
      _ = 1 / 4 := by norm_num
  have e4 : (n : ℚ) * x / 2 ^ 53 ≤ 1 / 2 := by
    rw [div_le_iff₀ (by positivity)]
    calc (n : ℚ) * x ≤ 2 ^ 51 * 2 := mul_le_mul hn'.le hx1 hx0 (by positivity)
      _ = 1 / 2 * 2 ^ 53 := by norm_num
  have := abs_sub_le ((n : ℚ) * p) (n * x) y
  linarith

theorem roundDouble_nat (k : ℕ) (hk : k < 2 ^ 53) : roundDouble (k : ℚ) = k := by
  have h := (C45_rounding (k : ℚ) (Nat.cast_nonneg _)).2.1 k ⟨k, 0, hk, by simp⟩
  rw [sub_self, abs_zero] at h
  have := abs_nonpos_iff.1 h
  linarith

/-- C212, what holds: the count is at most one away from the whole part of the fraction; it is never too
large where the fraction is a whole number, and right where the double the fraction is written as is not
below it (missing: fractions like 0.29, whose double is below). -/
theorem C212_count_partial (n : ℕ) (p : ℚ) (hp : 0 ≤ p) (hp1 : p ≤ 1) (hn : n < 2 ^ 51) :
    (⌊(n : ℚ) * p⌋ - 1 ≤ countOf roundDouble n p ∧ countOf roundDouble n p ≤ ⌊(n : ℚ) * p⌋ + 1) ∧
    ∀ k : ℕ, (n : ℚ) * p = k →
      (countOf roundDouble n p = k ∨ countOf roundDouble n p = k - 1) ∧
      (p ≤ roundDouble p → countOf roundDouble n p = k) := by
  obtain ⟨h0, h1⟩ := countOf_near n p hp hp1 hn
  have hc : countOf roundDouble n p = ⌊roundDouble ((n : ℚ) * roundDouble p)⌋ := by
    unfold countOf pyInt
    rw [if_pos h0]
  have hmono : p ≤ roundDouble p → ∀ k : ℕ, (n : ℚ) * p = k →
      (k : ℚ) ≤ roundDouble ((n : ℚ) * roundDouble p) := by
    intro hpr k hk
    have hkn : (k : ℚ) ≤ n := by rw [← hk]; exact mul_le_of_le_one_right (Nat.cast_nonneg _) hp1
    have hkn' : k ≤ n := by exact_mod_cast hkn
    rw [← roundDouble_nat k (by omega)]
    apply roundDouble_mono
    rw [← hk]
    exact mul_le_mul_of_nonneg_left hpr (Nat.cast_nonneg _)
  rw [hc]
  generalize roundDouble ((n : ℚ) * roundDouble p) = y at *
  rw [abs_lt] at h1
  have f1 := Int.floor_le ((n : ℚ) * p)
  have f2 := Int.lt_floor_add_one ((n : ℚ) * p)
  refine ⟨⟨?_, ?_⟩, ?_⟩
  · rw [Int.le_floor]
    push_cast
    linarith
  · rw [← Int.lt_add_one_iff, Int.floor_lt]
    push_cast
    linarith
  · intro k hk
    have hlt : ⌊y⌋ < (k : ℤ) + 1 := by
      rw [Int.floor_lt]
      push_cast
      linarith
    have hge : (k : ℤ) - 1 ≤ ⌊y⌋ := by
      rw [Int.le_floor]
      push_cast
      linarith
    refine ⟨by omega, fun hpr => ?_⟩
    have : (k : ℤ) ≤ ⌊y⌋ := by
      rw [Int.le_floor]
      push_cast
      exact hmono hpr k hk
    omega

/-- The hypotheses of C212 are met: one percent is a double not below 1/100; 57 percent is below, and of a
hundred bars gives 56, of a thousand 570. -/
example : (1 / 100 : ℚ) ≤ roundDouble (1 / 100) ∧ countOf roundDouble 100 (1 / 100) = 1 ∧
    countOf roundDouble 100 (57 / 100) = 56 ∧ countOf roundDouble 1000 (57 / 100) = 570 := by
  decide +kernel

end FinML.CV
