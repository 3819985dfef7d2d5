import Verif.Bars.DoubleModel
import Verif.CV.DoubleProps
import Verif.CV.CountProps
import Mathlib.Algebra.Order.BigOperators.Group.List

/-! # The bar of a tick in doubles (C213) -/

namespace FinML.Bars

open FinML.CV

/-- The bar a tick belongs to: the number of whole bars in the quantity traded up to and with it. -/
def exactBar (freq : ℚ) (q : List ℚ) (i : ℕ) : ℤ := ⌊(q.take (i + 1)).sum / freq⌋

/-- C213, full claim: the doubles put every tick into the bar it belongs to. -/
def DoubleBars : Prop := ∀ (freq : ℚ) (q : List ℚ), 0 < freq → (∀ x ∈ q, 0 ≤ x) →
  ∀ i < q.length, (cumIdsR roundDouble freq q)[i]? = some (exactBar freq q i)

/-- C213, counterexample: bars of volume one, ten ticks of volume 0.1; the tenth completes the bar and
should open the next one, but stays in the first. -/
theorem C213_doubles_counterexample : ¬ DoubleBars := by
  intro h
  have h1 := h 1 (List.replicate 10 (1 / 10)) (by norm_num) (by simp) 9 (by simp)
  have h2 : (cumIdsR roundDouble 1 (List.replicate 10 (1 / 10)))[9]? = some 0 := by decide +kernel
  have h3 : exactBar 1 (List.replicate 10 (1 / 10)) 9 = 1 := by decide +kernel
  rw [h2, h3] at h1
  simp at h1

theorem roundDouble_of_isDouble {x : ℚ} (h : IsDouble x) : roundDouble x = x := by
  have hx : 0 ≤ x := by
    obtain ⟨m, e, -, rfl⟩ := h
    exact mul_nonneg (Nat.cast_nonneg _) (zp _).le
  have h1 := (C45_rounding x hx).2.1 x h
  rw [sub_self, abs_zero] at h1
  have := abs_nonpos_iff.1 h1
  linarith

theorem cumsumR_exact (e : ℤ) (m : List ℕ) (s : ℕ) (h : s + m.sum < 2 ^ 53) :
    cumsumR roundDouble (s * (2 : ℚ) ^ e) (m.map fun k : ℕ => (k : ℚ) * (2 : ℚ) ^ e) =
      cumsumFrom ((s : ℚ) * (2 : ℚ) ^ e) (m.map fun k : ℕ => (k : ℚ) * (2 : ℚ) ^ e) := by
  induction m generalizing s with
  | nil => rfl
  | cons k m ih =>
    rw [List.sum_cons] at h
    have h1 : roundDouble ((k : ℚ) * (2 : ℚ) ^ e) = (k : ℚ) * (2 : ℚ) ^ e :=
      roundDouble_of_isDouble ⟨k, e, by omega, rfl⟩
    have h2 : (s : ℚ) * (2 : ℚ) ^ e + (k : ℚ) * (2 : ℚ) ^ e = ((s + k : ℕ) : ℚ) * (2 : ℚ) ^ e := by
      push_cast; ring
    have h3 : roundDouble (((s + k : ℕ) : ℚ) * (2 : ℚ) ^ e) = ((s + k : ℕ) : ℚ) * (2 : ℚ) ^ e :=
      roundDouble_of_isDouble ⟨s + k, e, by omega, rfl⟩
    simp only [List.map_cons, cumsumR, cumsumFrom]
    rw [h1, h2, h3, ih (s + k) (by omega)]

/-- C213, what holds, whole lots: quantities that are whole multiples of a power of two, less than `2^53`
of them in all, and a double as bar size give every tick its bar (missing: decimal fractions). -/
theorem C213_lots_partial (freq : ℚ) (hf : IsDouble freq) (e : ℤ) (m : List ℕ) (h : m.sum < 2 ^ 53) (i : ℕ)
    (hi : i < m.length) :
    (cumIdsR roundDouble freq (m.map fun k : ℕ => (k : ℚ) * (2 : ℚ) ^ e))[i]? =
      some (exactBar freq (m.map fun k : ℕ => (k : ℚ) * (2 : ℚ) ^ e) i) := by
  have h0 := cumsumR_exact e m 0 (by omega)
  rw [Nat.cast_zero, zero_mul] at h0
  unfold cumIdsR exactBar
  rw [h0, roundDouble_of_isDouble hf, List.getElem?_map]
  have := getElem?_cumsum (m.map fun k : ℕ => (k : ℚ) * (2 : ℚ) ^ e) i (by simpa using hi)
  unfold cumsum at this
  rw [this]
  rfl

theorem cumsumR_near (q : List ℚ) (hq : ∀ x ∈ q, 0 ≤ x) (s t : ℚ) (hs : 0 ≤ s) (j : ℕ)
    (hlo : s * (1 - 1 / 2 ^ 53) ^ (j + 1) ≤ t) (hhi : t ≤ s * (1 + 1 / 2 ^ 53) ^ (j + 1)) (i : ℕ)
    (hi : i < q.length) :
    ∃ c, (cumsumR roundDouble t q)[i]? = some c ∧
      (s + (q.take (i + 1)).sum) * (1 - 1 / 2 ^ 53) ^ (i + j + 2) ≤ c ∧
      c ≤ (s + (q.take (i + 1)).sum) * (1 + 1 / 2 ^ 53) ^ (i + j + 2) := by
  induction q generalizing s t j i with
  | nil => simp at hi
  | cons x q ih =>
    have hx : 0 ≤ x := hq x (by simp)
    have a1 := abs_le.1 (C45_rounding x hx).2.2.2
    have hx' := roundDouble_nonneg x
    have ht : 0 ≤ t := le_trans (mul_nonneg hs (by positivity)) hlo
    have a2 := abs_le.1 (C45_rounding (t + roundDouble x) (by linarith)).2.2.2
    obtain ⟨x', hxe⟩ : ∃ x', roundDouble x = x' := ⟨_, rfl⟩
    rw [hxe] at a1 a2 hx'
    obtain ⟨c, hc⟩ : ∃ c, roundDouble (t + x') = c := ⟨_, rfl⟩
    rw [hc] at a2
    have hun : cumsumR roundDouble t (x :: q) = c :: cumsumR roundDouble c q := by
      rw [cumsumR, hxe, hc]
    rw [hun]
    have hp : (1 : ℚ) ≤ (1 + 1 / 2 ^ 53) ^ (j + 1) := one_le_pow₀ (by norm_num)
    have hp' : (1 - 1 / 2 ^ 53 : ℚ) ^ j ≤ 1 := pow_le_one₀ (by norm_num) (by norm_num)
    have hu : x' ≤ x * (1 + 1 / 2 ^ 53) := by
      have : x * (1 + 1 / 2 ^ 53) = x + x / 2 ^ 53 := by ring
      rw [this]; linarith [a1.1]
    have hl : x * (1 - 1 / 2 ^ 53) ≤ x' := by
      have : x * (1 - 1 / 2 ^ 53) = x - x / 2 ^ 53 := by ring
      rw [this]; linarith [a1.2]
    have hcu : c ≤ (t + x') * (1 + 1 / 2 ^ 53) := by
      have : (t + x') * (1 + 1 / 2 ^ 53) = (t + x') + (t + x') / 2 ^ 53 := by ring
      rw [this]; linarith [a2.1]
    have hcl : (t + x') * (1 - 1 / 2 ^ 53) ≤ c := by
      have : (t + x') * (1 - 1 / 2 ^ 53) = (t + x') - (t + x') / 2 ^ 53 := by ring
      rw [this]; linarith [a2.2]
    have hhi' : c ≤ (s + x) * (1 + 1 / 2 ^ 53) ^ (j + 1 + 1) := by
      refine hcu.trans ?_
      rw [pow_succ (1 + 1 / 2 ^ 53 : ℚ) (j + 1), ← mul_assoc]
      apply mul_le_mul_of_nonneg_right _ (by norm_num)
      have hxx : x * (1 + 1 / 2 ^ 53) ≤ x * (1 + 1 / 2 ^ 53) ^ (j + 1) := by
        apply mul_le_mul_of_nonneg_left _ hx
        exact le_self_pow₀ (by norm_num) (by omega)
      rw [add_mul]
      linarith
    have hlo' : (s + x) * (1 - 1 / 2 ^ 53) ^ (j + 1 + 1) ≤ c := by
      refine le_trans ?_ hcl
      rw [pow_succ (1 - 1 / 2 ^ 53 : ℚ) (j + 1), ← mul_assoc]
      apply mul_le_mul_of_nonneg_right _ (by norm_num)
      have hxx : x * (1 - 1 / 2 ^ 53) ^ (j + 1) ≤ x * (1 - 1 / 2 ^ 53) := by
        apply mul_le_mul_of_nonneg_left _ hx
        exact pow_le_of_le_one (by norm_num) (by norm_num) (by omega)
      rw [add_mul]
      linarith
    cases i with
    | zero =>
      refine ⟨c, rfl, ?_, ?_⟩
      · have : 0 + j + 2 = j + 1 + 1 := by omega
        rw [this]
        simpa using hlo'
      · have : 0 + j + 2 = j + 1 + 1 := by omega
        rw [this]
        simpa using hhi'
    | succ i =>
      obtain ⟨d, d1, d2, d3⟩ := ih (fun y hy => hq y (by simp [hy])) (s + x) c (by linarith) (j + 1) hlo' hhi' i
        (by simpa using hi)
      have e1 : i + (j + 1) + 2 = i + 1 + j + 2 := by omega
      have e2 : s + ((x :: q).take (i + 1 + 1)).sum = s + x + (q.take (i + 1)).sum := by
        rw [List.take_succ_cons, List.sum_cons, add_assoc]
      rw [e1] at d2 d3
      rw [e2]
      exact ⟨d, d1, d2, d3⟩

/-- C213, what holds, any quantities: a tick whose exact running sum stays inside a bar even when it is moved
by the rounding error of `i + 2` roundings is put into that bar (missing: sums nearer to a boundary). -/
theorem C213_inside_partial (freq : ℚ) (hf0 : 0 < freq) (hf : IsDouble freq) (q : List ℚ) (hq : ∀ x ∈ q, 0 ≤ x)
    (i : ℕ) (hi : i < q.length) (b : ℤ)
    (h1 : (b : ℚ) * freq ≤ (q.take (i + 1)).sum * (1 - 1 / 2 ^ 53) ^ (i + 2))
    (h2 : (q.take (i + 1)).sum * (1 + 1 / 2 ^ 53) ^ (i + 2) < ((b : ℚ) + 1) * freq) :
    (cumIdsR roundDouble freq q)[i]? = some b ∧ exactBar freq q i = b := by
  obtain ⟨c, c1, c2, c3⟩ := cumsumR_near q hq 0 0 le_rfl 0 (by simp) (by simp) i hi
  simp only [zero_add, Nat.add_zero] at c2 c3
  have hsum : 0 ≤ (q.take (i + 1)).sum := List.sum_nonneg fun x hx => hq x (List.mem_of_mem_take hx)
  refine ⟨?_, ?_⟩
  · unfold cumIdsR
    rw [List.getElem?_map, c1, roundDouble_of_isDouble hf]
    simp only [Option.map_some, floorDiv, Option.some.injEq]
    rw [Int.floor_eq_iff, le_div_iff₀ hf0, div_lt_iff₀ hf0]
    exact ⟨h1.trans c2, lt_of_le_of_lt c3 h2⟩
  · unfold exactBar
    rw [Int.floor_eq_iff, le_div_iff₀ hf0, div_lt_iff₀ hf0]
    refine ⟨h1.trans ?_, lt_of_le_of_lt ?_ h2⟩
    · exact mul_le_of_le_one_right hsum (pow_le_one₀ (by norm_num) (by norm_num))
    · exact le_mul_of_one_le_right hsum (one_le_pow₀ (by norm_num))

/-- The hypotheses are met: three ticks of 0.4 with bars of volume one; whole lots with bars of 100. -/
example : cumIdsR roundDouble 1 [4 / 10, 4 / 10, 4 / 10] = [0, 0, 1] ∧
    cumIdsR roundDouble 100 [60, 40, 99, 1] = [0, 1, 1, 2] ∧ IsDouble 100 ∧
    ((1 : ℤ) : ℚ) * 1 ≤ ([4 / 10, 4 / 10, 4 / 10] : List ℚ).sum * (1 - 1 / 2 ^ 53) ^ (2 + 2) ∧
    ([4 / 10, 4 / 10, 4 / 10] : List ℚ).sum * (1 + 1 / 2 ^ 53) ^ (2 + 2) < (((1 : ℤ) : ℚ) + 1) * 1 := by
  refine ⟨by decide +kernel, by decide +kernel, ⟨100, 0, by norm_num, by norm_num⟩, ?_, ?_⟩ <;> norm_num

end FinML.Bars
