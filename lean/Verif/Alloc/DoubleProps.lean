import Verif.Alloc.DoubleModel
import Verif.Alloc.ProbProps
import Verif.CV.DoubleProps
import Verif.CV.CountProps

/-! # Discretised sizes in doubles (C245) -/

namespace FinML.Alloc

open FinML.CV (roundDouble IsDouble C45_rounding roundDouble_mono roundDouble_nonneg roundDouble_nat)

/-- C245, full claim: the size in doubles is the double nearest to the exact discretised size. -/
def DoubleSizes : Prop := ∀ step x : ℚ, 0 < step → step ≤ 1 → signedDouble step = step → |x| ≤ 1 →
  signedDouble x = x → discretizeR signedDouble step x = signedDouble (discretize step x)

/-- C245, counterexample: the size 0.75 in steps of 0.1.  The double 0.1 is a little more than a tenth, so 0.75
is a little less than seven and a half steps and seven steps are nearest; the quotient is rounded to 7.5 and
that to 8. -/
theorem C245_doubles_counterexample : ¬ DoubleSizes := by
  intro h
  have h1 := h (roundDouble (1 / 10)) (3 / 4) (by decide +kernel) (by decide +kernel) (by decide +kernel)
    (by decide +kernel) (by decide +kernel)
  have h2 : discretizeR signedDouble (roundDouble (1 / 10)) (3 / 4) = roundDouble (8 / 10) := by decide +kernel
  have h3 : signedDouble (discretize (roundDouble (1 / 10)) (3 / 4)) < roundDouble (8 / 10) := by decide +kernel
  rw [← h1, h2] at h3
  exact lt_irrefl _ h3

theorem signedDouble_neg (q : ℚ) : signedDouble (-q) = -signedDouble q := by
  unfold signedDouble
  have h0 : roundDouble 0 = 0 := by simp [roundDouble]
  rcases lt_trichotomy q 0 with h | rfl | h
  · rw [if_pos h, if_neg (by linarith)]; ring
  · simp [h0]
  · rw [if_pos (by linarith), if_neg (by linarith), neg_neg]

theorem signedDouble_mono : Monotone signedDouble := by
  intro p q h
  unfold signedDouble
  split_ifs with h1 h2
  · exact neg_le_neg (roundDouble_mono (by linarith))
  · linarith [roundDouble_nonneg (-p), roundDouble_nonneg q]
  · linarith
  · exact roundDouble_mono h

theorem signedDouble_err (q : ℚ) : |signedDouble q - q| ≤ |q| / 2 ^ 53 := by
  unfold signedDouble
  split_ifs with h
  · have := (C45_rounding (-q) (by linarith)).2.2.2
    rw [abs_of_neg h, show -roundDouble (-q) - q = -q - roundDouble (-q) by ring]
    exact this
  · have := (C45_rounding q (by linarith)).2.2.2
    rw [abs_of_nonneg (not_lt.1 h), abs_sub_comm]
    exact this

theorem signedDouble_nat (k : ℕ) (hk : k < 2 ^ 53) : signedDouble (k : ℚ) = k := by
  unfold signedDouble
  rw [if_neg (by simp), roundDouble_nat k hk]

theorem signedDouble_one : signedDouble 1 = 1 := by
  have := signedDouble_nat 1 (by norm_num)
  simpa using this

theorem discretizeR_form (step x : ℚ) : discretizeR signedDouble step x =
    max (-1) (min 1 (signedDouble ((roundHalfEven (signedDouble (x / step)) : ℚ) * step))) := by
  unfold discretizeR
  simp only
  generalize signedDouble ((roundHalfEven (signedDouble (x / step)) : ℚ) * step) = d
  by_cases h1 : 1 < d
  · simp only [h1, if_true]
    rw [if_neg (by norm_num), min_eq_left h1.le, max_eq_right (by norm_num)]
  · simp only [h1, if_false]
    rw [min_eq_right (not_lt.1 h1)]
    split_ifs with h2
    · rw [max_eq_left h2.le]
    · rw [max_eq_right (not_lt.1 h2)]

theorem discretize_form (step x : ℚ) : discretize step x =
    max (-1) (min 1 ((roundHalfEven (x / step) : ℚ) * step)) := by
  unfold discretize
  simp only
  generalize (roundHalfEven (x / step) : ℚ) * step = d
  by_cases h1 : 1 < d
  · simp only [h1, if_true]
    rw [if_neg (by norm_num), min_eq_left h1.le, max_eq_right (by norm_num)]
  · simp only [h1, if_false]
    rw [min_eq_right (not_lt.1 h1)]
    split_ifs with h2
    · rw [max_eq_left h2.le]
    · rw [max_eq_right (not_lt.1 h2)]

/-- C245, what holds, order and sign: in doubles too the size is within `[-1, 1]`, grows with the size given
and changes sign with it. -/
theorem C245_shape_partial (step : ℚ) (hs : 0 < step) :
    (∀ x, |discretizeR signedDouble step x| ≤ 1) ∧ Monotone (discretizeR signedDouble step) ∧
    (∀ x, discretizeR signedDouble step (-x) = -discretizeR signedDouble step x) := by
  refine ⟨fun x => ?_, fun x y h => ?_, fun x => ?_⟩
  · rw [discretizeR_form, abs_le]
    exact ⟨le_max_left _ _, max_le (by norm_num) (min_le_left _ _)⟩
  · rw [discretizeR_form, discretizeR_form]
    have h1 : ((roundHalfEven (signedDouble (x / step)) : ℤ) : ℚ) ≤ (roundHalfEven (signedDouble (y / step)) : ℤ) := by
      exact_mod_cast roundHalfEven_mono (signedDouble_mono (div_le_div_of_nonneg_right h hs.le))
    exact max_le_max_left _ (min_le_min_left _ (signedDouble_mono (mul_le_mul_of_nonneg_right h1 hs.le)))
  · rw [discretizeR_form, discretizeR_form, neg_div, signedDouble_neg, roundHalfEven_neg]
    push_cast
    rw [neg_mul, signedDouble_neg]
    generalize signedDouble _ = d
    rcases le_total 1 d with h1 | h1
    · rw [min_eq_left h1, min_eq_right (by linarith), max_eq_left (by linarith), max_eq_right (by norm_num)]
    · rw [min_eq_right h1]
      rcases le_total (-1) d with h2 | h2
      · rw [max_eq_right h2, min_eq_right (by linarith), max_eq_right (by linarith)]
      · rw [max_eq_left h2, min_eq_left (by linarith), max_eq_right (by norm_num)]; norm_num

/-- C245, what holds, clear cases: a size that is not within its rounding error of the middle between two
steps gets the double nearest to the exact discretised size (missing: the middle). -/
theorem C245_clear_partial (step x : ℚ) (k : ℤ)
    (h : |x / step - k| + |x / step| / 2 ^ 53 < 1 / 2) :
    discretizeR signedDouble step x = signedDouble (discretize step x) ∧
    discretize step x = max (-1) (min 1 (k * step)) := by
  have h1 : roundHalfEven (x / step) = k := by
    have : 0 ≤ |x / step| / 2 ^ 53 := by positivity
    exact roundHalfEven_unique _ _ (by linarith) (fun h2 => by linarith)
  have h2 : |signedDouble (x / step) - k| < 1 / 2 := by
    have e := signedDouble_err (x / step)
    calc |signedDouble (x / step) - k| = |(signedDouble (x / step) - x / step) + (x / step - k)| := by ring_nf
      _ ≤ _ := abs_add_le _ _
      _ < 1 / 2 := by linarith
  have h3 : roundHalfEven (signedDouble (x / step)) = k :=
    roundHalfEven_unique _ _ h2.le (fun h4 => by linarith)
  have h4 : signedDouble (-1) = -1 := by rw [signedDouble_neg, signedDouble_one]
  refine ⟨?_, by rw [discretize_form, h1]⟩
  rw [discretizeR_form, discretize_form, h1, h3, signedDouble_mono.map_max, signedDouble_mono.map_min, h4,
    signedDouble_one]

/-- C245, what holds, accuracy: the size in doubles is within half a step and three roundings of the size
given. -/
theorem C245_near_partial (step x : ℚ) (hs : 0 < step) (hs1 : step ≤ 1) (hx : |x| ≤ 1) :
    |discretizeR signedDouble step x - x| ≤ step / 2 + 3 / 2 ^ 53 := by
  have e1 := signedDouble_err (x / step)
  have e2 := (roundHalfEven_near (signedDouble (x / step))).1
  generalize hz : signedDouble (x / step) = z at *
  generalize hk : roundHalfEven z = k at *
  have e3 := signedDouble_err ((k : ℚ) * step)
  rw [discretizeR_form, hz, hk]
  generalize signedDouble ((k : ℚ) * step) = d at *
  have a1 : |z * step - x| ≤ |x| / 2 ^ 53 := by
    have : z * step - x = (z - x / step) * step := by field_simp
    rw [this, abs_mul, abs_of_pos hs]
    have h2 : |x / step| * step = |x| := by rw [abs_div, abs_of_pos hs]; field_simp
    calc |z - x / step| * step ≤ |x / step| / 2 ^ 53 * step := mul_le_mul_of_nonneg_right e1 hs.le
      _ = |x / step| * step / 2 ^ 53 := by ring
      _ = _ := by rw [h2]
  have a2 : |(k : ℚ) * step - z * step| ≤ step / 2 := by
    rw [← sub_mul, abs_mul, abs_of_pos hs, abs_sub_comm]
    nlinarith
  rw [abs_le] at a1 a2 hx e3
  have a3 : |(k : ℚ) * step| ≤ 2 := by
    rw [abs_le]
    have : |x| / 2 ^ 53 ≤ 1 / 2 ^ 53 := by
      apply div_le_div_of_nonneg_right _ (by positivity)
      rw [abs_le]; exact hx
    have h9 : (1 : ℚ) / 2 ^ 53 ≤ 1 / 2 := by norm_num
    constructor <;> linarith
  have a4 : |x| / 2 ^ 53 ≤ 1 / 2 ^ 53 := by
    apply div_le_div_of_nonneg_right _ (by positivity)
    rw [abs_le]; exact hx
  have a5 : |(k : ℚ) * step| / 2 ^ 53 ≤ 2 / 2 ^ 53 := div_le_div_of_nonneg_right a3 (by positivity)
  have b1 : d - x ≤ step / 2 + 3 / 2 ^ 53 := by linarith
  have b2 : -(step / 2 + 3 / 2 ^ 53) ≤ d - x := by linarith
  have b3 : 0 ≤ step / 2 + 3 / 2 ^ 53 := by positivity
  rw [abs_le]
  rcases le_total 1 d with h1 | h1
  · rw [min_eq_left h1, max_eq_right (by norm_num)]
    constructor <;> linarith
  · rw [min_eq_right h1]
    rcases le_total (-1) d with h2 | h2
    · rw [max_eq_right h2]; exact ⟨b2, b1⟩
    · rw [max_eq_left h2]
      constructor <;> linarith

/-- C245, what holds, no drift: a size that has been discretised in doubles stays as it is when discretised
again (steps down to `2^-49`). -/
theorem C245_again_partial (step x : ℚ) (hs : 1 / 2 ^ 49 ≤ step) (hx : |x| ≤ 1) :
    discretizeR signedDouble step (discretizeR signedDouble step x) = discretizeR signedDouble step x := by
  have hs0 : 0 < step := lt_of_lt_of_le (by norm_num) hs
  wlog h0 : 0 ≤ x generalizing x with H
  · have h1 := H (-x) (by rwa [abs_neg]) (by linarith)
    have h2 := (C245_shape_partial step hs0).2.2
    rw [h2, h2] at h1
    exact neg_inj.1 h1
  rw [abs_of_nonneg h0] at hx
  have hz0 : 0 ≤ signedDouble (x / step) := by
    have : signedDouble 0 = 0 := by simpa using signedDouble_nat 0 (by norm_num)
    rw [← this]; exact signedDouble_mono (by positivity)
  have hz1 : signedDouble (x / step) ≤ signedDouble (1 / step) :=
    signedDouble_mono (div_le_div_of_nonneg_right hx hs0.le)
  have hz2 : signedDouble (1 / step) ≤ 2 ^ 49 := by
    have h1 : signedDouble ((2 ^ 49 : ℕ) : ℚ) = ((2 ^ 49 : ℕ) : ℚ) := signedDouble_nat _ (by norm_num)
    have h2 : (2 : ℚ) ^ 49 = ((2 ^ 49 : ℕ) : ℚ) := by norm_num
    rw [h2, ← h1, ← h2]
    apply signedDouble_mono
    rw [div_le_iff₀ hs0]
    rw [div_le_iff₀ (by positivity)] at hs
    linarith
  have hr0 : roundHalfEven (0 : ℚ) = 0 := roundHalfEven_unique _ _ (by norm_num) (by norm_num)
  have hk0 : 0 ≤ roundHalfEven (signedDouble (x / step)) := by rw [← hr0]; exact roundHalfEven_mono hz0
  have hk1 := roundHalfEven_mono hz1
  have hk2 : roundHalfEven (signedDouble (x / step)) ≤ 2 ^ 49 := by
    have h1 : roundHalfEven ((2 : ℚ) ^ 49) = 2 ^ 49 := roundHalfEven_unique _ _ (by norm_num) (by norm_num)
    rw [← h1]; exact roundHalfEven_mono (hz1.trans hz2)
  rw [discretizeR_form step x]
  generalize hk : roundHalfEven (signedDouble (x / step)) = k at *
  have hkq0 : (0 : ℚ) ≤ k := by exact_mod_cast hk0
  have hkq2 : (k : ℚ) ≤ 2 ^ 49 := by exact_mod_cast hk2
  generalize hd : signedDouble ((k : ℚ) * step) = d at *
  have hd0 : 0 ≤ d := by
    have : signedDouble 0 = 0 := by simpa using signedDouble_nat 0 (by norm_num)
    rw [← hd, ← this]; exact signedDouble_mono (by positivity)
  rw [max_eq_right (show (-1 : ℚ) ≤ min 1 d from le_min (by norm_num) (by linarith))]
  rcases le_total 1 d with h1 | h1
  · rw [min_eq_left h1, discretizeR_form]
    have h2 : d ≤ signedDouble ((roundHalfEven (signedDouble (1 / step)) : ℚ) * step) := by
      rw [← hd]
      apply signedDouble_mono
      apply mul_le_mul_of_nonneg_right _ hs0.le
      exact_mod_cast hk1
    rw [min_eq_left (h1.trans h2), max_eq_right (by norm_num)]
  · rw [min_eq_right h1, discretizeR_form]
    have e1 := signedDouble_err ((k : ℚ) * step)
    rw [hd] at e1
    have e2 := signedDouble_err (d / step)
    rw [abs_of_nonneg (show (0 : ℚ) ≤ k * step by positivity)] at e1
    rw [abs_of_nonneg (show (0 : ℚ) ≤ d / step by positivity)] at e2
    have e3 : |d / step - k| ≤ k / 2 ^ 53 := by
      have : d / step - k = (d - k * step) / step := by field_simp
      rw [this, abs_div, abs_of_pos hs0, div_le_iff₀ hs0]
      linarith
    have e4 : |signedDouble (d / step) - k| < 1 / 2 := by
      have h2 : |signedDouble (d / step) - k| ≤ |signedDouble (d / step) - d / step| + |d / step - k| := by
        calc _ = |(signedDouble (d / step) - d / step) + (d / step - k)| := by ring_nf
          _ ≤ _ := abs_add_le _ _
      have h3 := (abs_le.1 e3).2
      have h4 : d / step / 2 ^ 53 ≤ (k + k / 2 ^ 53) / 2 ^ 53 :=
        div_le_div_of_nonneg_right (by linarith) (by positivity)
      have h5 : (k + (k : ℚ) / 2 ^ 53) / 2 ^ 53 + k / 2 ^ 53 < 1 / 2 := by
        have : (k + (k : ℚ) / 2 ^ 53) / 2 ^ 53 + k / 2 ^ 53 = k * ((1 + 1 / 2 ^ 53) / 2 ^ 53 + 1 / 2 ^ 53) := by
          ring
        rw [this]
        calc (k : ℚ) * ((1 + 1 / 2 ^ 53) / 2 ^ 53 + 1 / 2 ^ 53)
            ≤ 2 ^ 49 * ((1 + 1 / 2 ^ 53) / 2 ^ 53 + 1 / 2 ^ 53) :=
              mul_le_mul_of_nonneg_right hkq2 (by positivity)
          _ < 1 / 2 := by norm_num
      linarith
    rw [roundHalfEven_unique _ k e4.le (fun h2 => by linarith), hd, min_eq_right h1,
      max_eq_right (by linarith)]

/-- The hypotheses hold for the size 0.72 and steps of 0.1: seven steps. -/
example : |(72 / 100 : ℚ) / roundDouble (1 / 10) - (7 : ℤ)| + |(72 / 100 : ℚ) / roundDouble (1 / 10)| / 2 ^ 53 <
      1 / 2 ∧ (1 : ℚ) / 2 ^ 49 ≤ roundDouble (1 / 10) ∧
    discretizeR signedDouble (roundDouble (1 / 10)) (72 / 100) = roundDouble (7 * roundDouble (1 / 10)) := by
  decide +kernel

end FinML.Alloc
