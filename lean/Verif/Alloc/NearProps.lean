import Verif.Alloc.DoubleProps

/-! # Counting roundings

A result of `k` roundings in doubles is the exact result times a factor between `(1 - 2^-53)^k` and its reciprocal. -/

namespace FinML.Alloc

/-- `f` is within `k` roundings of one. -/
def Near (k : ℕ) (f : ℚ) : Prop := (1 - 1 / 2 ^ 53 : ℚ) ^ k ≤ f ∧ f * (1 - 1 / 2 ^ 53 : ℚ) ^ k ≤ 1

theorem c_pos : (0 : ℚ) < 1 - 1 / 2 ^ 53 := by norm_num

theorem c_le : (1 - 1 / 2 ^ 53 : ℚ) ≤ 1 := by norm_num

theorem cpow_pos (k : ℕ) : (0 : ℚ) < (1 - 1 / 2 ^ 53 : ℚ) ^ k := pow_pos c_pos k

theorem near_pos {k : ℕ} {f : ℚ} (h : Near k f) : 0 < f := (cpow_pos k).trans_le h.1

theorem near_one (k : ℕ) : Near k 1 := by
  refine ⟨pow_le_one₀ c_pos.le c_le, ?_⟩
  rw [one_mul]
  exact pow_le_one₀ c_pos.le c_le

theorem near_mul {j k : ℕ} {f g : ℚ} (hf : Near j f) (hg : Near k g) : Near (j + k) (f * g) := by
  have hfp := near_pos hf
  have hgp := near_pos hg
  have hj := cpow_pos j
  have hk := cpow_pos k
  constructor
  · rw [pow_add]
    exact mul_le_mul hf.1 hg.1 hk.le hfp.le
  · rw [pow_add, mul_mul_mul_comm]
    have := mul_le_mul hf.2 hg.2 (mul_nonneg hgp.le hk.le) zero_le_one
    simpa using this

theorem near_mono {j k : ℕ} {f : ℚ} (h : Near j f) (hjk : j ≤ k) : Near k f := by
  have := near_mul h (near_one (k - j))
  rwa [mul_one, show j + (k - j) = k by omega] at this

theorem near_inv {k : ℕ} {f : ℚ} (h : Near k f) : Near k (1 / f) := by
  have hf := near_pos h
  constructor
  · rw [le_div_iff₀ hf, mul_comm]
    exact h.2
  · rw [div_mul_eq_mul_div, one_mul, div_le_one hf]
    exact h.1

theorem near_abs {k : ℕ} {f : ℚ} (h : Near k f) : |f - 1| ≤ 1 / (1 - 1 / 2 ^ 53 : ℚ) ^ k - 1 := by
  have hk := cpow_pos k
  have hk1 : (1 - 1 / 2 ^ 53 : ℚ) ^ k ≤ 1 := pow_le_one₀ c_pos.le c_le
  have h1 : f ≤ 1 / (1 - 1 / 2 ^ 53 : ℚ) ^ k := by rw [le_div_iff₀ hk]; exact h.2
  have h2 : 1 ≤ 1 / (1 - 1 / 2 ^ 53 : ℚ) ^ k := by rw [le_div_iff₀ hk]; simpa using hk1
  have h3 : 2 - 1 / (1 - 1 / 2 ^ 53 : ℚ) ^ k ≤ (1 - 1 / 2 ^ 53 : ℚ) ^ k := by
    generalize (1 - 1 / 2 ^ 53 : ℚ) ^ k = z at hk
    have : 2 ≤ z + 1 / z := by
      rw [← sub_nonneg, show z + 1 / z - 2 = (z - 1) ^ 2 / z by field_simp; ring]
      positivity
    linarith
  rw [abs_le]
  constructor <;> linarith [h.1]

/-- A rounding is a factor. -/
theorem sd_factor (q : ℚ) : ∃ f, signedDouble q = q * f ∧ Near 1 f := by
  by_cases hq : q = 0
  · subst hq
    exact ⟨1, by simpa using signedDouble_nat 0 (by norm_num), near_one 1⟩
  · refine ⟨signedDouble q / q, by field_simp, ?_⟩
    have h := signedDouble_err q
    have hqa : 0 < |q| := abs_pos.2 hq
    have h1 : |signedDouble q / q - 1| ≤ 1 / 2 ^ 53 := by
      rw [show signedDouble q / q - 1 = (signedDouble q - q) / q by field_simp, abs_div, div_le_iff₀ hqa]
      calc _ ≤ _ := h
        _ = _ := by ring
    have h2 := abs_le.1 h1
    constructor
    · rw [pow_one]; linarith [h2.1]
    · rw [pow_one]
      have : signedDouble q / q ≤ 1 + 1 / 2 ^ 53 := by linarith [h2.2]
      calc _ ≤ (1 + 1 / 2 ^ 53 : ℚ) * (1 - 1 / 2 ^ 53) := mul_le_mul_of_nonneg_right this c_pos.le
        _ ≤ 1 := by norm_num

theorem near_add {k : ℕ} {f g x y : ℚ} (hf : Near k f) (hg : Near k g) (hx : 0 ≤ x) (hy : 0 ≤ y) :
    ∃ h, x * f + y * g = (x + y) * h ∧ Near k h := by
  rcases (add_nonneg hx hy).eq_or_lt with h0 | h0
  · have hx0 : x = 0 := by linarith
    have hy0 : y = 0 := by linarith
    exact ⟨1, by rw [hx0, hy0]; ring, near_one k⟩
  · refine ⟨(x * f + y * g) / (x + y), by field_simp, ?_, ?_⟩
    · rw [le_div_iff₀ h0]
      nlinarith [mul_le_mul_of_nonneg_left hf.1 hx, mul_le_mul_of_nonneg_left hg.1 hy]
    · rw [div_mul_eq_mul_div, div_le_one h0]
      nlinarith [mul_le_mul_of_nonneg_left hf.2 hx, mul_le_mul_of_nonneg_left hg.2 hy]

/-- Reciprocal of `k` roundings down. -/
def growth (k : ℕ) : ℚ := 1 / (1 - 1 / 2 ^ 53 : ℚ) ^ k

theorem growth_add (j k : ℕ) : growth (j + k) = growth j * growth k := by
  unfold growth
  rw [pow_add, one_div_mul_one_div]

theorem one_le_growth (k : ℕ) : 1 ≤ growth k := by
  unfold growth
  rw [le_div_iff₀ (cpow_pos k), one_mul]
  exact pow_le_one₀ c_pos.le c_le

theorem near_le_growth {k : ℕ} {f : ℚ} (h : Near k f) : f ≤ growth k := by
  unfold growth
  rw [le_div_iff₀ (cpow_pos k)]
  exact h.2

/-- `N` approximates `n` up to `k` roundings, relative to `A`. -/
def Appr (k : ℕ) (N n A : ℚ) : Prop := |n| ≤ A ∧ |N - n| ≤ (growth k - 1) * A

theorem appr_exact (x : ℚ) : Appr 0 x x |x| := by
  refine ⟨le_rfl, ?_⟩
  simp [growth]

theorem appr_mul {j k : ℕ} {N n A F : ℚ} (h : Appr k N n A) (hF : Near j F) : Appr (k + j) (N * F) n A := by
  obtain ⟨h1, h2⟩ := h
  refine ⟨h1, ?_⟩
  have hA : 0 ≤ A := (abs_nonneg n).trans h1
  have hFp := near_pos hF
  have e : N * F - n = (N - n) * F + n * (F - 1) := by ring
  have g1 := one_le_growth k
  calc |N * F - n| ≤ |(N - n) * F| + |n * (F - 1)| := by rw [e]; exact abs_add_le _ _
    _ = |N - n| * F + |n| * |F - 1| := by rw [abs_mul, abs_mul, abs_of_pos hFp]
    _ ≤ (growth k - 1) * A * growth j + A * (growth j - 1) := by
        apply add_le_add
        · exact mul_le_mul h2 (near_le_growth hF) hFp.le (mul_nonneg (by linarith) hA)
        · exact mul_le_mul h1 (near_abs hF) (abs_nonneg _) hA
    _ = (growth (k + j) - 1) * A := by rw [growth_add]; ring

theorem appr_mono {j k : ℕ} {N n A : ℚ} (h : Appr j N n A) (hjk : j ≤ k) : Appr k N n A := by
  have := appr_mul h (near_one (k - j))
  rwa [mul_one, show j + (k - j) = k by omega] at this

theorem appr_add {k : ℕ} {N n A M m B : ℚ} (h : Appr k N n A) (g : Appr k M m B) :
    Appr k (N + M) (n + m) (A + B) := by
  refine ⟨(abs_add_le _ _).trans (add_le_add h.1 g.1), ?_⟩
  calc |N + M - (n + m)| = |(N - n) + (M - m)| := by ring_nf
    _ ≤ |N - n| + |M - m| := abs_add_le _ _
    _ ≤ (growth k - 1) * A + (growth k - 1) * B := add_le_add h.2 g.2
    _ = _ := by ring

theorem appr_scale {k : ℕ} {N n A b : ℚ} (h : Appr k N n A) (hb : 0 ≤ b) : Appr k (N * b) (n * b) (A * b) := by
  refine ⟨by rw [abs_mul, abs_of_nonneg hb]; exact mul_le_mul_of_nonneg_right h.1 hb, ?_⟩
  rw [← sub_mul, abs_mul, abs_of_nonneg hb, ← mul_assoc]
  exact mul_le_mul_of_nonneg_right h.2 hb

theorem appr_sd {k : ℕ} {N n A : ℚ} (h : Appr k N n A) : Appr (k + 1) (signedDouble N) n A := by
  obtain ⟨f, e, hf⟩ := sd_factor N
  rw [e]
  exact appr_mul h hf

end FinML.Alloc
