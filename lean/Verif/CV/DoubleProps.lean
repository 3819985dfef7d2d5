import Verif.CV.CombiProps

/-! # The groups of CombinatorialPurgedCV in IEEE doubles (C45) -/

namespace FinML.CV

/-- A non-negative double: a significand of 53 bits and an exponent (not bounded). -/
def IsDouble (x : ℚ) : Prop := ∃ (m : ℕ) (e : ℤ), m < 2 ^ 53 ∧ x = m * (2 : ℚ) ^ e

/-- A double with even significand, in the form in which all 53 bits are used. -/
def IsEvenDouble (x : ℚ) : Prop :=
  ∃ (m : ℕ) (e : ℤ), 2 ^ 52 ≤ m ∧ m < 2 ^ 53 ∧ m % 2 = 0 ∧ x = m * (2 : ℚ) ^ e

theorem zp (e : ℤ) : (0 : ℚ) < (2 : ℚ) ^ e := zpow_pos (by norm_num) e

theorem rhe_near (x : ℚ) : |x - roundHalfEven x| ≤ 1 / 2 ∧
    (|x - roundHalfEven x| = 1 / 2 → roundHalfEven x % 2 = 0) := by
  have h1 := Int.floor_le x
  have h2 := Int.lt_floor_add_one x
  unfold roundHalfEven
  split_ifs with ha hb hc
  · refine ⟨by rw [abs_le]; constructor <;> linarith, fun h => ?_⟩
    rw [abs_of_nonneg (by linarith)] at h
    linarith
  · push_cast
    refine ⟨by rw [abs_le]; constructor <;> linarith, fun h => ?_⟩
    rw [abs_of_nonpos (by linarith)] at h
    linarith
  · refine ⟨by rw [abs_le]; constructor <;> linarith, fun _ => hc⟩
  · push_cast
    refine ⟨by rw [abs_le]; constructor <;> linarith, fun _ => by omega⟩

/-- An integer that is not the rounded one is at least a half away. -/
theorem rhe_other (x : ℚ) (k : ℤ) (hk : k ≠ roundHalfEven x) : 1 / 2 ≤ |x - k| := by
  have h1 := (rhe_near x).1
  have h2 : (1 : ℚ) ≤ |(k : ℚ) - roundHalfEven x| := by
    exact_mod_cast Int.one_le_abs (sub_ne_zero.2 hk)
  have h3 : (k : ℚ) - roundHalfEven x = (x - roundHalfEven x) - (x - k) := by ring
  rw [h3] at h2
  have := abs_sub (x - (roundHalfEven x : ℚ)) (x - k)
  linarith

theorem exponent_spec {q : ℚ} (hq : 0 < q) :
    (2 : ℚ) ^ 52 ≤ q / (2 : ℚ) ^ exponent q ∧ q / (2 : ℚ) ^ exponent q < (2 : ℚ) ^ 53 := by
  have hnum : 0 < q.num := Rat.num_pos.2 hq
  have ha0 : q.num.natAbs ≠ 0 := by omega
  have hb0 : q.den ≠ 0 := q.den_nz
  have hqe : q = (q.num.natAbs : ℚ) / (q.den : ℚ) := by
    have h1 : ((q.num.natAbs : ℤ) : ℚ) = (q.num : ℚ) := by
      rw [Int.natAbs_of_nonneg hnum.le]
    rw [← Int.cast_natCast q.num.natAbs, h1, Rat.num_div_den]
  have a1 : (2 : ℚ) ^ (Nat.log2 q.num.natAbs) ≤ q.num.natAbs := by exact_mod_cast Nat.log2_self_le ha0
  have a2 : (q.num.natAbs : ℚ) < (2 : ℚ) ^ (Nat.log2 q.num.natAbs + 1) := by
    exact_mod_cast Nat.lt_log2_self
  have b1 : (2 : ℚ) ^ (Nat.log2 q.den) ≤ q.den := by exact_mod_cast Nat.log2_self_le hb0
  have b2 : (q.den : ℚ) < (2 : ℚ) ^ (Nat.log2 q.den + 1) := by exact_mod_cast Nat.lt_log2_self
  have hbp : (0 : ℚ) < q.den := by exact_mod_cast q.den_pos
  unfold exponent
  generalize Nat.log2 q.num.natAbs = A at *
  generalize Nat.log2 q.den = B at *
  have h2 : (2 : ℚ) ≠ 0 := by norm_num
  have hlo : (2 : ℚ) ^ ((A : ℤ) - B - 1) < q := by
    rw [hqe, lt_div_iff₀ hbp]
    calc (2 : ℚ) ^ ((A : ℤ) - B - 1) * q.den < (2 : ℚ) ^ ((A : ℤ) - B - 1) * (2 : ℚ) ^ (B + 1) :=
          mul_lt_mul_of_pos_left b2 (zp _)
      _ = (2 : ℚ) ^ A := by
          rw [← zpow_natCast, ← zpow_natCast, ← zpow_add₀ h2]; congr 1; push_cast; ring
      _ ≤ _ := a1
  have hhi : q < (2 : ℚ) ^ ((A : ℤ) - B + 1) := by
    rw [hqe, div_lt_iff₀ hbp]
    calc (q.num.natAbs : ℚ) < (2 : ℚ) ^ (A + 1) := a2
      _ = (2 : ℚ) ^ ((A : ℤ) - B + 1) * (2 : ℚ) ^ B := by
          rw [← zpow_natCast, ← zpow_natCast, ← zpow_add₀ h2]; congr 1; push_cast; ring
      _ ≤ _ := mul_le_mul_of_nonneg_left b1 (zp _).le
  have key : ∀ k : ℕ, ∀ e : ℤ, (2 : ℚ) ^ k * (2 : ℚ) ^ e = (2 : ℚ) ^ ((k : ℤ) + e) := by
    intro k e
    rw [← zpow_natCast, ← zpow_add₀ h2]
  have hp : ∀ e : ℤ, (0 : ℚ) < (2 : ℚ) ^ e := zp
  simp only
  split_ifs with h
  · rw [le_div_iff₀ (hp _), div_lt_iff₀ (hp _), key, key]
    rw [key] at h
    constructor
    · have : ((52 : ℕ) : ℤ) + ((A : ℤ) - B - 52 - 1) = (A : ℤ) - B - 1 := by push_cast; ring
      rw [this]; exact hlo.le
    · have : ((53 : ℕ) : ℤ) + ((A : ℤ) - B - 52 - 1) = ((52 : ℕ) : ℤ) + ((A : ℤ) - B - 52) := by push_cast; ring
      rw [this]; exact h
  · rw [le_div_iff₀ (hp _), div_lt_iff₀ (hp _)]
    refine ⟨not_lt.1 h, ?_⟩
    rw [key]
    have : ((53 : ℕ) : ℤ) + ((A : ℤ) - B - 52) = (A : ℤ) - B + 1 := by push_cast; ring
    rw [this]; exact hhi

/-- C45, the rounding: `roundDouble` gives the nearest double, the even one of two that are equally near. -/
theorem C45_rounding (q : ℚ) (hq : 0 ≤ q) : IsDouble (roundDouble q) ∧
    (∀ y, IsDouble y → |q - roundDouble q| ≤ |q - y|) ∧
    (∀ y, IsDouble y → y ≠ roundDouble q → |q - y| = |q - roundDouble q| → IsEvenDouble (roundDouble q)) ∧
    |q - roundDouble q| ≤ q / 2 ^ 53 := by
  rcases hq.eq_or_lt with rfl | hq
  · have h0 : roundDouble 0 = 0 := by simp [roundDouble]
    rw [h0]
    refine ⟨⟨0, 0, by norm_num, by simp⟩, fun y _ => by simp, fun y _ hy h => ?_, by simp⟩
    simp only [zero_sub, sub_zero, abs_neg, abs_zero, abs_eq_zero] at h
    exact absurd h hy
  obtain ⟨h1, h2⟩ := exponent_spec hq
  have hd : roundDouble q = (roundHalfEven (q / (2 : ℚ) ^ exponent q) : ℚ) * (2 : ℚ) ^ exponent q := by
    unfold roundDouble; rw [if_neg (not_le.2 hq)]
  generalize he : exponent q = e at *
  have hE : (0 : ℚ) < (2 : ℚ) ^ e := zp e
  generalize hs : q / (2 : ℚ) ^ e = s at *
  have hqs : q = s * (2 : ℚ) ^ e := by rw [← hs]; field_simp
  have hnear := rhe_near s
  have hother := rhe_other s
  generalize hr : roundHalfEven s = r at *
  have hmin : ∀ k : ℤ, |s - r| ≤ |s - k| := by
    intro k
    by_cases hk : k = r
    · rw [hk]
    · exact hnear.1.trans (hother k hk)
  have hr1 : (2 : ℤ) ^ 52 ≤ r := by
    have := (abs_le.1 hnear.1).2
    have : ((2 : ℚ) ^ 52) < r + 1 := by linarith
    have : ((2 : ℤ) ^ 52) < r + 1 := by exact_mod_cast this
    omega
  have hr2 : r ≤ (2 : ℤ) ^ 53 := by
    have := (abs_le.1 hnear.1).1
    have : (r : ℚ) < (2 : ℚ) ^ 53 + 1 := by linarith
    have : r < (2 : ℤ) ^ 53 + 1 := by exact_mod_cast this
    omega
  have hform : ∃ (m : ℕ) (f : ℤ), 2 ^ 52 ≤ m ∧ m < 2 ^ 53 ∧ (r % 2 = 0 → m % 2 = 0) ∧
      roundDouble q = m * (2 : ℚ) ^ f := by
    rcases hr2.eq_or_lt with hr3 | hr3
    · refine ⟨2 ^ 52, e + 1, le_rfl, by norm_num, fun _ => by norm_num, ?_⟩
      rw [hd, hr3, zpow_add₀ (by norm_num)]
      push_cast
      ring
    · refine ⟨r.toNat, e, by omega, by omega, by omega, ?_⟩
      rw [hd]
      congr 1
      have : ((r.toNat : ℤ) : ℚ) = (r : ℚ) := by rw [Int.toNat_of_nonneg (by omega)]
      rw [← this, Int.cast_natCast]
  have hdist : |q - roundDouble q| = |s - r| * (2 : ℚ) ^ e := by
    rw [hd, hqs, ← sub_mul, abs_mul, abs_of_pos hE]
  have hcase : ∀ y, IsDouble y → (∃ k : ℤ, y = k * (2 : ℚ) ^ e) ∨ |q - roundDouble q| < |q - y| := by
    rintro y ⟨m, f, hm, rfl⟩
    by_cases hf : e ≤ f
    · left
      obtain ⟨d, rfl⟩ := Int.le.dest hf
      refine ⟨m * 2 ^ d, ?_⟩
      rw [zpow_add₀ (by norm_num), zpow_natCast]
      push_cast
      ring
    · right
      push Not at hf
      have hy : (m : ℚ) * (2 : ℚ) ^ f < (2 : ℚ) ^ 52 * (2 : ℚ) ^ e := by
        have hm' : (m : ℚ) < (2 : ℚ) ^ 53 := by exact_mod_cast hm
        calc (m : ℚ) * (2 : ℚ) ^ f < (2 : ℚ) ^ 53 * (2 : ℚ) ^ f :=
              mul_lt_mul_of_pos_right hm' (zp _)
          _ = (2 : ℚ) ^ 52 * (2 : ℚ) ^ (f + 1) := by
              rw [zpow_add₀ (by norm_num)]; ring
          _ ≤ _ := mul_le_mul_of_nonneg_left (zpow_le_zpow_right₀ (by norm_num) (by omega)) (by positivity)
      have h52 := hmin ((2 : ℤ) ^ 52)
      rw [show (((2 : ℤ) ^ 52 : ℤ) : ℚ) = (2 : ℚ) ^ 52 by norm_num] at h52
      rw [abs_of_nonneg (show (0 : ℚ) ≤ s - 2 ^ 52 by linarith)] at h52
      rw [hdist]
      have hq52 : (2 : ℚ) ^ 52 * (2 : ℚ) ^ e ≤ q := by
        rw [hqs]; exact mul_le_mul_of_nonneg_right h1 hE.le
      rw [abs_of_pos (show (0 : ℚ) < q - (m : ℚ) * (2 : ℚ) ^ f by linarith)]
      have := mul_le_mul_of_nonneg_right h52 hE.le
      rw [sub_mul, ← hqs] at this
      linarith
  have hk : ∀ k : ℤ, |q - k * (2 : ℚ) ^ e| = |s - k| * (2 : ℚ) ^ e := by
    intro k
    rw [hqs, ← sub_mul, abs_mul, abs_of_pos hE]
  refine ⟨?_, ?_, ?_, ?_⟩
  · obtain ⟨m, f, -, hm, -, hx⟩ := hform
    exact ⟨m, f, hm, hx⟩
  · intro y hy
    rcases hcase y hy with ⟨k, rfl⟩ | h
    · rw [hdist, hk]
      exact mul_le_mul_of_nonneg_right (hmin k) hE.le
    · exact h.le
  · intro y hy hne heq
    rcases hcase y hy with ⟨k, rfl⟩ | h
    · rw [hdist, hk] at heq
      have heq' := mul_right_cancel₀ hE.ne' heq
      have hkr : k ≠ r := by
        rintro rfl
        exact hne hd.symm
      have := hother k hkr
      have heven := hnear.2 (le_antisymm hnear.1 (by rw [← heq']; exact this))
      obtain ⟨m, f, hm1, hm2, hm3, hx⟩ := hform
      exact ⟨m, f, hm1, hm2, hm3 heven, hx⟩
    · exact absurd heq h.ne'
  · rw [hdist, hqs, mul_div_right_comm]
    apply mul_le_mul_of_nonneg_right _ hE.le
    refine hnear.1.trans ?_
    rw [le_div_iff₀ (by positivity)]
    refine le_trans ?_ h1
    norm_num

theorem roundDouble_nonneg (q : ℚ) : 0 ≤ roundDouble q := by
  by_cases h : q ≤ 0
  · simp [roundDouble, h]
  · obtain ⟨m, e, -, h⟩ := (C45_rounding q (not_le.1 h).le).1
    rw [h]
    exact mul_nonneg (Nat.cast_nonneg _) (zp _).le

theorem roundDouble_mono : Monotone roundDouble := by
  intro q q' h
  by_cases h0 : q ≤ 0
  · have : roundDouble q = 0 := by simp [roundDouble, h0]
    rw [this]; exact roundDouble_nonneg q'
  push Not at h0
  by_contra hc
  push Not at hc
  obtain ⟨d1, n1, -, -⟩ := C45_rounding q h0.le
  obtain ⟨d2, n2, -, -⟩ := C45_rounding q' (h0.le.trans h)
  have k1 := n1 _ d2
  have k2 := n2 _ d1
  have k1' := sq_le_sq.2 k1
  have k2' := sq_le_sq.2 k2
  have hne : q ≠ q' := by rintro rfl; exact lt_irrefl _ hc
  have hlt := lt_of_le_of_ne h hne
  nlinarith

/-- C45, what doubles do: rounding to doubles leaves at most the last event without a group (missing: that
event; see `C45_groups_tile_counterexample`). -/
theorem C45_doubles_partial (n N : ℕ) (hN : 0 < N) (hn : n < 2 ^ 51) :
    ((List.range N).flatMap fun g => group roundDouble n N g) = List.range n ∨
    ((List.range N).flatMap fun g => group roundDouble n N g) = List.range (n - 1) := by
  have h0 : roundDouble 0 = 0 := by simp [roundDouble]
  rw [(C45_groups_tile_partial (K := ℚ)).2 roundDouble roundDouble_mono h0]
  have hN' : (0 : ℚ) < N := by exact_mod_cast hN
  have hn0 : (0 : ℚ) ≤ n := Nat.cast_nonneg n
  have hn' : (n : ℚ) < 2 ^ 51 := by exact_mod_cast hn
  have e1 := (C45_rounding ((n : ℚ) / N) (by positivity)).2.2.2
  have hx0 := roundDouble_nonneg ((n : ℚ) / N)
  unfold groupBound
  generalize roundDouble ((n : ℚ) / N) = x at *
  have hz0 : 0 ≤ (N : ℚ) * x := mul_nonneg hN'.le hx0
  have e2 := (C45_rounding ((N : ℚ) * x) hz0).2.2.2
  have hy0 := roundDouble_nonneg ((N : ℚ) * x)
  have e3 : |(n : ℚ) - N * x| ≤ n / 2 ^ 53 := by
    have : (n : ℚ) - N * x = N * ((n : ℚ) / N - x) := by field_simp
    rw [this, abs_mul, abs_of_pos hN']
    calc (N : ℚ) * |(n : ℚ) / N - x| ≤ N * ((n : ℚ) / N / 2 ^ 53) := mul_le_mul_of_nonneg_left e1 hN'.le
      _ = n / 2 ^ 53 := by field_simp
  generalize roundDouble ((N : ℚ) * x) = y at *
  generalize (N : ℚ) * x = z at *
  rw [abs_le] at e2 e3
  have hlo : (n : ℚ) - 1 < y := by
    have : (n : ℚ) / 2 ^ 53 < 1 / 4 := by rw [div_lt_iff₀ (by positivity)]; linarith
    have : z / 2 ^ 53 < 1 / 2 := by rw [div_lt_iff₀ (by positivity)]; linarith
    linarith [e2.2, e3.2]
  have hhi : y < (n : ℚ) + 1 := by
    have : (n : ℚ) / 2 ^ 53 < 1 / 4 := by rw [div_lt_iff₀ (by positivity)]; linarith
    have : z / 2 ^ 53 < 1 / 2 := by rw [div_lt_iff₀ (by positivity)]; linarith
    linarith [e2.1, e3.1]
  unfold pyInt
  rw [if_pos hy0]
  by_cases hy : (n : ℚ) ≤ y
  · left
    have : ⌊y⌋ = (n : ℤ) := by
      rw [Int.floor_eq_iff]
      push_cast
      exact ⟨hy, hhi⟩
    rw [this]; simp
  · right
    push Not at hy
    have : ⌊y⌋ = (n : ℤ) - 1 := by
      rw [Int.floor_eq_iff]
      push_cast
      exact ⟨hlo.le, by linarith⟩
    rw [this]
    congr 1
    omega

/-- One tenth in doubles is more than one tenth. -/
example : roundDouble (1 / 10) = 3602879701896397 / 2 ^ 55 := by decide +kernel

end FinML.CV
