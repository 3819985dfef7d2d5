import Verif.Alloc.DivDoubleModel
import Verif.Alloc.DivProps
import Verif.Alloc.NearProps

/-! # Property C318: sizes from the divergence in doubles -/

namespace FinML.Alloc

open FinML.CV (roundDouble)

/-- What is assumed of the power `b ** -0.5` of the C library: an error of at most one unit in the last place. -/
def PowNear (pw : ℚ → ℚ) : Prop :=
  ∀ b : ℚ, 0 < b → |(pw b : ℝ) - 1 / √(b : ℝ)| ≤ 1 / √(b : ℝ) / 2 ^ 52

/-- The power is correctly rounded where the result is rational. -/
def PowSquares (pw : ℚ → ℚ) : Prop := ∀ h : ℚ, 0 < h → pw (h ^ 2) = roundDouble (1 / h)

/-- The full claim: if the divergence is a double, then the size is the exact one. -/
def DivergenceExact (pw : ℚ → ℚ) : Prop :=
  ∀ (f p w : ℚ) (ms : ℕ), 0 < w → signedDouble w = w → signedDouble (f - p) = f - p → ms < 2 ^ 49 →
    divergenceR signedDouble pw f p ms w = positionSizeFromDivergence f p ms w

theorem near_real {k : ℕ} {f : ℚ} (h : Near k f) :
    (1 - 1 / 2 ^ 53 : ℝ) ^ k ≤ (f : ℝ) ∧ (f : ℝ) * (1 - 1 / 2 ^ 53 : ℝ) ^ k ≤ 1 := by
  have h1 : (((1 - 1 / 2 ^ 53 : ℚ) ^ k : ℚ) : ℝ) ≤ (f : ℝ) := Rat.cast_le.2 h.1
  have h2 : ((f * (1 - 1 / 2 ^ 53 : ℚ) ^ k : ℚ) : ℝ) ≤ ((1 : ℚ) : ℝ) := Rat.cast_le.2 h.2
  rw [Rat.cast_pow] at h1
  rw [Rat.cast_mul, Rat.cast_pow, Rat.cast_one] at h2
  have e : (((1 - 1 / 2 ^ 53 : ℚ)) : ℝ) = 1 - 1 / 2 ^ 53 := by norm_num
  rw [e] at h1 h2
  exact ⟨h1, h2⟩

theorem base_factor (f p w : ℚ) (hw : 0 < w) : ∃ h g, Near 1 h ∧ Near 4 g ∧ signedDouble (f - p) = (f - p) * h ∧
    signedDouble (w + signedDouble (signedDouble (f - p) ^ 2)) = (w + (f - p) ^ 2) * g := by
  obtain ⟨h, e1, n1⟩ := sd_factor (f - p)
  obtain ⟨h2, e2, n2⟩ := sd_factor (signedDouble (f - p) ^ 2)
  obtain ⟨h3, e3, n3⟩ := sd_factor (w + signedDouble (signedDouble (f - p) ^ 2))
  have n4 : Near 3 (h * h * h2) := near_mul (near_mul n1 n1) n2
  obtain ⟨h4, e4, n5⟩ := near_add (near_one 3) n4 hw.le (sq_nonneg (f - p))
  refine ⟨h, h4 * h3, n1, near_mul n5 n3, e1, ?_⟩
  rw [e3, e2, e1, ← mul_assoc, ← e4]
  ring

/-- The number of units before truncation is the exact one up to a relative error of `2^-49`. -/
theorem units_factor {pw : ℚ → ℚ} (hp : PowNear pw) (f p w ms : ℚ) (hw : 0 < w) :
    ∃ (u : ℚ) (F : ℝ), divergenceR signedDouble pw f p ms w = .ok (pyInt u) ∧ |F - 1| ≤ 1 / 2 ^ 49 ∧
      (u : ℝ) = sigmoid w ((f : ℝ) - p) * ms * F := by
  obtain ⟨h, g, nh, ng, e1, e2⟩ := base_factor f p w hw
  have hy : 0 < w + (f - p) ^ 2 := by positivity
  have hb : 0 < signedDouble (w + signedDouble (signedDouble (f - p) ^ 2)) := by
    rw [e2]; exact mul_pos hy (near_pos ng)
  set b := signedDouble (w + signedDouble (signedDouble (f - p) ^ 2)) with hbdef
  obtain ⟨h5, e5, n5⟩ := sd_factor (signedDouble (f - p) * pw b)
  obtain ⟨h6, e6, n6⟩ := sd_factor (signedDouble (signedDouble (f - p) * pw b) * ms)
  have hbR : (0 : ℝ) < (b : ℝ) := by exact_mod_cast hb
  have hsb := Real.sqrt_pos.2 hbR
  have hyR : (0 : ℝ) < (w : ℝ) + ((f : ℝ) - p) ^ 2 := by exact_mod_cast hy
  have hsy := Real.sqrt_pos.2 hyR
  have hgR : (0 : ℝ) < (g : ℝ) := by exact_mod_cast near_pos ng
  have hsg := Real.sqrt_pos.2 hgR
  have hbe : √(b : ℝ) = √((w : ℝ) + ((f : ℝ) - p) ^ 2) * √(g : ℝ) := by
    rw [← Real.sqrt_mul hyR.le, e2]
    push_cast
    rfl
  have hpw := hp b hb
  refine ⟨signedDouble (signedDouble (signedDouble (f - p) * pw b) * ms),
    ((h * h5 * h6 : ℚ) : ℝ) * ((pw b : ℝ) * √(b : ℝ)) / √(g : ℝ), ?_, ?_, ?_⟩
  · unfold divergenceR scaledSigmoidR
    simp only
    rw [← hbdef, if_neg hb.ne', if_neg (not_lt.2 hb.le)]
    rfl
  · have n7 : Near 3 (h * h5 * h6) := near_mul (near_mul nh n5) n6
    generalize h * h5 * h6 = H at n7
    have hH1 : (1 - 1 / 2 ^ 53 : ℝ) ^ 3 ≤ (H : ℝ) := (near_real n7).1
    have hH2 : (H : ℝ) * (1 - 1 / 2 ^ 53 : ℝ) ^ 3 ≤ 1 := (near_real n7).2
    have hg1 : (1 - 1 / 2 ^ 53 : ℝ) ^ 4 ≤ (g : ℝ) := (near_real ng).1
    have hg2 : (g : ℝ) * (1 - 1 / 2 ^ 53 : ℝ) ^ 4 ≤ 1 := (near_real ng).2
    have hs1 : (1 - 1 / 2 ^ 53 : ℝ) ^ 2 ≤ √(g : ℝ) := by
      apply Real.le_sqrt_of_sq_le
      rw [← pow_mul]
      exact hg1
    have hs2 : √(g : ℝ) * (1 - 1 / 2 ^ 53 : ℝ) ^ 2 ≤ 1 := by
      rw [← abs_of_nonneg (mul_nonneg hsg.le (sq_nonneg (1 - 1 / 2 ^ 53 : ℝ))), ← sq_le_one_iff_abs_le_one,
        mul_pow, Real.sq_sqrt hgR.le, ← pow_mul]
      exact hg2
    have hE : |(pw b : ℝ) * √(b : ℝ) - 1| ≤ 1 / 2 ^ 52 := by
      have := mul_le_mul_of_nonneg_right hpw hsb.le
      rw [← abs_of_pos hsb, ← abs_mul, abs_of_pos hsb, sub_mul, one_div_mul_cancel hsb.ne', div_mul_eq_mul_div,
        one_div_mul_cancel hsb.ne'] at this
      exact this
    generalize (pw b : ℝ) * √(b : ℝ) = E at hE
    generalize √(g : ℝ) = s at *
    generalize (H : ℝ) = H at *
    rw [abs_le] at hE ⊢
    have hc : (0 : ℝ) < 1 - 1 / 2 ^ 53 := by norm_num
    have hH0 : 0 < H := (pow_pos hc 3).trans_le hH1
    have hE0 : 0 < E := by
      have : (1 / 2 ^ 52 : ℝ) < 1 := by norm_num
      linarith [hE.1]
    constructor
    · rw [le_sub_iff_add_le, le_div_iff₀ hsg]
      have a1 : (1 - 1 / 2 ^ 53 : ℝ) ^ 3 * (1 - 1 / 2 ^ 52) ≤ H * E :=
        mul_le_mul hH1 (by linarith [hE.1]) (by norm_num) hH0.le
      have a2 : s ≤ 1 / (1 - 1 / 2 ^ 53 : ℝ) ^ 2 := by
        rw [le_div_iff₀ (pow_pos hc 2)]; exact hs2
      refine le_trans (le_trans (mul_le_mul_of_nonneg_left a2 (by norm_num)) ?_) a1
      norm_num
    · rw [sub_le_iff_le_add, div_le_iff₀ hsg]
      have a1 : H ≤ 1 / (1 - 1 / 2 ^ 53 : ℝ) ^ 3 := by
        rw [le_div_iff₀ (pow_pos hc 3)]; exact hH2
      have a2 : H * E ≤ 1 / (1 - 1 / 2 ^ 53 : ℝ) ^ 3 * (1 + 1 / 2 ^ 52) :=
        mul_le_mul a1 (by linarith [hE.2]) hE0.le (by norm_num)
      refine a2.trans (le_trans ?_ (mul_le_mul_of_nonneg_left hs1 (by norm_num)))
      norm_num
  · rw [e6, e5, e1, hbe]
    unfold sigmoid
    push_cast
    field_simp

theorem pyInt_cast (u : ℚ) : pyInt (u : ℝ) = pyInt u := by
  unfold pyInt
  simp only [Rat.cast_nonneg, Rat.floor_cast, Rat.ceil_cast]

theorem sigmoid_abs_le_one (w x : ℝ) (hw : 0 < w) : |sigmoid w x| ≤ 1 := (sigmoid_abs_lt w x hw).le

/-- Truncations of two numbers of the same sign that differ have an integer other than zero between the numbers. -/
theorem pyInt_between {u v : ℝ} (huv : 0 ≤ u * v) (hne : pyInt u ≠ pyInt v) :
    ∃ k : ℤ, k ≠ 0 ∧ |v - k| ≤ |u - v| := by
  have pos : ∀ {u v : ℝ}, 0 ≤ u → 0 ≤ v → pyInt u ≠ pyInt v → ∃ k : ℤ, k ≠ 0 ∧ |v - k| ≤ |u - v| := by
    intro u v hu hv hne
    unfold pyInt at hne
    rw [if_pos hu, if_pos hv] at hne
    have fu := Int.floor_nonneg.2 hu
    have fv := Int.floor_nonneg.2 hv
    rcases lt_or_gt_of_ne hne with h | h
    · refine ⟨⌊v⌋, by omega, ?_⟩
      have h1 : u < (⌊v⌋ : ℝ) := Int.floor_lt.1 h
      have h2 := Int.floor_le v
      rw [abs_of_nonneg (by linarith), abs_of_nonpos (by linarith)]
      linarith
    · refine ⟨⌊u⌋, by omega, ?_⟩
      have h1 : v < (⌊u⌋ : ℝ) := Int.floor_lt.1 h
      have h2 := Int.floor_le u
      rw [abs_of_nonpos (by linarith), abs_of_nonneg (by linarith)]
      linarith
  by_cases h : 0 ≤ u ∧ 0 ≤ v
  · exact pos h.1 h.2 hne
  · have hu : u ≤ 0 ∧ v ≤ 0 := by
      rcases mul_nonneg_iff.1 huv with h' | h'
      · exact absurd h' h
      · exact h'
    obtain ⟨k, hk, hle⟩ := pos (u := -u) (v := -v) (by linarith [hu.1]) (by linarith [hu.2]) (by
      rw [pyInt_neg, pyInt_neg]
      intro h'
      exact hne (by omega))
    refine ⟨-k, by omega, ?_⟩
    push_cast
    rw [← abs_neg, show -(v - -(k : ℝ)) = -v - k by ring]
    refine hle.trans (le_of_eq ?_)
    rw [← abs_neg]
    congr 1
    ring

theorem pyInt_near {u v : ℝ} (huv : 0 ≤ u * v) (h : |u - v| < 1) : |pyInt u - pyInt v| ≤ 1 := by
  have pos : ∀ {u v : ℝ}, 0 ≤ u → 0 ≤ v → |u - v| < 1 → |pyInt u - pyInt v| ≤ 1 := by
    intro u v hu hv h
    unfold pyInt
    rw [if_pos hu, if_pos hv]
    rw [abs_lt] at h
    have h1 := Int.floor_le u
    have h2 := Int.lt_floor_add_one u
    have h3 := Int.floor_le v
    have h4 := Int.lt_floor_add_one v
    have a : (⌊u⌋ : ℝ) < (⌊v⌋ : ℝ) + 2 := by linarith
    have b : (⌊v⌋ : ℝ) < (⌊u⌋ : ℝ) + 2 := by linarith
    have a' : ⌊u⌋ < ⌊v⌋ + 2 := by exact_mod_cast a
    have b' : ⌊v⌋ < ⌊u⌋ + 2 := by exact_mod_cast b
    rw [abs_le]
    omega
  by_cases hc : 0 ≤ u ∧ 0 ≤ v
  · exact pos hc.1 hc.2 h
  · have hu : u ≤ 0 ∧ v ≤ 0 := by
      rcases mul_nonneg_iff.1 huv with h' | h'
      · exact absurd h' hc
      · exact h'
    have := pos (u := -u) (v := -v) (by linarith [hu.1]) (by linarith [hu.2]) (by
      rw [← abs_neg]; rw [show -(-u - -v) = u - v by ring]; exact h)
    rw [pyInt_neg, pyInt_neg] at this
    rw [← abs_neg]
    rw [show -(pyInt u - pyInt v) = -pyInt u - -pyInt v by ring]
    exact this

theorem units_close {w x : ℝ} (hw : 0 < w) {ms : ℕ} {F : ℝ} (hF : |F - 1| ≤ 1 / 2 ^ 49) :
    0 ≤ sigmoid w x * ms * F * (sigmoid w x * ms) ∧
      |sigmoid w x * ms * F - sigmoid w x * ms| ≤ ms / 2 ^ 49 := by
  have hF0 : 0 ≤ F := by
    have := (abs_le.1 hF).1
    have h2 : (1 / 2 ^ 49 : ℝ) ≤ 1 := by norm_num
    linarith
  constructor
  · rw [show sigmoid w x * ms * F * (sigmoid w x * ms) = (sigmoid w x * ms) ^ 2 * F by ring]
    positivity
  · rw [show sigmoid w x * ms * F - sigmoid w x * ms = sigmoid w x * (ms * (F - 1)) by ring, abs_mul, abs_mul,
      abs_of_nonneg (Nat.cast_nonneg (α := ℝ) ms)]
    have h1 := sigmoid_abs_le_one w x hw
    have h2 : (ms : ℝ) * |F - 1| ≤ ms * (1 / 2 ^ 49) := mul_le_mul_of_nonneg_left hF (Nat.cast_nonneg ms)
    have h3 : 0 ≤ (ms : ℝ) * |F - 1| := by positivity
    calc |sigmoid w x| * (ms * |F - 1|) ≤ 1 * (ms * |F - 1|) := mul_le_mul_of_nonneg_right h1 h3
      _ ≤ ms / 2 ^ 49 := by linarith

/-- C318 (partial).  For fewer than `2^49` units the size in doubles is within one unit of the exact size, at most
the maximum in absolute value and never opposite to the divergence.  Missing: it need not be the exact size, see
`C318_exact_counterexample`. -/
theorem C318_near_partial (pw : ℚ → ℚ) (hp : PowNear pw) (f p w : ℚ) (hw : 0 < w) (ms : ℕ) (hms : ms < 2 ^ 49) :
    ∃ n n' : ℤ, divergenceR signedDouble pw f p ms w = .ok n ∧ positionSizeFromDivergence f p ms w = .ok n' ∧
      |n - n'| ≤ 1 ∧ |n| ≤ ms ∧ (p ≤ f → 0 ≤ n) ∧ (f ≤ p → n ≤ 0) := by
  obtain ⟨u, F, h1, h2, h3⟩ := units_factor hp f p w ms hw
  have hwR : (0 : ℝ) < w := by exact_mod_cast hw
  push_cast at h3
  obtain ⟨c1, c2⟩ := units_close (x := (f : ℝ) - p) hwR (ms := ms) h2
  have hlt : (ms : ℝ) / 2 ^ 49 < 1 := by
    rw [div_lt_one (by norm_num)]
    exact_mod_cast hms
  have hF0 : 0 ≤ F := by
    have := (abs_le.1 h2).1
    have h2 : (1 / 2 ^ 49 : ℝ) ≤ 1 := by norm_num
    linarith
  refine ⟨_, _, h1, positionSize_eq _ _ _ _ hwR, ?_, ?_, ?_, ?_⟩
  · rw [← pyInt_cast u, h3]
    exact pyInt_near c1 (c2.trans_lt hlt)
  · have hu : |(u : ℝ)| < ms + 1 := by
      rw [h3]
      have hs : |sigmoid (w : ℝ) ((f : ℝ) - p) * ms| ≤ ms := by
        rw [abs_mul, abs_of_nonneg (Nat.cast_nonneg (α := ℝ) ms)]
        have := mul_le_mul_of_nonneg_right (sigmoid_abs_le_one w ((f : ℝ) - p) hwR) (Nat.cast_nonneg (α := ℝ) ms)
        linarith
      have := abs_sub_abs_le_abs_sub (sigmoid (w : ℝ) ((f : ℝ) - p) * ms * F) (sigmoid (w : ℝ) ((f : ℝ) - p) * ms)
      linarith
    have h5 := (pyInt_abs_le (u : ℝ)).trans_lt hu
    rw [pyInt_cast u] at h5
    have h6 : |pyInt u| < (ms : ℤ) + 1 := by exact_mod_cast h5
    omega
  · intro hfp
    have hu : 0 ≤ (u : ℝ) := by
      rw [h3]
      have : (0 : ℝ) ≤ (f : ℝ) - p := by
        have : (p : ℝ) ≤ f := by exact_mod_cast hfp
        linarith
      exact mul_nonneg (mul_nonneg (div_nonneg this (Real.sqrt_nonneg _)) (Nat.cast_nonneg ms)) hF0
    have hu' : 0 ≤ u := by exact_mod_cast hu
    unfold pyInt
    rw [if_pos hu']
    exact Int.floor_nonneg.2 hu'
  · intro hfp
    have hu : (u : ℝ) ≤ 0 := by
      rw [h3]
      have : (f : ℝ) - p ≤ 0 := by
        have : (f : ℝ) ≤ p := by exact_mod_cast hfp
        linarith
      exact mul_nonpos_of_nonpos_of_nonneg (mul_nonpos_of_nonpos_of_nonneg
        (div_nonpos_of_nonpos_of_nonneg this (Real.sqrt_nonneg _)) (Nat.cast_nonneg ms)) hF0
    have := pyInt_mono hu
    rw [pyInt_cast u] at this
    simpa [pyInt] using this

/-- C318 (partial).  The size is the exact one if the exact number of units before truncation is further than
`ms * 2^-49` from every whole number other than zero. -/
theorem C318_exact_partial (pw : ℚ → ℚ) (hp : PowNear pw) (f p w : ℚ) (hw : 0 < w) (ms : ℕ)
    (h : ∀ k : ℤ, k ≠ 0 → (ms : ℝ) / 2 ^ 49 < |((f : ℝ) - p) / √((w : ℝ) + ((f : ℝ) - p) ^ 2) * ms - k|) :
    divergenceR signedDouble pw f p ms w = positionSizeFromDivergence f p ms w := by
  obtain ⟨u, F, h1, h2, h3⟩ := units_factor hp f p w ms hw
  have hwR : (0 : ℝ) < w := by exact_mod_cast hw
  push_cast at h3
  obtain ⟨c1, c2⟩ := units_close (x := (f : ℝ) - p) hwR (ms := ms) h2
  rw [h1, positionSize_eq _ _ _ _ hwR, ← pyInt_cast u, h3]
  congr 1
  by_contra hne
  obtain ⟨k, hk, hle⟩ := pyInt_between c1 hne
  have := h k hk
  unfold sigmoid at hle c2
  linarith

/-- C318.  Exchanging forecast and market price changes the sign only. -/
theorem C318_odd (pw : ℚ → ℚ) (f p w ms : ℚ) (n : ℤ) (h : divergenceR signedDouble pw f p ms w = .ok n) :
    divergenceR signedDouble pw p f ms w = .ok (-n) := by
  have hx : signedDouble (p - f) = -signedDouble (f - p) := by
    rw [← signedDouble_neg]
    congr 1
    ring
  unfold divergenceR scaledSigmoidR at h ⊢
  simp only [hx, neg_sq] at h ⊢
  split_ifs at h ⊢ with h1 h2
  · cases h
  · cases h
  · injection h with h
    rw [py_bind_ok, neg_mul, signedDouble_neg, neg_mul, signedDouble_neg]
    have hn : ∀ q : ℚ, pyInt (-q) = -pyInt q := by
      intro q
      have := pyInt_neg (q : ℝ)
      rw [← Rat.cast_neg, pyInt_cast, pyInt_cast] at this
      exact this
    rw [hn, ← h]
    rfl

/-- Powers as assumed exist. -/
theorem pow_exists : ∃ pw, PowNear pw ∧ PowSquares pw := by
  have hex : ∀ b : ℚ, ∃ q : ℚ, 0 < b →
      |(q : ℝ) - 1 / √(b : ℝ)| ≤ 1 / √(b : ℝ) / 2 ^ 52 ∧ ∀ h : ℚ, 0 < h → b = h ^ 2 → q = roundDouble (1 / h) := by
    intro b
    by_cases hb : 0 < b
    swap
    · exact ⟨0, fun h => absurd h hb⟩
    by_cases hs : ∃ h : ℚ, 0 < h ∧ b = h ^ 2
    · obtain ⟨h, h0, rfl⟩ := hs
      refine ⟨roundDouble (1 / h), fun _ => ⟨?_, ?_⟩⟩
      · have hR : (0 : ℝ) < h := by exact_mod_cast h0
        have := (FinML.CV.C45_rounding (1 / h) (by positivity)).2.2.2
        have hc : |(1 / h : ℝ) - (roundDouble (1 / h) : ℝ)| ≤ 1 / h / 2 ^ 53 := by exact_mod_cast this
        push_cast
        rw [Real.sqrt_sq hR.le, abs_sub_comm]
        refine hc.trans ?_
        have : (0 : ℝ) < 1 / h := by positivity
        rw [div_le_div_iff₀ (by norm_num) (by norm_num)]
        nlinarith
      · intro h' h0' he
        rw [(sq_eq_sq₀ h0.le h0'.le).1 he]
    · have hR : (0 : ℝ) < b := by exact_mod_cast hb
      have hpos : 0 < 1 / √(b : ℝ) / 2 ^ 52 := by
        have := Real.sqrt_pos.2 hR
        positivity
      obtain ⟨q, hq1, hq2⟩ := exists_rat_btwn (show 1 / √(b : ℝ) < 1 / √(b : ℝ) + 1 / √(b : ℝ) / 2 ^ 52 by linarith)
      refine ⟨q, fun _ => ⟨?_, fun h h0 he => absurd ⟨h, h0, he⟩ hs⟩⟩
      rw [abs_of_nonneg (by linarith)]
      linarith
  choose pw hpw using hex
  refine ⟨pw, fun b hb => (hpw b hb).1, fun h h0 => ?_⟩
  exact (hpw (h ^ 2) (by positivity)).2 h h0 rfl

/-- C318 (refuted).  With coefficient 24, a divergence of 5 and at most 7 units the sigmoid is 5/7 and the size 5;
in doubles it is 4. -/
theorem C318_exact_counterexample (pw : ℚ → ℚ) (hp : PowSquares pw) :
    divergenceR signedDouble pw 5 0 (7 : ℕ) 24 = .ok 4 ∧ positionSizeFromDivergence 5 0 7 24 = .ok 5 ∧
      ¬ DivergenceExact pw := by
  have h1 : divergenceR signedDouble pw 5 0 (7 : ℕ) 24 = .ok 4 := by
    have h7 : pw 49 = roundDouble (1 / 7) := by
      rw [← hp 7 (by norm_num)]
      norm_num
    unfold divergenceR scaledSigmoidR
    have hb : signedDouble (24 + signedDouble (signedDouble (5 - 0) ^ 2)) = 49 := by decide +kernel
    simp only [hb, h7]
    decide +kernel
  have h2 : positionSizeFromDivergence 5 0 7 24 = .ok 5 := by
    rw [positionSize_eq _ _ _ _ (by norm_num)]
    have : sigmoid 24 (5 - 0) = 5 / 7 := by
      unfold sigmoid
      rw [show (24 : ℝ) + (5 - 0) ^ 2 = 7 ^ 2 by norm_num, Real.sqrt_sq (by norm_num)]
      norm_num
    rw [this]
    unfold pyInt
    norm_num
  refine ⟨h1, h2, ?_⟩
  intro h
  have := h 5 0 24 7 (by norm_num) (by decide +kernel) (by decide +kernel) (by norm_num)
  rw [h1] at this
  push_cast at this
  rw [h2] at this
  cases this

/-- A case within the hypotheses of `C318_exact_partial`: a divergence of 1 with coefficient 3 and one unit. -/
example (pw : ℚ → ℚ) (hp : PowNear pw) : divergenceR signedDouble pw 1 0 (1 : ℕ) 3 = .ok 0 := by
  rw [C318_exact_partial pw hp 1 0 3 (by norm_num) 1 ?_, positionSize_eq _ _ _ _ (by norm_num)]
  · have : sigmoid ((3 : ℚ) : ℝ) (((1 : ℚ) : ℝ) - ((0 : ℚ) : ℝ)) = 1 / 2 := by
      unfold sigmoid
      push_cast
      rw [show (3 : ℝ) + (1 - 0) ^ 2 = 2 ^ 2 by norm_num, Real.sqrt_sq (by norm_num)]
      norm_num
    rw [this]
    unfold pyInt
    norm_num
  · intro k hk
    push_cast
    rw [show (3 : ℝ) + (1 - 0) ^ 2 = 2 ^ 2 by norm_num, Real.sqrt_sq (by norm_num)]
    have : (1 : ℝ) / 2 ≤ |1 / 2 - (k : ℝ)| := by
      rcases lt_or_gt_of_ne hk with h | h
      · have : (k : ℝ) ≤ -1 := by exact_mod_cast Int.le_sub_one_of_lt h
        rw [abs_of_nonneg (by linarith)]
        linarith
      · have : (1 : ℝ) ≤ k := by exact_mod_cast h
        rw [abs_of_nonpos (by linarith)]
        linarith
    norm_num at this ⊢
    linarith

end FinML.Alloc
