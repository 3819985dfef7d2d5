import Verif.FracDiff.DoubleModel
import Verif.FracDiff.Lemmas
import Verif.Alloc.DoubleProps
import Mathlib.Tactic.NormNum
import Mathlib.Data.Nat.Choose.Sum

/-! # Weights of fractional differencing in doubles (C272) -/

namespace FinML.FracDiff

open FinML.Alloc

/-- Weights of the lags `0 … n - 1`, newest first. -/
def newestFirst (d : ℚ) (n : ℕ) : List ℚ := (getWeightsR signedDouble d n).reverse

/-- C272, full claim: for orders between 0 and 1 the weight of every lag is accurate to a few units in the last place
for each step of the recursion. -/
def AccurateWeights : Prop := ∀ (d : ℚ) (n k : ℕ) (w : ℚ), 0 < d → d < 1 → signedDouble d = d → n < 2 ^ 53 →
  (newestFirst d n)[k]? = some w → |w - lagWeight d k| ≤ 8 * k / 2 ^ 53 * |lagWeight d k|

/-- C272, counterexample: an order of `2^-60` is lost in `order - 1 + 1`; the weight of the first lag is zero. -/
theorem C272_accurate_counterexample : ¬ AccurateWeights := by
  intro h
  have h1 := h (1 / 2 ^ 60) 2 1 0 (by norm_num) (by norm_num) (by decide +kernel) (by norm_num) (by decide +kernel)
  have h2 : lagWeight (1 / 2 ^ 60 : ℚ) 1 = -(1 / 2 ^ 60) := by
    rw [lagWeight_succ, lagWeight_zero]; norm_num
  rw [h2] at h1
  norm_num at h1

/-- The recursion in doubles. -/
def wR (d : ℚ) : ℕ → ℚ
  | 0 => 1
  | k + 1 => signedDouble (signedDouble (-(wR d k) * signedDouble (signedDouble (d - ((k + 1 : ℕ) : ℚ)) + 1)) / ((k + 1 : ℕ) : ℚ))

theorem foldl_weightsR (d : ℚ) (m : ℕ) :
    (List.range' 1 m).foldl (fun ws k => ws ++ [nextWR signedDouble d ws k]) [1] = (List.range (m + 1)).map (wR d) := by
  induction m with
  | zero => simp [wR]
  | succ m ih =>
    rw [List.range'_1_concat, List.foldl_append, ih, List.range_succ (n := m + 1), List.map_append]
    simp only [List.foldl_cons, List.foldl_nil, List.map_cons, List.map_nil]
    congr 2
    rw [Nat.add_comm 1 m]
    unfold nextWR
    rw [List.range_succ, List.map_append]
    simp [wR]

theorem newestFirst_eq (d : ℚ) (n k : ℕ) (w : ℚ) (h : (newestFirst d n)[k]? = some w) : k < max 1 n ∧ w = wR d k := by
  unfold newestFirst getWeightsR at h
  rw [List.reverse_reverse, foldl_weightsR, List.getElem?_map, Option.map_eq_some_iff] at h
  obtain ⟨j, hj, rfl⟩ := h
  obtain ⟨hk, rfl⟩ := List.getElem?_eq_some_iff.1 hj
  rw [List.getElem_range]
  rw [List.length_range] at hk
  exact ⟨by omega, rfl⟩

theorem rd_rel (q : ℚ) : ∃ δ : ℚ, |δ| ≤ 1 / 2 ^ 53 ∧ signedDouble q = q * (1 + δ) := by
  have h := signedDouble_err q
  by_cases hq : q = 0
  · subst hq
    refine ⟨0, by norm_num, ?_⟩
    have : signedDouble 0 = 0 := by simpa using signedDouble_nat 0 (by norm_num)
    rw [this]; ring
  · refine ⟨(signedDouble q - q) / q, ?_, by field_simp; ring⟩
    rw [abs_div, div_le_iff₀ (abs_pos.2 hq)]
    linarith

theorem signedDouble_neg_nat (k : ℕ) (hk : k < 2 ^ 53) : signedDouble (-(k : ℚ)) = -k := by
  rw [signedDouble_neg, signedDouble_nat k hk]

/-- The factor `order - k + 1` in doubles. -/
theorem factor_range {d : ℚ} (h0 : 0 ≤ d) (h1 : d ≤ 1) (k : ℕ) (hk : k + 1 < 2 ^ 53) :
    -(k : ℚ) ≤ signedDouble (signedDouble (d - ((k + 1 : ℕ) : ℚ)) + 1) ∧
    signedDouble (signedDouble (d - ((k + 1 : ℕ) : ℚ)) + 1) ≤ 1 - k := by
  have a1 := signedDouble_mono (show -((k + 1 : ℕ) : ℚ) ≤ d - ((k + 1 : ℕ) : ℚ) by linarith)
  have a2 := signedDouble_mono (show d - ((k + 1 : ℕ) : ℚ) ≤ -(k : ℚ) by push_cast; linarith)
  rw [signedDouble_neg_nat _ hk] at a1
  rw [signedDouble_neg_nat _ (by omega)] at a2
  push_cast at a1 a2 ⊢
  have b1 := signedDouble_mono (show -(k : ℚ) ≤ signedDouble (d - (k + 1)) + 1 by linarith)
  rw [signedDouble_neg_nat _ (by omega)] at b1
  refine ⟨b1, ?_⟩
  rcases Nat.eq_zero_or_pos k with rfl | hpos
  · have b2 := signedDouble_mono (show signedDouble (d - ((0 : ℕ) + 1)) + 1 ≤ 1 by simpa using a2)
    rw [signedDouble_one] at b2
    simpa using b2
  · obtain ⟨j, rfl⟩ : ∃ j, k = j + 1 := ⟨k - 1, by omega⟩
    have b2 := signedDouble_mono (show signedDouble (d - (((j + 1 : ℕ) : ℚ) + 1)) + 1 ≤ -(j : ℚ) by push_cast at a2 ⊢; linarith)
    rw [signedDouble_neg_nat _ (by omega)] at b2
    push_cast at b2 ⊢
    linarith

theorem wR_range {d : ℚ} (h0 : 0 ≤ d) (h1 : d ≤ 1) (k : ℕ) (hk : k + 1 < 2 ^ 53) : -1 ≤ wR d (k + 1) ∧ wR d (k + 1) ≤ 0 := by
  have key : ∀ (k : ℕ) (v f : ℚ), k + 1 < 2 ^ 53 → -((k + 1 : ℕ) : ℚ) ≤ v → v ≤ 0 →
      -1 ≤ signedDouble (signedDouble v / ((k + 1 : ℕ) : ℚ)) ∧ signedDouble (signedDouble v / ((k + 1 : ℕ) : ℚ)) ≤ 0 := by
    intro k v f hk hv hv0
    have z : signedDouble 0 = 0 := by simpa using signedDouble_nat 0 (by norm_num)
    have p : (0 : ℚ) < ((k + 1 : ℕ) : ℚ) := by positivity
    have c1 := signedDouble_mono hv
    have c2 := signedDouble_mono hv0
    rw [signedDouble_neg_nat _ hk] at c1
    rw [z] at c2
    have d1 : -1 ≤ signedDouble v / ((k + 1 : ℕ) : ℚ) := by rw [le_div_iff₀ p]; linarith
    have d2 : signedDouble v / ((k + 1 : ℕ) : ℚ) ≤ 0 := div_nonpos_of_nonpos_of_nonneg c2 p.le
    have e1 := signedDouble_mono d1
    have e2 := signedDouble_mono d2
    rw [signedDouble_neg, signedDouble_one] at e1
    rw [z] at e2
    exact ⟨e1, e2⟩
  induction k with
  | zero =>
    obtain ⟨f1, f2⟩ := factor_range h0 h1 0 hk
    simp only [Nat.cast_zero, neg_zero, sub_zero] at f1 f2
    exact key 0 _ 0 hk (by rw [wR]; push_cast at f1 f2 ⊢; linarith) (by rw [wR]; linarith)
  | succ k ih =>
    obtain ⟨i1, i2⟩ := ih (by omega)
    obtain ⟨f1, f2⟩ := factor_range h0 h1 (k + 1) hk
    have hkk : (0 : ℚ) ≤ k := by positivity
    push_cast at f1 f2
    rw [wR]
    refine key (k + 1) _ 0 hk ?_ ?_
    · push_cast
      nlinarith
    · push_cast
      nlinarith

theorem abs_wR {d : ℚ} (h0 : 0 ≤ d) (h1 : d ≤ 1) (k : ℕ) (hk : k < 2 ^ 53) : |wR d k| ≤ 1 := by
  cases k with
  | zero => simp [wR]
  | succ k =>
    obtain ⟨a, b⟩ := wR_range h0 h1 k hk
    rw [abs_le]; constructor <;> linarith

theorem abs_lagWeight {d : ℚ} (h0 : 0 ≤ d) (h1 : d ≤ 1) (k : ℕ) : |lagWeight d k| ≤ 1 := by
  induction k with
  | zero => simp [lagWeight_zero]
  | succ k ih =>
    rw [lagWeight_succ, abs_div, abs_mul, abs_neg]
    have p : (0 : ℚ) < ((k + 1 : ℕ) : ℚ) := by positivity
    rw [abs_of_pos p, div_le_one p]
    have hk : (0 : ℚ) ≤ k := by positivity
    have : |d - ((k + 1 : ℕ) : ℚ) + 1| ≤ ((k + 1 : ℕ) : ℚ) := by
      rw [abs_le]; push_cast; constructor <;> linarith
    calc |lagWeight d k| * |d - ((k + 1 : ℕ) : ℚ) + 1| ≤ 1 * ((k + 1 : ℕ) : ℚ) :=
          mul_le_mul ih this (abs_nonneg _) (by norm_num)
      _ = _ := one_mul _

/-- C272, what holds for every order between 0 and 1: the first weight is one, no other is positive or below minus one,
and the weight of lag `k` is off by at most `k / 2^51` (missing: an error in proportion to the weight). -/
theorem C272_absolute_partial (d : ℚ) (h0 : 0 ≤ d) (h1 : d ≤ 1) (n k : ℕ) (w : ℚ) (hn : n < 2 ^ 53)
    (h : (newestFirst d n)[k]? = some w) :
    |w - lagWeight d k| ≤ k / 2 ^ 51 ∧ (k = 0 → w = 1) ∧ (1 ≤ k → -1 ≤ w ∧ w ≤ 0) := by
  obtain ⟨hk0, rfl⟩ := newestFirst_eq d n k w h
  have hk : k < 2 ^ 53 := by omega
  refine ⟨?_, by rintro rfl; rfl, fun hp => ?_⟩
  swap
  · obtain ⟨j, rfl⟩ : ∃ j, k = j + 1 := ⟨k - 1, by omega⟩
    exact wR_range h0 h1 j hk
  clear h hn hk0
  induction k with
  | zero => simp [wR, lagWeight_zero]
  | succ k ih =>
    have ih := ih (by omega)
    have hw := abs_wR h0 h1 k (by omega)
    have hl := abs_lagWeight h0 h1 k
    obtain ⟨f1, f2⟩ := factor_range h0 h1 k hk
    rw [wR, lagWeight_succ]
    set x := signedDouble (d - ((k + 1 : ℕ) : ℚ)) with hx
    set b := signedDouble (x + 1) with hb
    set m := signedDouble (-(wR d k) * b) with hm
    have p : (0 : ℚ) < ((k + 1 : ℕ) : ℚ) := by positivity
    have hkk : (0 : ℚ) ≤ k := by positivity
    have ex := signedDouble_err (d - ((k + 1 : ℕ) : ℚ))
    have eb := signedDouble_err (x + 1)
    have em := signedDouble_err (-(wR d k) * b)
    have ew := signedDouble_err (m / ((k + 1 : ℕ) : ℚ))
    rw [← hx] at ex; rw [← hb] at eb; rw [← hm] at em
    set K1 := ((k + 1 : ℕ) : ℚ) with hK
    have hK' : K1 = k + 1 := by rw [hK]; push_cast; ring
    have a1 : |d - K1| ≤ K1 := by rw [abs_le]; constructor <;> linarith
    have hxr : -K1 ≤ x ∧ x ≤ 0 := by
      have a1 := signedDouble_mono (show -K1 ≤ d - K1 by linarith)
      have a2 := signedDouble_mono (show d - K1 ≤ 0 by linarith)
      rw [show signedDouble (-K1) = -K1 from signedDouble_neg_nat _ hk] at a1
      rw [show signedDouble 0 = 0 by simpa using signedDouble_nat 0 (by norm_num)] at a2
      exact ⟨a1, a2⟩
    have a2 : |x + 1| ≤ K1 := by rw [abs_le]; constructor <;> linarith [hxr.1, hxr.2]
    have hbK : |b| ≤ K1 := by rw [abs_le]; constructor <;> linarith
    have a3 : |-(wR d k) * b| ≤ K1 := by
      rw [abs_mul, abs_neg]
      calc |wR d k| * |b| ≤ 1 * K1 := mul_le_mul hw hbK (abs_nonneg _) (by norm_num)
        _ = K1 := one_mul _
    have hmK : |m| ≤ K1 := by
      obtain ⟨l1, l2⟩ := abs_le.1 a3
      have a1 := signedDouble_mono l1
      have a2 := signedDouble_mono l2
      rw [show signedDouble (-K1) = -K1 from signedDouble_neg_nat _ hk] at a1
      rw [show signedDouble K1 = K1 from signedDouble_nat _ hk] at a2
      exact abs_le.2 ⟨a1, a2⟩
    have a4 : |m / K1| ≤ 1 := by rw [abs_div, abs_of_pos p]; exact (div_le_one p).2 hmK
    set wn := signedDouble (m / K1) with hwn
    have e1 : |wn - m / K1| ≤ 1 / 2 ^ 53 := ew.trans (by gcongr)
    have e2 : |m / K1 - (-(wR d k) * b) / K1| ≤ 1 / 2 ^ 53 := by
      rw [← sub_div, abs_div, abs_of_pos p, div_le_iff₀ p]
      calc _ ≤ |-(wR d k) * b| / 2 ^ 53 := em
        _ ≤ K1 / 2 ^ 53 := by gcongr
        _ = _ := by ring
    have e3 : |b - (d - K1 + 1)| ≤ 2 * K1 / 2 ^ 53 := by
      calc |b - (d - K1 + 1)| = |(b - (x + 1)) + (x - (d - K1))| := by congr 1; ring
        _ ≤ |b - (x + 1)| + |x - (d - K1)| := abs_add_le _ _
        _ ≤ |x + 1| / 2 ^ 53 + |d - K1| / 2 ^ 53 := add_le_add eb ex
        _ ≤ K1 / 2 ^ 53 + K1 / 2 ^ 53 := by gcongr
        _ = _ := by ring
    have e4 : |(-(wR d k) * b) / K1 - -(lagWeight d k) * (d - K1 + 1) / K1| ≤ k / 2 ^ 51 + 2 / 2 ^ 53 := by
      rw [← sub_div, abs_div, abs_of_pos p, div_le_iff₀ p]
      calc |-(wR d k) * b - -(lagWeight d k) * (d - K1 + 1)|
          = |-((wR d k - lagWeight d k) * b) + -(lagWeight d k * (b - (d - K1 + 1)))| := by congr 1; ring
        _ ≤ |wR d k - lagWeight d k| * |b| + |lagWeight d k| * |b - (d - K1 + 1)| := by
            refine (abs_add_le _ _).trans ?_
            rw [abs_neg, abs_neg, abs_mul, abs_mul]
        _ ≤ k / 2 ^ 51 * K1 + 1 * (2 * K1 / 2 ^ 53) :=
            add_le_add (mul_le_mul ih hbK (abs_nonneg _) (by positivity)) (mul_le_mul hl e3 (abs_nonneg _) (by norm_num))
        _ = _ := by ring
    calc |wn - -(lagWeight d k) * (d - K1 + 1) / K1|
        = |(wn - m / K1) + ((m / K1 - (-(wR d k) * b) / K1) +
            ((-(wR d k) * b) / K1 - -(lagWeight d k) * (d - K1 + 1) / K1))| := by congr 1; ring
      _ ≤ 1 / 2 ^ 53 + (1 / 2 ^ 53 + (k / 2 ^ 51 + 2 / 2 ^ 53)) :=
          (abs_add_le _ _).trans (add_le_add e1 ((abs_add_le _ _).trans (add_le_add e2 e4)))
      _ = K1 / 2 ^ 51 := by rw [hK']; ring

/-- Errors multiply up. -/
theorem rel_step {R r ε A : ℚ} (hR : |R - 1| ≤ A - 1) (hr : |r - 1| ≤ ε) : |R * r - 1| ≤ A * (1 + ε) - 1 := by
  have h1 : |R| ≤ A := by
    have : |R| ≤ |R - 1| + 1 := by
      calc |R| = |(R - 1) + 1| := by congr 1; ring
        _ ≤ |R - 1| + |1| := abs_add_le _ _
        _ = _ := by rw [abs_one]
    linarith
  calc |R * r - 1| = |R * (r - 1) + (R - 1)| := by congr 1; ring
    _ ≤ |R| * |r - 1| + |R - 1| := by
      refine (abs_add_le _ _).trans ?_
      rw [abs_mul]
    _ ≤ A * ε + (A - 1) := add_le_add (mul_le_mul h1 hr (abs_nonneg _) ((abs_nonneg _).trans h1)) hR
    _ = _ := by ring

/-- C272, what holds in proportion to the weight: for an order at least `m` away from 0 and 1 every step of the
recursion adds a relative error of at most `4 / (m 2^53)` (missing: a bound that does not grow as the order nears 0 or
1). -/
theorem C272_relative_partial (d m : ℚ) (hm : 0 < m) (h0 : m ≤ d) (h1 : d ≤ 1 - m) (n k : ℕ) (w : ℚ)
    (h : (newestFirst d n)[k]? = some w) :
    |w - lagWeight d k| ≤ ((1 + 4 / (m * 2 ^ 53)) ^ k - 1) * |lagWeight d k| := by
  obtain ⟨-, rfl⟩ := newestFirst_eq d n k w h
  clear h
  have hm2 : m ≤ 1 / 2 := by linarith
  have hε : (0 : ℚ) ≤ 4 / (m * 2 ^ 53) := by positivity
  suffices H : ∃ R : ℚ, wR d k = lagWeight d k * R ∧ |R - 1| ≤ (1 + 4 / (m * 2 ^ 53)) ^ k - 1 by
    obtain ⟨R, e, hR⟩ := H
    rw [e, show lagWeight d k * R - lagWeight d k = lagWeight d k * (R - 1) by ring, abs_mul, mul_comm]
    exact mul_le_mul_of_nonneg_right hR (abs_nonneg _)
  induction k with
  | zero => exact ⟨1, by simp [wR, lagWeight_zero], by simp⟩
  | succ k ih =>
    obtain ⟨R, e, hR⟩ := ih
    rw [wR, lagWeight_succ]
    obtain ⟨δ1, q1, r1⟩ := rd_rel (d - ((k + 1 : ℕ) : ℚ))
    obtain ⟨δ2, q2, r2⟩ := rd_rel (signedDouble (d - ((k + 1 : ℕ) : ℚ)) + 1)
    obtain ⟨δ3, q3, r3⟩ := rd_rel (-(wR d k) * signedDouble (signedDouble (d - ((k + 1 : ℕ) : ℚ)) + 1))
    obtain ⟨δ4, q4, r4⟩ := rd_rel (signedDouble (-(wR d k) * signedDouble (signedDouble (d - ((k + 1 : ℕ) : ℚ)) + 1)) / ((k + 1 : ℕ) : ℚ))
    have hkk : (0 : ℚ) ≤ k := by positivity
    set b := d - ((k + 1 : ℕ) : ℚ) + 1 with hb
    have hbk : b = d - k := by rw [hb]; push_cast; ring
    have hbm : m ≤ |b| := by
      rw [hbk]
      rcases Nat.eq_zero_or_pos k with rfl | hp
      · simp; rw [abs_of_pos (by linarith)]; exact h0
      · have : (1 : ℚ) ≤ k := by exact_mod_cast hp
        rw [abs_of_neg (by linarith)]; linarith
    have hb0 : b ≠ 0 := fun h => by rw [h, abs_zero] at hbm; linarith
    -- the factor with its errors
    set θ := (b - 1) / b * δ1 with hθ
    have hθ1 : |θ| ≤ (1 + 1 / m) / 2 ^ 53 := by
      rw [hθ, abs_mul, show (b - 1) / b = 1 - 1 / b by field_simp]
      have : |1 - 1 / b| ≤ 1 + 1 / m := by
        refine (abs_sub _ _).trans ?_
        rw [abs_one, abs_div, abs_one]
        gcongr
      calc |1 - 1 / b| * |δ1| ≤ (1 + 1 / m) * (1 / 2 ^ 53) := mul_le_mul this q1 (abs_nonneg _) (by positivity)
        _ = _ := by ring
    have hfac : signedDouble (signedDouble (d - ((k + 1 : ℕ) : ℚ)) + 1) = b * ((1 + θ) * (1 + δ2)) := by
      rw [r2, r1, show d - ((k + 1 : ℕ) : ℚ) = b - 1 by rw [hb]; ring, hθ]
      field_simp
      ring
    refine ⟨R * (((1 + θ) * (1 + δ2)) * ((1 + δ3) * (1 + δ4))), ?_, ?_⟩
    · rw [r4, r3, hfac, e]
      field_simp
    · rw [pow_succ]
      refine rel_step hR ?_
      have u1 : (1 + 1 / m) / 2 ^ 53 ≤ 3 / 2 * (1 / (m * 2 ^ 53)) := by
        have : (1 + 1 / m) = (m + 1) / m := by field_simp
        rw [this, div_div, ← mul_div_assoc, mul_one]
        gcongr
        linarith
      have u2 : (1 : ℚ) / 2 ^ 53 ≤ 1 / 2 * (1 / (m * 2 ^ 53)) := by
        rw [div_mul_div_comm, one_mul, div_le_div_iff₀ (by positivity) (by positivity)]
        nlinarith [show (0 : ℚ) < 2 ^ 53 by norm_num]
      set v := 1 / (m * 2 ^ 53) with hv
      have hv0 : 0 ≤ v := by positivity
      have s1 : |(1 + θ) - 1| ≤ (1 + 3 / 2 * v) - 1 := by
        rw [show (1 + θ) - 1 = θ by ring]; linarith
      have s2 := rel_step (ε := 1 / 2 ^ 53) s1 (show |(1 + δ2) - 1| ≤ _ by simpa using q2)
      have s3 := rel_step (ε := 1 / 2 ^ 53) s2 (show |(1 + δ3) - 1| ≤ _ by simpa using q3)
      have s4 := rel_step (ε := 1 / 2 ^ 53) s3 (show |(1 + δ4) - 1| ≤ _ by simpa using q4)
      rw [← mul_assoc]
      refine s4.trans ?_
      have h4 : (4 : ℚ) / (m * 2 ^ 53) = 4 * v := by rw [hv]; ring
      rw [h4]
      set u : ℚ := 1 / 2 ^ 53 with hu
      have hu0 : 0 ≤ u := by positivity
      have hus : u ≤ 1 / 1000 := by rw [hu]; norm_num
      clear_value u v
      have huv : v * u ≤ v * (1 / 1000) := mul_le_mul_of_nonneg_left hus hv0
      have hp : (1 + u) * (1 + u) * (1 + u) ≤ 1 + 301 / 100 * u := by
        have : u * u ≤ u * (1 / 1000) := mul_le_mul_of_nonneg_left hus hu0
        have h3 : u * (u * u) ≤ u * (u * (1 / 1000)) := mul_le_mul_of_nonneg_left this hu0
        calc (1 + u) * (1 + u) * (1 + u) = 1 + 3 * u + 3 * (u * u) + u * (u * u) := by ring
          _ ≤ 1 + 301 / 100 * u := by linarith
      calc (1 + 3 / 2 * v) * (1 + u) * (1 + u) * (1 + u) - 1
          = (1 + 3 / 2 * v) * ((1 + u) * (1 + u) * (1 + u)) - 1 := by ring
        _ ≤ (1 + 3 / 2 * v) * (1 + 301 / 100 * u) - 1 := by gcongr
        _ = 3 / 2 * v + 301 / 100 * u + 903 / 200 * (v * u) := by ring
        _ ≤ 4 * v := by linarith

/-- C272, whole orders: the weights of differences of order up to 48 are exact. -/
theorem C272_whole_partial (d n k : ℕ) (hd : d ≤ 48) (w : ℚ) (hn : n < 2 ^ 53) (h : (newestFirst (d : ℚ) n)[k]? = some w) :
    w = (-1) ^ k * (d.choose k : ℚ) := by
  obtain ⟨hk0, rfl⟩ := newestFirst_eq d n k w h
  have hk : k < 2 ^ 53 := by omega
  clear h hn hk0
  have rdint : ∀ z : ℤ, z.natAbs < 2 ^ 53 → signedDouble (z : ℚ) = z := by
    intro z hz
    rcases Int.natAbs_eq z with h | h
    · rw [h]; simpa using signedDouble_nat z.natAbs hz
    · rw [h]; simpa using signedDouble_neg_nat z.natAbs hz
  induction k with
  | zero => simp [wR]
  | succ k ih =>
    have ih := ih (by omega)
    rw [wR, ih]
    have e1 : signedDouble ((d : ℚ) - ((k + 1 : ℕ) : ℚ)) = (d : ℚ) - ((k + 1 : ℕ) : ℚ) := by
      have := rdint ((d : ℤ) - ((k + 1 : ℕ) : ℤ)) (by omega)
      push_cast at this ⊢
      exact this
    have e2 : signedDouble ((d : ℚ) - ((k + 1 : ℕ) : ℚ) + 1) = (d : ℚ) - k := by
      have := rdint ((d : ℤ) - (k : ℤ)) (by omega)
      push_cast at this ⊢
      rw [show (d : ℚ) - (k + 1) + 1 = d - k by ring]
      exact this
    rw [e1, e2]
    have hc : ((d : ℤ) - (k : ℤ)) * (d.choose k : ℤ) = ((k + 1 : ℕ) : ℤ) * (d.choose (k + 1) : ℤ) := by
      rcases Nat.lt_or_ge d k with hlt | hge
      · rw [Nat.choose_eq_zero_of_lt hlt, Nat.choose_eq_zero_of_lt (by omega)]; simp
      · have := Nat.choose_succ_right_eq d k
        rw [← Nat.cast_sub hge]
        exact_mod_cast (by rw [mul_comm, ← this, mul_comm])
    have hcb : (k + 1) * d.choose (k + 1) < 2 ^ 53 := by
      rcases Nat.eq_zero_or_pos d with rfl | hdp
      · simp
      · obtain ⟨d', rfl⟩ : ∃ d', d = d' + 1 := ⟨d - 1, by omega⟩
        have h1 := Nat.add_one_mul_choose_eq d' k
        have h2 : d'.choose k ≤ 2 ^ d' := Nat.choose_le_two_pow d' k
        have h3 : 2 ^ d' ≤ 2 ^ 47 := Nat.pow_le_pow_right (by norm_num) (by omega)
        have : (k + 1) * (d' + 1).choose (k + 1) ≤ 48 * 2 ^ 47 := by
          rw [mul_comm, ← h1]
          exact Nat.mul_le_mul hd (h2.trans h3)
        norm_num at this ⊢
        omega
    have e3 : -((-1) ^ k * (d.choose k : ℚ)) * ((d : ℚ) - k) = (((-1) ^ (k + 1) * (((k + 1 : ℕ) : ℤ) * (d.choose (k + 1) : ℤ)) : ℤ) : ℚ) := by
      rw [← hc]; push_cast; ring
    have e4 : signedDouble (-((-1) ^ k * (d.choose k : ℚ)) * ((d : ℚ) - k)) = -((-1) ^ k * (d.choose k : ℚ)) * ((d : ℚ) - k) := by
      rw [e3]
      refine rdint _ ?_
      rw [Int.natAbs_mul, Int.natAbs_pow]
      simp only [Int.natAbs_neg, Int.natAbs_one, one_pow, one_mul]
      rw [Int.natAbs_mul, Int.natAbs_natCast, Int.natAbs_natCast]
      exact hcb
    rw [e4, e3]
    have e5 : (((-1) ^ (k + 1) * (((k + 1 : ℕ) : ℤ) * (d.choose (k + 1) : ℤ)) : ℤ) : ℚ) / ((k + 1 : ℕ) : ℚ) =
        (((-1) ^ (k + 1) * (d.choose (k + 1) : ℤ) : ℤ) : ℚ) := by
      have : (((k + 1 : ℕ) : ℚ)) ≠ 0 := by positivity
      rw [div_eq_iff this]
      push_cast; ring
    rw [e5, rdint]
    · push_cast; ring
    · rw [Int.natAbs_mul, Int.natAbs_pow]
      simp only [Int.natAbs_neg, Int.natAbs_one, one_pow, one_mul, Int.natAbs_natCast]
      calc d.choose (k + 1) ≤ (k + 1) * d.choose (k + 1) := Nat.le_mul_of_pos_left _ (by omega)
        _ < _ := hcb

/-- Concrete cases: order 1/2 (exact in doubles at first) and order 2. -/
example : newestFirst (1 / 2) 4 = [1, -1 / 2, -1 / 8, -1 / 16] := by decide +kernel

example : newestFirst 2 4 = [1, -2, 1, 0] := by decide +kernel

end FinML.FracDiff
