import Verif.Weights.DoubleModel
import Verif.Alloc.DoubleProps
import Mathlib.Algebra.Order.Ring.Pow
import Mathlib.Tactic.NormNum
import Mathlib.Tactic.Linarith
import Mathlib.Tactic.FieldSimp

/-! # The draw of the sequential bootstrap in doubles (C273) -/

namespace FinML.Weights

open FinML.Alloc

theorem rel_of_pos {q : ℚ} (hq : 0 ≤ q) : q * (1 - 1 / 2 ^ 53) ≤ signedDouble q ∧ signedDouble q ≤ q * (1 + 1 / 2 ^ 53) := by
  have h := signedDouble_err q
  rw [abs_of_nonneg hq, abs_le] at h
  constructor <;> linarith [h.1, h.2]

theorem rsum_bounds {rd : ℚ → ℚ} {a b : ℚ} (ha : 0 ≤ a) (ha1 : a ≤ 1) (hb : 1 ≤ b)
    (hrd : ∀ q, 0 ≤ q → q * a ≤ rd q ∧ rd q ≤ q * b) {l : List ℚ} {s : ℚ} (h : RSum rd l s) (hp : ∀ x ∈ l, 0 < x) :
    1 ≤ l.length ∧ l.sum * a ^ (l.length - 1) ≤ s ∧ s ≤ l.sum * b ^ (l.length - 1) ∧ 0 < l.sum := by
  induction h with
  | one x => simpa using hp x (by simp)
  | perm hperm _ ih =>
    have := ih fun x hx => hp x (hperm.mem_iff.1 hx)
    rwa [hperm.length_eq, hperm.sum_eq] at this
  | @add l r s t hl hr ihl ihr =>
    obtain ⟨n1, a1, b1, p1⟩ := ihl fun x hx => hp x (by simp [hx])
    obtain ⟨n2, a2, b2, p2⟩ := ihr fun x hx => hp x (by simp [hx])
    have hs : 0 ≤ s := le_trans (by positivity) a1
    have ht : 0 ≤ t := le_trans (by positivity) a2
    obtain ⟨h1, h2⟩ := hrd (s + t) (by linarith)
    obtain ⟨N, hN⟩ : ∃ N, l.length + r.length - 1 = N + 1 := ⟨l.length + r.length - 2, by omega⟩
    rw [List.length_append, List.sum_append, hN]
    refine ⟨by omega, ?_, ?_, by linarith⟩
    · have c1 : l.sum * a ^ N ≤ s := le_trans (mul_le_mul_of_nonneg_left (pow_le_pow_of_le_one ha ha1 (by omega)) p1.le) a1
      have c2 : r.sum * a ^ N ≤ t := le_trans (mul_le_mul_of_nonneg_left (pow_le_pow_of_le_one ha ha1 (by omega)) p2.le) a2
      calc (l.sum + r.sum) * a ^ (N + 1) = (l.sum * a ^ N + r.sum * a ^ N) * a := by ring
        _ ≤ (s + t) * a := mul_le_mul_of_nonneg_right (by linarith) ha
        _ ≤ _ := h1
    · have c1 : s ≤ l.sum * b ^ N := le_trans b1 (mul_le_mul_of_nonneg_left (pow_le_pow_right₀ hb (by omega)) p1.le)
      have c2 : t ≤ r.sum * b ^ N := le_trans b2 (mul_le_mul_of_nonneg_left (pow_le_pow_right₀ hb (by omega)) p2.le)
      calc rd (s + t) ≤ (s + t) * b := h2
        _ ≤ (l.sum * b ^ N + r.sum * b ^ N) * b := mul_le_mul_of_nonneg_right (by linarith) (by linarith)
        _ = _ := by ring

theorem probs_sum {rd : ℚ → ℚ} {a b : ℚ} (hrd : ∀ q, 0 ≤ q → q * a ≤ rd q ∧ rd q ≤ q * b) {s : ℚ} (hs : 0 < s)
    (l : List ℚ) (hp : ∀ x ∈ l, 0 < x) : l.sum / s * a ≤ (probsR rd s l).sum ∧ (probsR rd s l).sum ≤ l.sum / s * b := by
  induction l with
  | nil => simp [probsR]
  | cons x l ih =>
    obtain ⟨i1, i2⟩ := ih fun y hy => hp y (by simp [hy])
    obtain ⟨h1, h2⟩ := hrd (x / s) (div_nonneg (hp x (by simp)).le hs.le)
    simp only [probsR, List.map_cons, List.sum_cons] at i1 i2 ⊢
    rw [add_div, add_mul, add_mul]
    constructor <;> linarith

/-- The unit roundoff, small numbers of which are added up. -/
def ulp : ℚ := 1 / 2 ^ 53

theorem kahan_step (s c p P : ℚ) (i : ℕ) (hi : i < 2 ^ 23) (hp : 0 ≤ p) (hP : 0 ≤ P) (hPp : P + p ≤ 101 / 100)
    (hs : |s - P| ≤ 10 * ulp * i) (hc : |c| ≤ 4 * ulp) :
    |signedDouble (s + signedDouble (p - c)) - (P + p)| ≤ 10 * ulp * ((i + 1 : ℕ) : ℚ) ∧
    |signedDouble (signedDouble (signedDouble (s + signedDouble (p - c)) - s) - signedDouble (p - c))| ≤ 4 * ulp := by
  have hu : ulp = 1 / 2 ^ 53 := rfl
  have hu0 : 0 < ulp := by norm_num [ulp]
  have hus : ulp ≤ 1 / 10 ^ 15 := by norm_num [ulp]
  have hi' : (i : ℚ) ≤ 2 ^ 23 := by exact_mod_cast hi.le
  have hui : 10 * ulp * i ≤ 1 / 1000 := by
    calc 10 * ulp * i ≤ 10 * ulp * 2 ^ 23 := by gcongr
      _ ≤ 1 / 1000 := by norm_num [ulp]
  have ey := signedDouble_err (p - c)
  have et := signedDouble_err (s + signedDouble (p - c))
  have ef := signedDouble_err (signedDouble (s + signedDouble (p - c)) - s)
  have ec := signedDouble_err (signedDouble (signedDouble (s + signedDouble (p - c)) - s) - signedDouble (p - c))
  set y := signedDouble (p - c)
  set t := signedDouble (s + y)
  set f := signedDouble (t - s)
  set c' := signedDouble (f - y)
  rw [show ∀ q : ℚ, q / 2 ^ 53 = q * ulp by intro q; rw [hu]; ring] at ey et ef ec
  clear_value y t f c'
  generalize ulp = u at *
  clear hu
  obtain ⟨s1, s2⟩ := abs_le.1 hs
  obtain ⟨c1, c2⟩ := abs_le.1 hc
  have mulu : ∀ (q B : ℚ), q ≤ B → q * u ≤ B * u := fun q B h => mul_le_mul_of_nonneg_right h hu0.le
  have hpc : |p - c| ≤ 102 / 100 := by rw [abs_le]; constructor <;> linarith
  obtain ⟨y1, y2⟩ := abs_le.1 (ey.trans (mulu _ _ hpc))
  have hsy : |s + y| ≤ 103 / 100 := by rw [abs_le]; constructor <;> linarith
  obtain ⟨t1, t2⟩ := abs_le.1 (et.trans (mulu _ _ hsy))
  have hts : |t - s| ≤ 104 / 100 := by rw [abs_le]; constructor <;> linarith
  obtain ⟨f1, f2⟩ := abs_le.1 (ef.trans (mulu _ _ hts))
  have hfy : |f - y| ≤ 21 / 10 * u := by rw [abs_le]; constructor <;> linarith
  have hfy1 : |f - y| ≤ 1 := by linarith
  obtain ⟨g1, g2⟩ := abs_le.1 (ec.trans (mulu _ _ hfy1))
  obtain ⟨k1, k2⟩ := abs_le.1 hfy
  refine ⟨?_, ?_⟩
  · rw [abs_le]
    push_cast
    constructor <;> linarith
  · rw [abs_le]
    constructor <;> linarith

theorem kahanLoop_near (l : List ℚ) (s c P : ℚ) (i : ℕ) (hi : i + l.length ≤ 2 ^ 23) (hl : ∀ p ∈ l, 0 ≤ p) (hP : 0 ≤ P)
    (hPp : P + l.sum ≤ 101 / 100) (hs : |s - P| ≤ 10 * ulp * i) (hc : |c| ≤ 4 * ulp) :
    |kahanLoop signedDouble s c l - (P + l.sum)| ≤ 10 * ulp * ((i + l.length : ℕ) : ℚ) := by
  induction l generalizing s c P i with
  | nil => simpa [kahanLoop] using hs
  | cons p l ih =>
    have hp := hl p (by simp)
    have hls : 0 ≤ l.sum := List.sum_nonneg fun x hx => hl x (by simp [hx])
    rw [List.length_cons] at hi
    rw [List.sum_cons] at hPp
    obtain ⟨h1, h2⟩ := kahan_step s c p P i (by omega) hp hP (by linarith) hs hc
    have := ih _ _ (P + p) (i + 1) (by omega) (fun x hx => hl x (by simp [hx])) (by linarith) (by linarith) h1 h2
    rw [kahanLoop, List.sum_cons, List.length_cons]
    rw [← add_assoc, show i + (l.length + 1) = i + 1 + l.length by omega]
    exact this

/-- C273.  With up to eight million events the draw is never refused: whatever the average uniquenesses and the order in
which they are added, the rounded probabilities pass the checks of `np.random.choice`. -/
theorem C273_accepted (us : List ℚ) (hp : ∀ u ∈ us, 0 < u) (hn : us.length ≤ 2 ^ 23) (total : ℚ)
    (ht : RSum signedDouble us total) : choiceAccepts signedDouble (probsR signedDouble total us) = true := by
  have hrd : ∀ q : ℚ, 0 ≤ q → q * (1 - ulp) ≤ signedDouble q ∧ signedDouble q ≤ q * (1 + ulp) := fun q hq => rel_of_pos hq
  have hu0 : 0 < ulp := by norm_num [ulp]
  have hu1 : ulp ≤ 1 := by norm_num [ulp]
  obtain ⟨n1, lo, hi, pos⟩ := rsum_bounds (by linarith) (by linarith) (by linarith) hrd ht hp
  have hN : (us.length : ℚ) ≤ 2 ^ 23 := by exact_mod_cast hn
  have hN1 : ((us.length - 1 : ℕ) : ℚ) = (us.length : ℚ) - 1 := by rw [Nat.cast_sub n1]; simp
  have hNu : (us.length : ℚ) * ulp ≤ 1 / 2 ^ 30 := by
    calc (us.length : ℚ) * ulp ≤ 2 ^ 23 * ulp := by gcongr
      _ ≤ _ := by norm_num [ulp]
  -- powers of numbers near one
  have pl : 1 - (us.length : ℚ) * ulp + ulp ≤ (1 - ulp) ^ (us.length - 1) := by
    have := one_add_mul_le_pow (show (-2 : ℚ) ≤ -ulp by linarith) (us.length - 1)
    rw [hN1, ← sub_eq_add_neg 1 ulp] at this
    linarith
  have ph : (1 + ulp) ^ (us.length - 1) * (1 - ((us.length : ℚ) * ulp - ulp)) ≤ 1 := by
    calc (1 + ulp) ^ (us.length - 1) * (1 - ((us.length : ℚ) * ulp - ulp))
        ≤ (1 + ulp) ^ (us.length - 1) * (1 - ulp) ^ (us.length - 1) :=
          mul_le_mul_of_nonneg_left (by linarith) (by positivity)
      _ = ((1 + ulp) * (1 - ulp)) ^ (us.length - 1) := (mul_pow _ _ _).symm
      _ ≤ 1 := pow_le_one₀ (mul_nonneg (by linarith) (by linarith)) (by nlinarith)
  set N := (us.length : ℚ) with hNdef
  have hN0 : 1 ≤ N := by rw [hNdef]; exact_mod_cast n1
  have hapos : 0 < (1 - ulp) ^ (us.length - 1) := lt_of_lt_of_le (by nlinarith) pl
  have htot : 0 < total := lt_of_lt_of_le (mul_pos pos hapos) lo
  obtain ⟨q1, q2⟩ := probs_sum hrd htot us hp
  have hsum : |(probsR signedDouble total us).sum - 1| ≤ 4 * N * ulp := by
    have hNu0 : 0 ≤ N * ulp := by positivity
    -- total / sum lies between the powers
    have r1 : us.sum / total * (1 - N * ulp + ulp) ≤ 1 := by
      rw [div_mul_eq_mul_div, div_le_one htot]
      exact le_trans (mul_le_mul_of_nonneg_left pl pos.le) lo
    have r2 : 1 - (N * ulp - ulp) ≤ us.sum / total := by
      rw [le_div_iff₀ htot]
      calc (1 - (N * ulp - ulp)) * total ≤ (1 - (N * ulp - ulp)) * (us.sum * (1 + ulp) ^ (us.length - 1)) :=
            mul_le_mul_of_nonneg_left hi (by linarith)
        _ = us.sum * ((1 + ulp) ^ (us.length - 1) * (1 - (N * ulp - ulp))) := by ring
        _ ≤ us.sum * 1 := mul_le_mul_of_nonneg_left ph pos.le
        _ = us.sum := mul_one _
    have hle : ulp ≤ N * ulp := le_mul_of_one_le_left hu0.le hN0
    generalize us.sum / total = g at *
    have hg0 : 0 ≤ g := by linarith
    have hg2 : g ≤ 1 + 2 * (N * ulp) := by
      by_contra hcon
      push Not at hcon
      have := mul_lt_mul_of_pos_right hcon (show 0 < 1 - N * ulp + ulp by linarith)
      nlinarith
    rw [abs_le]
    constructor
    · nlinarith
    · nlinarith
  have hnn : ∀ p ∈ probsR signedDouble total us, 0 ≤ p := by
    intro p h
    obtain ⟨u, hu, rfl⟩ := List.mem_map.1 h
    have h0 : 0 ≤ u / total := div_nonneg (hp u hu).le htot.le
    exact le_trans (mul_nonneg h0 (by linarith)) (hrd _ h0).1
  have hlen : (probsR signedDouble total us).length = us.length := List.length_map _
  have hk : |kahanSum signedDouble (probsR signedDouble total us) - (probsR signedDouble total us).sum| ≤ 10 * ulp * N := by
    have hle : (probsR signedDouble total us).sum ≤ 101 / 100 := by
      have := (abs_le.1 hsum).2
      linarith
    rw [hNdef, ← hlen]
    revert hnn hle hlen
    generalize probsR signedDouble total us = ps
    intro hnn hlen hle
    cases ps with
    | nil => simp at hlen; omega
    | cons p l =>
      rw [List.length_cons] at hlen
      rw [List.sum_cons] at hle
      have := kahanLoop_near l p 0 p 0 (by omega) (fun x hx => hnn x (by simp [hx])) (hnn p (by simp)) hle
        (by simp) (by simp [hu0.le])
      rw [kahanSum, List.sum_cons, List.length_cons]
      refine this.trans ?_
      push_cast
      nlinarith
  unfold choiceAccepts
  rw [Bool.and_eq_true, List.all_eq_true, decide_eq_true_iff]
  refine ⟨fun p h => by simpa using hnn p h, ?_⟩
  calc |kahanSum signedDouble (probsR signedDouble total us) - 1|
      = |(kahanSum signedDouble (probsR signedDouble total us) - (probsR signedDouble total us).sum) +
          ((probsR signedDouble total us).sum - 1)| := by congr 1; ring
    _ ≤ 10 * ulp * N + 4 * N * ulp := (abs_add_le _ _).trans (add_le_add hk hsum)
    _ = 14 * (N * ulp) := by ring
    _ ≤ 14 * (1 / 2 ^ 30) := by gcongr
    _ ≤ 1 / 2 ^ 26 := by norm_num

/-- A concrete case: three uniquenesses 0.5, 0.25 and 1 added from the left. -/
example : choiceAccepts signedDouble (probsR signedDouble (7 / 4) [1 / 2, 1 / 4, 1]) = true :=
  C273_accepted _ (by decide +kernel) (by norm_num) _
    (by
      have h := RSum.add (rd := signedDouble) (RSum.add (RSum.one (1 / 2)) (RSum.one (1 / 4))) (RSum.one 1)
      have e : signedDouble (signedDouble (1 / 2 + 1 / 4) + 1) = 7 / 4 := by decide +kernel
      rw [e] at h
      exact h)

end FinML.Weights
