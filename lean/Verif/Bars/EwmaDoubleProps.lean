import Verif.Bars.EwmaDoubleModel
import Verif.Bars.EwmaProps
import Verif.Alloc.NearProps

/-! # `fast_ewma` in doubles (C283) -/

namespace FinML.Bars

open FinML.Alloc FinML.CV

/-- C283, full claim: in doubles the exponentially weighted mean lies between any bounds of the values. -/
def DoubleMean : Prop := ∀ (l : List ℚ) (span : ℕ) (adjust : Bool) (r : List ℚ) (i : ℕ) (e lo hi : ℚ), 1 ≤ span →
  (∀ x ∈ l, signedDouble x = x) → fastEwmaR signedDouble (powR signedDouble) l span adjust = .ok r →
  r[i]? = some e → (∀ x ∈ l, lo ≤ x ∧ x ≤ hi) → lo ≤ e ∧ e ≤ hi

/-- C283, counterexample: the mean of 3 and 3 with span 2 is 2.9999999999999996. -/
theorem C283_constant_counterexample : ¬ DoubleMean := by
  intro h
  have h1 : fastEwmaR signedDouble (powR signedDouble) [3, 3] 2 true = .ok [3, 3 - 1 / 2 ^ 51] := by decide +kernel
  have := (h [3, 3] 2 true _ 1 (3 - 1 / 2 ^ 51) 3 3 (by norm_num) (by decide +kernel) h1 rfl (by simp)).1
  norm_num at this

/-- What is asked of the power: `n` roundings at most. -/
def PowOk (pw : ℚ → ℕ → ℚ) : Prop := ∀ (b : ℚ) (n : ℕ), 0 ≤ b → ∃ f, pw b n = b ^ n * f ∧ Near n f

theorem powLoop_near (fuel : ℕ) : ∀ (a a0 : ℚ) (n j : ℕ) (r f : ℚ), n ≤ fuel → 0 < j → a = a0 * f → Near (j - 1) f →
    ∃ g, powLoop signedDouble fuel a n r = r * a0 ^ n * g ∧ Near (n * j) g := by
  induction fuel with
  | zero =>
    intro a a0 n j r f hn hj ha hf
    have : n = 0 := by omega
    subst this
    exact ⟨1, by simp [powLoop], near_one _⟩
  | succ fuel ih =>
    intro a a0 n j r f hn hj ha hf
    unfold powLoop
    by_cases h0 : n = 0
    · subst h0
      exact ⟨1, by simp, near_one _⟩
    · rw [if_neg h0]
      obtain ⟨f1, e1, n1⟩ := sd_factor (a * a)
      have ha2 : signedDouble (a * a) = (a0 * a0) * (f * f * f1) := by rw [e1, ha]; ring
      have hnf : Near (2 * j - 1) (f * f * f1) := by
        have := near_mul (near_mul hf hf) n1
        rwa [show j - 1 + (j - 1) + 1 = 2 * j - 1 by omega] at this
      by_cases h2 : n % 2 = 1
      · rw [if_pos h2]
        obtain ⟨f2, e2, n2⟩ := sd_factor (r * a)
        obtain ⟨g, e3, n3⟩ := ih (signedDouble (a * a)) (a0 * a0) (n / 2) (2 * j) (signedDouble (r * a)) _ (by omega)
          (by omega) ha2 hnf
        refine ⟨f2 * f * g, ?_, ?_⟩
        · rw [e3, e2, ha]
          have : a0 ^ n = a0 * (a0 * a0) ^ (n / 2) := by
            rw [← pow_two, ← pow_mul, ← pow_succ']
            congr 1
            omega
          rw [this]
          ring
        · have h5 : 1 + (j - 1) + n / 2 * (2 * j) = n * j := by
            have : n = 2 * (n / 2) + 1 := by omega
            calc 1 + (j - 1) + n / 2 * (2 * j) = j + n / 2 * (2 * j) := by omega
              _ = (2 * (n / 2) + 1) * j := by ring
              _ = n * j := by rw [← this]
          have := near_mul (near_mul n2 hf) n3
          rwa [h5] at this
      · rw [if_neg h2]
        obtain ⟨g, e3, n3⟩ := ih (signedDouble (a * a)) (a0 * a0) (n / 2) (2 * j) r _ (by omega)
          (by omega) ha2 hnf
        refine ⟨g, ?_, ?_⟩
        · rw [e3]
          have : a0 ^ n = (a0 * a0) ^ (n / 2) := by
            rw [← pow_two, ← pow_mul]
            congr 1
            omega
          rw [this]
        · have h5 : n / 2 * (2 * j) = n * j := by
            have : n = 2 * (n / 2) := by omega
            calc n / 2 * (2 * j) = (2 * (n / 2)) * j := by ring
              _ = n * j := by rw [← this]
          rwa [h5] at n3

/-- C283.  Repeated squaring in doubles makes at most as many roundings as the exponent says. -/
theorem C283_power : PowOk (powR signedDouble) := by
  intro b n _
  obtain ⟨g, h1, h2⟩ := powLoop_near n b b n 1 1 1 le_rfl (by norm_num) (by ring) (near_one _)
  refine ⟨g, ?_, by rwa [mul_one] at h2⟩
  unfold powR
  rw [h1, one_mul]

/-- The decay factor `1 - alpha` in doubles. -/
theorem decay_near (span : ℕ) (hs : 1 ≤ span) :
    ∃ f, signedDouble (1 - signedDouble (2 / ((span : ℚ) + 1))) = (1 - 2 / ((span : ℚ) + 1)) * f ∧ Near 4 f := by
  rcases hs.eq_or_lt with rfl | hs
  · refine ⟨1, ?_, near_one 4⟩
    have h1 : (2 / (((1 : ℕ) : ℚ) + 1)) = 1 := by norm_num
    rw [h1, signedDouble_one, sub_self, zero_mul]
    simpa using signedDouble_nat 0 (by norm_num)
  · have hsp : (2 : ℚ) ≤ span := by exact_mod_cast hs
    obtain ⟨f1, e1, n1⟩ := sd_factor (1 - signedDouble (2 / ((span : ℚ) + 1)))
    have h1 := signedDouble_err (2 / ((span : ℚ) + 1))
    have ha0 : 0 < 2 / ((span : ℚ) + 1) := by positivity
    have hb : 2 / ((span : ℚ) + 1) ≤ 2 * (1 - 2 / ((span : ℚ) + 1)) := by
      have : 2 / ((span : ℚ) + 1) ≤ 2 / 3 := by gcongr; linarith
      linarith
    rw [abs_of_pos ha0] at h1
    generalize hα : 2 / ((span : ℚ) + 1) = α at *
    have hβ : 0 < 1 - α := by linarith
    have h2 := abs_le.1 h1
    have h3 : α / 2 ^ 53 ≤ 2 * (1 - α) / 2 ^ 53 := by gcongr
    refine ⟨(1 - signedDouble α) / (1 - α) * f1, by rw [e1]; field_simp, ?_⟩
    have hn : Near 3 ((1 - signedDouble α) / (1 - α)) := by
      constructor
      · rw [le_div_iff₀ hβ]
        have : (1 - 1 / 2 ^ 53 : ℚ) ^ 3 ≤ 1 - 2 / 2 ^ 53 := by norm_num
        calc (1 - 1 / 2 ^ 53 : ℚ) ^ 3 * (1 - α) ≤ (1 - 2 / 2 ^ 53) * (1 - α) := mul_le_mul_of_nonneg_right this hβ.le
          _ ≤ 1 - signedDouble α := by linarith [h2.2]
      · rw [div_mul_eq_mul_div, div_le_one hβ]
        have : (1 + 2 / 2 ^ 53 : ℚ) * (1 - 1 / 2 ^ 53 : ℚ) ^ 3 ≤ 1 := by norm_num
        have h4 : 1 - signedDouble α ≤ (1 + 2 / 2 ^ 53) * (1 - α) := by linarith [h2.1]
        calc (1 - signedDouble α) * (1 - 1 / 2 ^ 53 : ℚ) ^ 3
            ≤ (1 + 2 / 2 ^ 53) * (1 - α) * (1 - 1 / 2 ^ 53 : ℚ) ^ 3 := mul_le_mul_of_nonneg_right h4 (cpow_pos 3).le
          _ = (1 - α) * ((1 + 2 / 2 ^ 53) * (1 - 1 / 2 ^ 53 : ℚ) ^ 3) := by ring
          _ ≤ (1 - α) * 1 := mul_le_mul_of_nonneg_left this hβ.le
          _ = 1 - α := mul_one _
    have := near_mul hn n1
    exact this

/-- The three lists agree up to roundings: position `j` has made `12 (i + j) + 1`. -/
def Rows (i : ℕ) (rR r a : List ℚ) : Prop := rR.length = r.length ∧ a.length = r.length ∧
  ∀ (j : ℕ) (E e m : ℚ), rR[j]? = some E → r[j]? = some e → a[j]? = some m → Appr (12 * (i + j) + 1) E e m

theorem rows_nil (i : ℕ) : Rows i [] [] [] := ⟨rfl, rfl, by simp⟩

theorem rows_cons {i : ℕ} {rR r a : List ℚ} {E e m : ℚ} (h0 : Appr (12 * i + 1) E e m) (h : Rows (i + 1) rR r a) :
    Rows i (E :: rR) (e :: r) (m :: a) := by
  obtain ⟨h1, h2, h3⟩ := h
  refine ⟨by simp [h1], by simp [h2], ?_⟩
  intro j E' e' m' g1 g2 g3
  cases j with
  | zero =>
    simp only [List.getElem?_cons_zero, Option.some.injEq] at g1 g2 g3
    subst g1 g2 g3
    exact h0
  | succ j =>
    simp only [List.getElem?_cons_succ] at g1 g2 g3
    have := h3 j E' e' m' g1 g2 g3
    rwa [show i + 1 + j = i + (j + 1) by omega] at this

theorem adj_close (pw : ℚ → ℕ → ℚ) (hpw : PowOk pw) (α b fb : ℚ) (hα : 0 ≤ 1 - α) (hb : b = (1 - α) * fb)
    (hfb : Near 4 fb) (xs : List ℚ) : ∀ (i : ℕ) (W w g N n A : ℚ), W = w * g → Near (6 * i) g → 1 ≤ w →
    Appr (6 * i) N n A → ∃ rR r a, ewmaAdjLoopR signedDouble pw b (i + 1) W N xs = .ok rR ∧
      ewmaAdjLoop α (i + 1) w n xs = .ok r ∧ ewmaAdjLoop α (i + 1) w A (xs.map abs) = .ok a ∧ Rows (i + 1) rR r a := by
  induction xs with
  | nil => intro i W w g N n A _ _ _ _; exact ⟨[], [], [], rfl, rfl, rfl, rows_nil _⟩
  | cons x xs ih =>
    intro i W w g N n A hW hg hw hN
    have hb0 : 0 ≤ b := by rw [hb]; exact mul_nonneg hα (near_pos hfb).le
    obtain ⟨fp, ep, np⟩ := hpw b (i + 1) hb0
    have hbp : b ^ (i + 1) = (1 - α) ^ (i + 1) * fb ^ (i + 1) := by rw [hb, mul_pow]
    have npow : ∀ k, Near (4 * k) (fb ^ k) := by
      intro k
      induction k with
      | zero => simpa using near_one 0
      | succ k ih => rw [pow_succ]; exact near_mul ih hfb
    have nq : Near (6 * i + 5) (fb ^ (i + 1) * fp) := near_mono (near_mul (npow (i + 1)) np) (by omega)
    -- the weight
    have hq0 : 0 ≤ (1 - α) ^ (i + 1) := pow_nonneg hα _
    obtain ⟨gs, es, ns⟩ := near_add (near_mono hg (show 6 * i ≤ 6 * i + 5 by omega)) nq (by linarith : 0 ≤ w) hq0
    obtain ⟨fr, er, nr⟩ := sd_factor (W + pw b (i + 1))
    have hW' : signedDouble (W + pw b (i + 1)) = (w + (1 - α) ^ (i + 1)) * (gs * fr) := by
      rw [er, hW, ep, hbp, mul_assoc ((1 - α) ^ (i + 1)), es, mul_assoc]
    have ng' : Near (6 * (i + 1)) (gs * fr) := near_mono (near_mul ns nr) (by omega)
    have hw' : 1 ≤ w + (1 - α) ^ (i + 1) := by linarith
    have hWp : 0 < signedDouble (W + pw b (i + 1)) := by
      rw [hW']; exact mul_pos (by linarith) (near_pos ng')
    -- the sum
    have h1 : Appr (6 * i + 5) (signedDouble (N * b)) (n * (1 - α)) (A * (1 - α)) := by
      have := appr_sd (appr_mul (appr_scale hN hα) hfb)
      rwa [mul_assoc, ← hb] at this
    have h2 : Appr (6 * (i + 1)) (signedDouble (signedDouble (N * b) + x)) (n * (1 - α) + x) (A * (1 - α) + |x|) :=
      appr_sd (appr_add h1 (appr_mono (appr_exact x) (Nat.zero_le _)))
    obtain ⟨rR, r, a, q1, q2, q3, q4⟩ := ih (i + 1) _ _ _ _ _ _ hW' ng' hw' h2
    have h3 : Appr (12 * (i + 1) + 1)
        (signedDouble (signedDouble (signedDouble (N * b) + x) / signedDouble (W + pw b (i + 1))))
        ((n * (1 - α) + x) / (w + (1 - α) ^ (i + 1))) ((A * (1 - α) + |x|) / (w + (1 - α) ^ (i + 1))) := by
      have := appr_sd (appr_mul (appr_scale h2 (b := 1 / (w + (1 - α) ^ (i + 1))) (by positivity)) (near_inv ng'))
      simp only [mul_one_div] at this
      rw [div_div, ← hW'] at this
      rwa [show 12 * (i + 1) + 1 = 6 * (i + 1) + 6 * (i + 1) + 1 by ring]
    refine ⟨_ :: rR, _ :: r, _ :: a, ?_, ?_, ?_, rows_cons h3 q4⟩
    · simp only [ewmaAdjLoopR, if_neg hWp.ne', q1, py_bind_ok]
      rfl
    · have : w + (1 - α) ^ (i + 1) ≠ 0 := by positivity
      simp only [ewmaAdjLoop, if_neg this, q2, py_bind_ok]
      rfl
    · have : w + (1 - α) ^ (i + 1) ≠ 0 := by positivity
      simp only [List.map_cons, ewmaAdjLoop, if_neg this, q3, py_bind_ok]
      rfl

theorem rec_close (α a' b fa fb : ℚ) (h0 : 0 ≤ α) (hα : 0 ≤ 1 - α) (ha : a' = α * fa) (hfa : Near 1 fa)
    (hb : b = (1 - α) * fb) (hfb : Near 4 fb) (xs : List ℚ) : ∀ (i : ℕ) (N n A : ℚ), Appr (12 * i + 1) N n A →
    Rows (i + 1) (ewmaRecLoopR signedDouble a' b N xs) (ewmaRecLoop α n xs) (ewmaRecLoop α A (xs.map abs)) := by
  induction xs with
  | nil => intro i N n A _; exact rows_nil _
  | cons x xs ih =>
    intro i N n A hN
    have h1 : Appr (12 * i + 6) (signedDouble (N * b)) (n * (1 - α)) (A * (1 - α)) := by
      have := appr_sd (appr_mul (appr_scale hN hα) hfb)
      rwa [mul_assoc, ← hb] at this
    have h2 : Appr (12 * i + 6) (signedDouble (x * a')) (x * α) (|x| * α) := by
      have := appr_sd (appr_mul (appr_scale (appr_exact x) h0) hfa)
      rw [mul_assoc, ← ha] at this
      exact appr_mono this (by omega)
    have h3 : Appr (12 * (i + 1) + 1) (signedDouble (signedDouble (x * a') + signedDouble (N * b)))
        (x * α + n * (1 - α)) (|x| * α + A * (1 - α)) := appr_mono (appr_sd (appr_add h2 h1)) (by omega)
    have := ih (i + 1) _ _ _ h3
    simp only [List.map_cons, ewmaRecLoopR, ewmaRecLoop]
    exact rows_cons h3 this

theorem growth_small (i : ℕ) (hi : i ≤ 2 ^ 46) : growth (12 * i + 1) - 1 ≤ ((i : ℚ) + 1) / 2 ^ 49 := by
  have hi' : (i : ℚ) ≤ 2 ^ 46 := by exact_mod_cast hi
  have h1 : 1 - ((12 * i + 1 : ℕ) : ℚ) * (1 / 2 ^ 53) ≤ (1 - 1 / 2 ^ 53 : ℚ) ^ (12 * i + 1) := by
    have := one_add_mul_le_pow (a := (-(1 / 2 ^ 53) : ℚ)) (by norm_num) (12 * i + 1)
    rw [← sub_eq_add_neg] at this
    linarith
  push_cast at h1
  have hi0 : (0 : ℚ) ≤ i := Nat.cast_nonneg i
  unfold growth
  rw [sub_le_iff_le_add, div_le_iff₀ (cpow_pos _)]
  refine le_trans ?_ (mul_le_mul_of_nonneg_left h1 (by positivity))
  nlinarith

/-- C283, what holds (missing: that the mean stays between the bounds of the values, see `DoubleMean`): for every power
with the stated accuracy and every series of fewer than 2^46 doubles, the computation in doubles succeeds exactly like
the exact one, and position `i` is within `(i + 1) / 2^49` of the exact mean, relative to the mean of the absolute
values. -/
theorem C283_close_partial (pw : ℚ → ℕ → ℚ) (hpw : PowOk pw) (l : List ℚ) (span : ℕ) (hs : 1 ≤ span) (adjust : Bool)
    (hl : l.length ≤ 2 ^ 46) : ∃ rR r a, fastEwmaR signedDouble pw l span adjust = .ok rR ∧
    fastEwma l span adjust = .ok r ∧ fastEwma (l.map abs) span adjust = .ok a ∧ rR.length = l.length ∧
    r.length = l.length ∧ a.length = l.length ∧
    ∀ (i : ℕ) (E e m : ℚ), rR[i]? = some E → r[i]? = some e → a[i]? = some m →
      |E - e| ≤ ((i : ℚ) + 1) / 2 ^ 49 * m := by
  have hsp : (1 : ℚ) ≤ span := by exact_mod_cast hs
  have hα0 : (0 : ℚ) ≤ 2 / ((span : ℚ) + 1) := by positivity
  have hα : 0 ≤ 1 - 2 / ((span : ℚ) + 1) := by
    rw [sub_nonneg, div_le_one (by linarith)]
    linarith
  obtain ⟨fb, hb, hfb⟩ := decay_near span hs
  obtain ⟨fa, ha, hfa⟩ := sd_factor (2 / ((span : ℚ) + 1))
  suffices h : ∃ rR r a, fastEwmaR signedDouble pw l span adjust = .ok rR ∧ fastEwma l span adjust = .ok r ∧
      fastEwma (l.map abs) span adjust = .ok a ∧ r.length = l.length ∧ Rows 0 rR r a by
    obtain ⟨rR, r, a, h1, h2, h3, h4, h5, h6, h7⟩ := h
    refine ⟨rR, r, a, h1, h2, h3, h5.trans h4, h4, h6.trans h4, ?_⟩
    intro i E e m g1 g2 g3
    have h8 := h7 i E e m g1 g2 g3
    rw [zero_add] at h8
    have hi : i < r.length := (List.getElem?_eq_some_iff.1 g2).1
    have hm : 0 ≤ m := (abs_nonneg _).trans h8.1
    exact h8.2.trans (mul_le_mul_of_nonneg_right (growth_small i (by omega)) hm)
  cases l with
  | nil => exact ⟨[], [], [], rfl, rfl, rfl, rfl, rows_nil _⟩
  | cons x xs =>
    have hx : Appr (12 * 0 + 1) x x |x| := appr_mono (appr_exact x) (Nat.zero_le _)
    cases adjust with
    | true =>
      obtain ⟨rR, r, a, h1, h2, h3, h4⟩ := adj_close pw hpw _ _ fb hα hb hfb xs 0 1 1 1 x x |x| (by norm_num)
        (near_one _) le_rfl (appr_exact x)
      obtain ⟨q, hq1, hq2, -⟩ := C13_ewma_adjusted (x :: xs) span hs
      simp only [Nat.zero_add] at h1 h2 h3
      have e2 : fastEwma (x :: xs) span true = .ok (x :: r) := by
        simp only [fastEwma, if_true, h2, py_bind_ok]
        rfl
      refine ⟨x :: rR, x :: r, |x| :: a, ?_, e2, ?_, ?_, rows_cons hx h4⟩
      · simp only [fastEwmaR, if_true, h1, py_bind_ok]
        rfl
      · simp only [List.map_cons, fastEwma, if_true, h3, py_bind_ok]
        rfl
      · rw [e2] at hq1
        rw [Except.ok.inj hq1, hq2]
    | false =>
      refine ⟨_, _, _, rfl, rfl, rfl, ?_, rows_cons hx (rec_close _ _ _ fa fb hα0 hα ha hfa hb hfb xs 0 x x |x| hx)⟩
      rw [List.length_cons, (ewmaRecLoop_spec _ _ _).1, List.length_cons]

/-- C283, the mean of values between `lo` and `hi`, none beyond `M` in size, leaves the bounds by `(i + 1) / 2^49`
of `M` at most (missing: that it does not leave them, see `DoubleMean`). -/
theorem C283_bounds_partial (l : List ℚ) (span : ℕ) (hs : 1 ≤ span) (adjust : Bool) (hl : l.length ≤ 2 ^ 46)
    (rR : List ℚ) (hr : fastEwmaR signedDouble (powR signedDouble) l span adjust = .ok rR) (i : ℕ) (E lo hi M : ℚ)
    (hE : rR[i]? = some E) (hb : ∀ x ∈ l.take (i + 1), lo ≤ x ∧ x ≤ hi ∧ |x| ≤ M) :
    lo - ((i : ℚ) + 1) / 2 ^ 49 * M ≤ E ∧ E ≤ hi + ((i : ℚ) + 1) / 2 ^ 49 * M := by
  obtain ⟨rR', r, a, h1, h2, h3, l1, l2, l3, h4⟩ := C283_close_partial _ C283_power l span hs adjust hl
  obtain rfl : rR = rR' := by rw [hr] at h1; exact Except.ok.inj h1
  have hi' : i < rR.length := (List.getElem?_eq_some_iff.1 hE).1
  have he : r[i]? = some (r[i]'(by omega)) := List.getElem?_eq_getElem _
  have hm : a[i]? = some (a[i]'(by omega)) := List.getElem?_eq_getElem _
  have h5 := abs_le.1 (h4 i E _ _ hE he hm)
  have h6 := C13_ewma_bounds l span hs adjust r h2 i _ lo hi he (fun x hx => ⟨(hb x hx).1, (hb x hx).2.1⟩)
  have h7 := C13_ewma_bounds (l.map abs) span hs adjust a h3 i _ 0 M hm (by
    intro y hy
    rw [← List.map_take] at hy
    obtain ⟨x, hx, rfl⟩ := List.mem_map.1 hy
    exact ⟨abs_nonneg x, (hb x hx).2.2⟩)
  have h8 : ((i : ℚ) + 1) / 2 ^ 49 * (a[i]'(by omega)) ≤ ((i : ℚ) + 1) / 2 ^ 49 * M :=
    mul_le_mul_of_nonneg_left h7.2 (by positivity)
  constructor <;> linarith [h5.1, h5.2, h6.1, h6.2]

/-- C283, what stays exact: the first value is returned as it is, and with span 1 the series itself, whatever the
accuracy of the power, provided that zero to a positive power is zero. -/
theorem C283_span_one (pw : ℚ → ℕ → ℚ) (hpw : ∀ n, 0 < n → pw 0 n = 0) (l : List ℚ)
    (hl : ∀ x ∈ l, signedDouble x = x) (adjust : Bool) : fastEwmaR signedDouble pw l 1 adjust = .ok l := by
  have sd0 : signedDouble 0 = 0 := by simpa using signedDouble_nat 0 (by norm_num)
  have h1 : (2 / (((1 : ℕ) : ℚ) + 1)) = 1 := by norm_num
  have hadj : ∀ (xs : List ℚ) (i : ℕ) (o : ℚ), (∀ x ∈ xs, signedDouble x = x) →
      ewmaAdjLoopR signedDouble pw 0 (i + 1) 1 o xs = .ok xs := by
    intro xs
    induction xs with
    | nil => intro i o _; rfl
    | cons x xs ih =>
      intro i o h
      have hx := h x (by simp)
      simp only [ewmaAdjLoopR, hpw (i + 1) (by omega), add_zero, mul_zero, sd0, zero_add, signedDouble_one,
        one_ne_zero, if_false, hx, ih (i + 1) x (fun y hy => h y (by simp [hy])), py_bind_ok, div_one]
      rfl
  have hrec : ∀ (xs : List ℚ) (o : ℚ), (∀ x ∈ xs, signedDouble x = x) →
      ewmaRecLoopR signedDouble 1 0 o xs = xs := by
    intro xs
    induction xs with
    | nil => intro o _; rfl
    | cons x xs ih =>
      intro o h
      have hx := h x (by simp)
      simp only [ewmaRecLoopR, mul_one, mul_zero, sd0, add_zero, hx, ih x (fun y hy => h y (by simp [hy]))]
  cases l with
  | nil => rfl
  | cons x xs =>
    have hxs : ∀ y ∈ xs, signedDouble y = y := fun y hy => hl y (by simp [hy])
    simp only [fastEwmaR, h1, signedDouble_one, sub_self, sd0]
    cases adjust with
    | true => simp only [if_true, hadj xs 0 x hxs, py_bind_ok]; rfl
    | false => simp [hrec xs x hxs]

example : fastEwmaR signedDouble (powR signedDouble) [1, 1, 1] 5 true = .ok [1, 1, 1 + 1 / 2 ^ 52] ∧
    fastEwmaR signedDouble (powR signedDouble) [1, 2, 4] 3 false = .ok [1, 3 / 2, 11 / 4] := by decide +kernel

end FinML.Bars
