import Verif.Options.Model
import Mathlib.Data.List.GetD
import Mathlib.Data.Nat.Choose.Sum
import Mathlib.Algebra.BigOperators.Ring.Finset
import Mathlib.Tactic.FieldSimp
import Mathlib.Tactic.Linarith
import Mathlib.Tactic.Positivity

/-! # Lemmas about binomial trees -/

namespace FinML.Options

/-- The value with `m` steps to go at the underlying price `s`. -/
noncomputable def X (tr : Tree) (pay early : ℝ → ℝ) : ℕ → ℝ → ℝ
  | 0, s => pay s
  | m + 1, s => max (tr.disc * (tr.p * X tr pay early m (s * tr.u) + (1 - tr.p) * X tr pay early m (s * tr.d)))
      (early s)

theorem spot_up (tr : Tree) (s0 : ℝ) (i j : ℕ) : spot tr s0 (i + 1) (j + 1) = spot tr s0 i j * tr.u := by
  unfold spot; rw [Nat.add_sub_add_right]; ring

theorem spot_down (tr : Tree) (s0 : ℝ) {i j : ℕ} (h : j ≤ i) :
    spot tr s0 (i + 1) j = spot tr s0 i j * tr.d := by
  unfold spot; rw [Nat.sub_add_comm h]; ring

theorem at'_map (n : ℕ) (f : ℕ → ℝ) {j : ℕ} (h : j < n) : at' ((List.range n).map f) j = f j := by
  unfold at'; rw [List.getD_eq_getElem _ _ (by simpa using h)]; simp

theorem prevRow_X (tr : Tree) (pay early : ℝ → ℝ) (s0 : ℝ) (i m : ℕ) :
    prevRow tr early s0 i ((List.range (i + 2)).map fun j : ℕ => X tr pay early m (spot tr s0 (i + 1) j)) =
      (List.range (i + 1)).map fun j : ℕ => X tr pay early (m + 1) (spot tr s0 i j) := by
  unfold prevRow
  apply List.map_congr_left
  intro j hj
  have hj' : j ≤ i := by have := List.mem_range.1 hj; omega
  rw [at'_map _ _ (by omega), at'_map _ _ (by omega), spot_up, spot_down tr s0 hj']
  rfl

theorem backward_X (tr : Tree) (pay early : ℝ → ℝ) (s0 : ℝ) (i m : ℕ) :
    backward tr early s0 i ((List.range (i + 1)).map fun j : ℕ => X tr pay early m (spot tr s0 i j)) =
      [X tr pay early (m + i) s0] := by
  induction i generalizing m with
  | zero => simp [backward, spot]
  | succ i ih =>
    unfold backward
    rw [prevRow_X, ih]
    congr 2
    omega

theorem tree_value (tr : Tree) (pay early : ℝ → ℝ) (s0 : ℝ) (n : ℕ) :
    at' (backward tr early s0 n (lastRow tr pay s0 n)) 0 = X tr pay early n s0 := by
  have h := backward_X tr pay early s0 n 0
  unfold lastRow
  simp only [X] at h
  rw [h]
  simp [at']

/-- What is known of a tree that could be built. -/
structure TreeOk (tr : Tree) (t r sigma q : ℝ) (n : ℕ) : Prop where
  dt_eq : tr.dt = t / n
  dt_nonneg : 0 ≤ tr.dt
  u_pos : 0 < tr.u
  ud : tr.u * tr.d = 1
  ne : tr.u - tr.d ≠ 0
  mean : tr.p * tr.u + (1 - tr.p) * tr.d = Real.exp ((r - q) * tr.dt)
  disc_eq : tr.disc = Real.exp (-r * tr.dt)
  u_eq : tr.u = Real.exp (sigma * √tr.dt)

theorem TreeOk.d_pos {tr : Tree} {t r sigma q : ℝ} {n : ℕ} (h : TreeOk tr t r sigma q n) : 0 < tr.d := by
  have := h.ud
  by_contra hd
  have : tr.u * tr.d ≤ 0 := mul_nonpos_of_nonneg_of_nonpos h.u_pos.le (not_lt.1 hd)
  linarith

theorem TreeOk.disc_pos {tr : Tree} {t r sigma q : ℝ} {n : ℕ} (h : TreeOk tr t r sigma q n) :
    0 < tr.disc := by rw [h.disc_eq]; exact Real.exp_pos _

theorem TreeOk.disc_mean {tr : Tree} {t r sigma q : ℝ} {n : ℕ} (h : TreeOk tr t r sigma q n) :
    tr.disc * (tr.p * tr.u + (1 - tr.p) * tr.d) = Real.exp (-q * tr.dt) := by
  rw [h.mean, h.disc_eq, ← Real.exp_add]; ring_nf

theorem mkTree_ok {t r sigma q : ℝ} {n : ℕ} {tr : Tree} (h : mkTree t r sigma q n = some tr) :
    TreeOk tr t r sigma q n := by
  unfold mkTree at h
  simp only at h
  split at h
  · exact absurd h (by simp)
  · next hc =>
    push Not at hc
    simp only [Option.some.injEq] at h
    subst h
    have hu := Real.exp_pos (sigma * √(t / n))
    exact ⟨rfl, hc.1, hu, by field_simp, hc.2, by
      have := hc.2
      simp only
      generalize Real.exp ((r - q) * (t / n)) = a at *
      generalize Real.exp (sigma * √(t / n)) = u at *
      generalize 1 / u = d at *
      field_simp
      ring, rfl, rfl⟩

/-- A price computed by `binom_option_price`. -/
theorem binom_cases {ot style : OptionType} {s0 k t r sigma q : ℝ} {fut : Bool} {n : ℤ} {v : ℝ}
    (h : binomOptionPrice ot style s0 k t r sigma q fut n = .ok (some v)) :
    ∃ (m : ℕ) (tr : Tree), n = m ∧ 0 < m ∧ (ot = .call ∨ ot = .put) ∧
      TreeOk tr t r sigma (yieldUsed q r fut) m ∧ mkTree t r sigma (yieldUsed q r fut) m = some tr ∧
      ∃ early, earlyValue ot style k = some early ∧ v = X tr (payoff ot k) early m s0 := by
  unfold binomOptionPrice at h
  split at h
  · exact absurd h (by simp)
  · next h0 =>
    split at h
    · exact absurd h (by simp)
    · next h1 =>
      split at h
      · exact absurd h (by simp)
      · next h2 =>
        cases he : earlyValue ot style k with
        | none => rw [he] at h; exact absurd h (by simp)
        | some early =>
          rw [he] at h
          simp only [Except.ok.injEq, Option.map_eq_some_iff] at h
          obtain ⟨tr, ht, hv⟩ := h
          refine ⟨n.toNat, tr, by omega, by omega, ?_, mkTree_ok ht, ht, early, rfl, ?_⟩
          · cases ot <;> simp [exercise] at h2 ⊢
          · rw [← hv, tree_value]

theorem binom_ok {ot style : OptionType} {s0 k t r sigma q : ℝ} {fut : Bool} {m : ℕ} {tr : Tree}
    {early : ℝ → ℝ} (hm : 0 < m) (ho : ot = .call ∨ ot = .put) (he : earlyValue ot style k = some early)
    (ht : mkTree t r sigma (yieldUsed q r fut) m = some tr) :
    binomOptionPrice ot style s0 k t r sigma q fut (m : ℤ) =
      .ok (some (X tr (payoff ot k) early m s0)) := by
  unfold binomOptionPrice
  rw [if_neg (by omega), if_neg (by omega), if_neg (by rcases ho with rfl | rfl <;> simp [exercise]), he]
  simp only [Int.toNat_natCast, ht, Option.map_some, tree_value]

theorem payoff_nonneg (ot : OptionType) (k s : ℝ) : 0 ≤ payoff ot k s := by
  cases ot <;> simp [payoff, exercise]

theorem early_nonneg {ot style : OptionType} {k : ℝ} {early : ℝ → ℝ} (h : earlyValue ot style k = some early)
    (s : ℝ) : 0 ≤ early s := by
  cases style <;> simp [earlyValue] at h <;> subst h
  · exact payoff_nonneg ot k s
  · exact le_refl _

theorem X_nonneg (tr : Tree) (pay early : ℝ → ℝ) (hp : ∀ s : ℝ, 0 ≤ pay s) (he : ∀ s : ℝ, 0 ≤ early s)
    (m : ℕ) (s : ℝ) : 0 ≤ X tr pay early m s := by
  cases m with
  | zero => exact hp s
  | succ m => exact le_trans (he s) (le_max_right _ _)

/-- The average of two numbers with weights `p` and `1 - p` is monotone. -/
theorem avg_mono {p a b a' b' : ℝ} (hp : 0 ≤ p) (hp1 : p ≤ 1) (ha : a ≤ a') (hb : b ≤ b') :
    p * a + (1 - p) * b ≤ p * a' + (1 - p) * b' :=
  add_le_add (mul_le_mul_of_nonneg_left ha hp) (mul_le_mul_of_nonneg_left hb (by linarith))

theorem X_mono {tr : Tree} {pay early early' : ℝ → ℝ} (hd : 0 ≤ tr.disc) (hp : 0 ≤ tr.p) (hp1 : tr.p ≤ 1)
    (h : ∀ s : ℝ, early s ≤ early' s) (m : ℕ) (s : ℝ) : X tr pay early m s ≤ X tr pay early' m s := by
  induction m generalizing s with
  | zero => exact le_refl _
  | succ m ih =>
    exact max_le_max (mul_le_mul_of_nonneg_left (avg_mono hp hp1 (ih _) (ih _)) hd) (h s)

/-- The binomial average of `f` at `s` over `m` steps. -/
noncomputable def binAvg (tr : Tree) (m : ℕ) (f : ℝ → ℝ) (s : ℝ) : ℝ :=
  ∑ j ∈ Finset.range (m + 1), (m.choose j : ℝ) * (tr.p ^ j * (1 - tr.p) ^ (m - j) * f (s * tr.u ^ j * tr.d ^ (m - j)))

theorem binAvg_succ (tr : Tree) (m : ℕ) (f : ℝ → ℝ) (s : ℝ) :
    binAvg tr (m + 1) f s = tr.p * binAvg tr m f (s * tr.u) + (1 - tr.p) * binAvg tr m f (s * tr.d) := by
  unfold binAvg
  rw [Finset.sum_choose_succ_mul (fun i j : ℕ => tr.p ^ i * (1 - tr.p) ^ j * f (s * tr.u ^ i * tr.d ^ j)) m,
    add_comm, Finset.mul_sum, Finset.mul_sum]
  congr 1
  · apply Finset.sum_congr rfl
    intro j _
    rw [show s * tr.u ^ (j + 1) * tr.d ^ (m - j) = s * tr.u * tr.u ^ j * tr.d ^ (m - j) by ring]
    ring
  · apply Finset.sum_congr rfl
    intro j hj
    have hj' : j ≤ m := by have := Finset.mem_range.1 hj; omega
    rw [Nat.sub_add_comm hj', show s * tr.u ^ j * tr.d ^ (m - j + 1) = s * tr.d * tr.u ^ j * tr.d ^ (m - j) by ring]
    ring

/-- European values are discounted averages if the weights are not negative. -/
theorem X_european {tr : Tree} {pay : ℝ → ℝ} (hd : 0 ≤ tr.disc) (hp : 0 ≤ tr.p) (hp1 : tr.p ≤ 1)
    (hpay : ∀ s : ℝ, 0 ≤ pay s) (m : ℕ) (s : ℝ) :
    X tr pay (fun _ => 0) m s = tr.disc ^ m * binAvg tr m pay s := by
  induction m generalizing s with
  | zero => simp [X, binAvg]
  | succ m ih =>
    have h0 := X_nonneg tr pay (fun _ => 0) hpay (fun _ => le_refl _) m
    unfold X
    rw [max_eq_left, binAvg_succ, ih, ih]
    · ring
    · exact mul_nonneg hd (add_nonneg (mul_nonneg hp (h0 _)) (mul_nonneg (by linarith) (h0 _)))

theorem binAvg_const (tr : Tree) (m : ℕ) (c s : ℝ) : binAvg tr m (fun _ => c) s = c := by
  induction m generalizing s with
  | zero => simp [binAvg]
  | succ m ih => rw [binAvg_succ, ih, ih]; ring

theorem binAvg_id (tr : Tree) (m : ℕ) (s : ℝ) :
    binAvg tr m (fun x => x) s = s * (tr.p * tr.u + (1 - tr.p) * tr.d) ^ m := by
  induction m generalizing s with
  | zero => simp [binAvg]
  | succ m ih => rw [binAvg_succ, ih, ih]; ring

theorem binAvg_sub (tr : Tree) (m : ℕ) (f g : ℝ → ℝ) (s : ℝ) :
    binAvg tr m (fun x => f x - g x) s = binAvg tr m f s - binAvg tr m g s := by
  unfold binAvg
  rw [← Finset.sum_sub_distrib]
  exact Finset.sum_congr rfl fun j _ => by ring

theorem binAvg_mono {tr : Tree} (hp : 0 ≤ tr.p) (hp1 : tr.p ≤ 1) (m : ℕ) {f g : ℝ → ℝ} {s : ℝ}
    (h : ∀ x : ℝ, f x ≤ g x) : binAvg tr m f s ≤ binAvg tr m g s := by
  unfold binAvg
  apply Finset.sum_le_sum
  intro j _
  have : 0 ≤ 1 - tr.p := by linarith
  exact mul_le_mul_of_nonneg_left (mul_le_mul_of_nonneg_left (h _) (by positivity)) (by positivity)

/-- Discounting over all steps. -/
theorem TreeOk.disc_pow {tr : Tree} {t r sigma q : ℝ} {n : ℕ} (h : TreeOk tr t r sigma q n) (hn : 0 < n) :
    tr.disc ^ n = Real.exp (-r * t) := by
  have : (n : ℝ) ≠ 0 := by positivity
  rw [h.disc_eq, ← Real.exp_nat_mul, h.dt_eq]
  congr 1
  field_simp

theorem TreeOk.disc_mean_pow {tr : Tree} {t r sigma q : ℝ} {n : ℕ} (h : TreeOk tr t r sigma q n) (hn : 0 < n) :
    tr.disc ^ n * (tr.p * tr.u + (1 - tr.p) * tr.d) ^ n = Real.exp (-q * t) := by
  have : (n : ℝ) ≠ 0 := by positivity
  rw [← mul_pow, h.disc_mean, ← Real.exp_nat_mul, h.dt_eq]
  congr 1
  field_simp

/-- The risk-neutral probability is one exactly if the drift of a step is within its movement. -/
theorem TreeOk.p_iff {tr : Tree} {t r sigma q : ℝ} {n : ℕ} (h : TreeOk tr t r sigma q n) (hs : 0 ≤ sigma) :
    (0 ≤ tr.p ∧ tr.p ≤ 1) ↔ |r - q| * √tr.dt ≤ sigma := by
  have hdt : 0 < √tr.dt := by
    rcases (Real.sqrt_nonneg tr.dt).lt_or_eq with h1 | h1
    · exact h1
    · exfalso
      have hu : tr.u = 1 := by rw [h.u_eq, ← h1]; simp
      have := h.ud
      rw [hu, one_mul] at this
      exact h.ne (by rw [hu, this]; ring)
  have hsq : √tr.dt * √tr.dt = tr.dt := Real.mul_self_sqrt h.dt_nonneg
  have hd : tr.d = Real.exp (-(sigma * √tr.dt)) := by
    have := h.ud
    rw [h.u_eq] at this
    rw [Real.exp_neg]
    exact eq_inv_of_mul_eq_one_right this
  have hlt : 0 < tr.u - tr.d := by
    have : 0 ≤ tr.u - tr.d := by
      rw [h.u_eq, hd, sub_nonneg, Real.exp_le_exp]
      have := mul_nonneg hs hdt.le
      linarith
    exact lt_of_le_of_ne this (Ne.symm h.ne)
  have hp : tr.p * (tr.u - tr.d) = Real.exp ((r - q) * tr.dt) - tr.d := by rw [← h.mean]; ring
  have h0 : 0 ≤ tr.p ↔ tr.d ≤ Real.exp ((r - q) * tr.dt) := by
    constructor
    · intro hp0; have := mul_nonneg hp0 hlt.le; linarith
    · intro hp0; by_contra hc; have := mul_neg_of_neg_of_pos (not_le.1 hc) hlt; linarith
  have h1 : tr.p ≤ 1 ↔ Real.exp ((r - q) * tr.dt) ≤ tr.u := by
    constructor
    · intro hp1; have := mul_le_mul_of_nonneg_right hp1 hlt.le; linarith
    · intro hp1
      by_contra hc
      have := mul_lt_mul_of_pos_right (not_le.1 hc) hlt
      linarith
  rw [h0, h1, hd, h.u_eq, Real.exp_le_exp, Real.exp_le_exp]
  have e : (r - q) * tr.dt = ((r - q) * √tr.dt) * √tr.dt := by rw [mul_assoc, hsq]
  rw [e, ← neg_mul, mul_le_mul_iff_left₀ hdt, mul_le_mul_iff_left₀ hdt, ← abs_le, abs_mul, abs_of_pos hdt]

end FinML.Options
