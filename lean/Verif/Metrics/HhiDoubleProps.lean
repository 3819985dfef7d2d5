import Verif.Metrics.HhiDoubleModel
import Verif.Metrics.RetProps
import Verif.Filters.DoubleProps
import Verif.Alloc.NearProps

/-! # Return concentration in doubles (C284) -/

namespace FinML.Metrics

open FinML.Alloc FinML.CV

/-- C284, full claim: in doubles both concentrations lie between 0 and 1. -/
def DoubleConcentration : Prop := ∀ (rets : List ℚ) (h : ℚ), (∀ r ∈ rets, signedDouble r = r) →
  (hhiConcentrationR signedDouble (sumR signedDouble) rets).1 = some h ∨
    (hhiConcentrationR signedDouble (sumR signedDouble) rets).2 = some h → 0 ≤ h ∧ h ≤ 1

/-- C284, counterexample: five returns of 1% each have a negative concentration. -/
theorem C284_negative_counterexample : ¬ DoubleConcentration := by
  intro h
  have h1 : (hhiConcentrationR signedDouble (sumR signedDouble) (List.replicate 5 (signedDouble (1 / 100)))).1 =
      some (-(5 / 2 ^ 56)) := by decide +kernel
  have := (h _ _ (by decide +kernel) (Or.inl h1)).1
  norm_num at this

/-- What is asked of the sum: at most as many roundings as summands for summands of one sign. -/
structure SumOk (sm : List ℚ → ℚ) : Prop where
  near : ∀ l : List ℚ, (∀ x ∈ l, 0 ≤ x) → ∃ f, sm l = l.sum * f ∧ Near l.length f
  odd : ∀ l : List ℚ, sm (l.map fun x => -x) = -sm l

theorem foldl_near (l : List ℚ) (hl : ∀ x ∈ l, 0 ≤ x) : ∀ (S s f : ℚ) (k : ℕ), S = s * f → 0 ≤ s → Near k f →
    ∃ g, l.foldl (fun s x => signedDouble (s + x)) S = (s + l.sum) * g ∧ Near (k + l.length) g := by
  induction l with
  | nil => intro S s f k h0 _ h2; exact ⟨f, by simpa using h0, by simpa using h2⟩
  | cons x l ih =>
    intro S s f k h0 h1 h2
    have hx := hl x (by simp)
    obtain ⟨f1, e1, n1⟩ := near_add h2 (near_one k) h1 hx
    obtain ⟨f2, e2, n2⟩ := sd_factor (S + x)
    have h3 : signedDouble (S + x) = (s + x) * (f1 * f2) := by
      rw [e2, h0]
      rw [mul_one] at e1
      rw [e1]
      ring
    obtain ⟨g, e3, n3⟩ := ih (fun y hy => hl y (by simp [hy])) _ _ _ _ h3 (add_nonneg h1 hx) (near_mul n1 n2)
    refine ⟨g, ?_, ?_⟩
    · rw [List.foldl_cons, e3, List.sum_cons]
      ring
    · rw [List.length_cons]
      exact near_mono n3 (by omega)

/-- C284.  Adding from left to right in doubles is accurate enough. -/
theorem C284_sum : SumOk (sumR signedDouble) where
  near l hl := by
    obtain ⟨g, h1, h2⟩ := foldl_near l hl 0 0 1 0 (by ring) le_rfl (near_one 0)
    exact ⟨g, by rw [sumR, h1, zero_add], by simpa using h2⟩
  odd l := by
    unfold sumR
    have : ∀ (l : List ℚ) (s : ℚ), (l.map fun x => -x).foldl (fun s x => signedDouble (s + x)) (-s) =
        -l.foldl (fun s x => signedDouble (s + x)) s := by
      intro l
      induction l with
      | nil => intro s; rfl
      | cons x l ih =>
        intro s
        rw [List.map_cons, List.foldl_cons, List.foldl_cons, ← neg_add, signedDouble_neg, ih]
    simpa using this l 0

theorem sum_near (l : List ℚ) (F G : ℚ → ℚ) (k : ℕ) (h : ∀ x ∈ l, 0 ≤ F x ∧ ∃ f, G x = F x * f ∧ Near k f) :
    ∃ f, (l.map G).sum = (l.map F).sum * f ∧ Near k f := by
  induction l with
  | nil => exact ⟨1, by simp, near_one k⟩
  | cons x l ih =>
    obtain ⟨f1, e1, n1⟩ := ih fun y hy => h y (by simp [hy])
    obtain ⟨h0, f2, e2, n2⟩ := h x (by simp)
    have hs : 0 ≤ (l.map F).sum := by
      apply List.sum_nonneg
      intro y hy
      obtain ⟨z, hz, rfl⟩ := List.mem_map.1 hy
      exact (h z (by simp [hz])).1
    obtain ⟨f, e, n⟩ := near_add n2 n1 h0 hs
    exact ⟨f, by rw [List.map_cons, List.map_cons, List.sum_cons, List.sum_cons, e1, e2, e], n⟩

theorem growth_small (n : ℕ) (hn : n ≤ 2 ^ 46) : growth (3 * n + 7) - 1 ≤ 4 * ((n : ℚ) + 2) / 2 ^ 53 := by
  have hn' : (n : ℚ) ≤ 2 ^ 46 := by exact_mod_cast hn
  have h1 : 1 - ((3 * n + 7 : ℕ) : ℚ) * (1 / 2 ^ 53) ≤ (1 - 1 / 2 ^ 53 : ℚ) ^ (3 * n + 7) := by
    have := one_add_mul_le_pow (a := (-(1 / 2 ^ 53) : ℚ)) (by norm_num) (3 * n + 7)
    rw [← sub_eq_add_neg] at this
    linarith
  push_cast at h1
  have hi0 : (0 : ℚ) ≤ n := Nat.cast_nonneg n
  unfold growth
  rw [sub_le_iff_le_add, div_le_iff₀ (cpow_pos _)]
  refine le_trans ?_ (mul_le_mul_of_nonneg_left h1 (by positivity))
  nlinarith

theorem filterMap_fdiv (l : List ℚ) (S : ℚ) (hS : S ≠ 0) (rd : ℚ → ℚ) :
    (l.map fun r => (fdiv r S).map rd).filterMap id = l.map fun r => rd (r / S) := by
  rw [List.filterMap_map]
  simp [fdiv, hS]

theorem hhiR_close (sm : List ℚ → ℚ) (hsm : SumOk sm) (l : List ℚ) (h0 : ∀ x ∈ l, 0 ≤ x) (hn : 2 ≤ l.length)
    (hl : l.length ≤ 2 ^ 46) (hs : l.sum ≠ 0) : ∃ H h, hhiR signedDouble sm l = some H ∧ hhi l = some h ∧
    |H - h| ≤ ((l.length : ℚ) + 2) / 2 ^ 49 := by
  have hS : 0 < l.sum := lt_of_le_of_ne (List.sum_nonneg h0) hs.symm
  have hn' : (2 : ℚ) ≤ (l.length : ℚ) := by exact_mod_cast hn
  obtain ⟨c, c1, c2, c3, -⟩ := concentration_nonneg l h0 hn hs
  have c4 := hhi_eq l hs hn
  set n : ℚ := (l.length : ℚ) with hndef
  have hnp : 0 < n := by linarith
  set Q := (l.map fun x => x ^ 2).sum / l.sum ^ 2 with hQ
  have hn2 : 1 / n ≤ 1 / 2 := one_div_le_one_div_of_le (by norm_num) hn'
  have hn0 : 0 < 1 / n := by positivity
  have hden : 0 < 1 - 1 / n := by linarith
  have hc : c = (Q - 1 / n) / (1 - 1 / n) := by
    rw [c1] at c4
    exact Option.some.inj c4
  have hQ1 : Q ≤ 1 := by
    rw [hc, div_le_one hden] at c3
    linarith
  have hQ0 : 0 ≤ Q := by
    rw [hc, le_div_iff₀ hden] at c2
    linarith
  -- the total
  obtain ⟨g, eg, ng⟩ := hsm.near l h0
  have hT : 0 < sm l := by rw [eg]; exact mul_pos hS (near_pos ng)
  -- the sum of squares
  have hsq : ∃ f, (l.map fun r => signedDouble (signedDouble (r / sm l) * signedDouble (r / sm l))).sum = Q * f ∧
      Near (2 * l.length + 3) f := by
    obtain ⟨f, e, nf⟩ := sum_near l (fun r => r ^ 2 / l.sum ^ 2)
      (fun r => signedDouble (signedDouble (r / sm l) * signedDouble (r / sm l))) (2 * l.length + 3) (by
        intro r hr
        refine ⟨by positivity, ?_⟩
        obtain ⟨f1, e1, n1⟩ := sd_factor (r / sm l)
        obtain ⟨f2, e2, n2⟩ := sd_factor (signedDouble (r / sm l) * signedDouble (r / sm l))
        have n3 := near_mul (near_inv ng) n1
        refine ⟨(1 / g * f1) * (1 / g * f1) * f2, ?_, near_mono (near_mul (near_mul n3 n3) n2) (by omega)⟩
        rw [e2, e1, eg]
        have := (near_pos ng).ne'
        field_simp)
    refine ⟨f, ?_, nf⟩
    rw [e, hQ]
    congr 1
    rw [div_eq_mul_inv, ← List.sum_map_mul_right]
    rfl
  obtain ⟨f1, e1, n1⟩ := hsq
  obtain ⟨f2, e2, n2⟩ := hsm.near (l.map fun r => signedDouble (signedDouble (r / sm l) * signedDouble (r / sm l))) (by
    intro y hy
    obtain ⟨r, hr, rfl⟩ := List.mem_map.1 hy
    obtain ⟨f, e, nf⟩ := sd_factor (signedDouble (r / sm l) * signedDouble (r / sm l))
    rw [e]
    exact mul_nonneg (mul_self_nonneg _) (near_pos nf).le)
  rw [List.length_map] at n2
  rw [e1] at e2
  -- one over n
  obtain ⟨f3, e3, n3⟩ := sd_factor (1 / n)
  have herr := signedDouble_err (1 / n)
  rw [abs_of_pos hn0] at herr
  have herr' := abs_le.1 herr
  have hd : ∃ f, signedDouble (1 - signedDouble (1 / n)) = (1 - 1 / n) * f ∧ Near 2 f := by
    obtain ⟨f, e, nf⟩ := sd_factor (1 - signedDouble (1 / n))
    refine ⟨(1 - signedDouble (1 / n)) / (1 - 1 / n) * f, by rw [e, ← mul_assoc, mul_div_cancel₀ _ hden.ne'], ?_⟩
    have hle : 1 / n / 2 ^ 53 ≤ (1 - 1 / n) / 2 ^ 53 := by
      apply div_le_div_of_nonneg_right _ (by positivity)
      linarith
    have : Near 1 ((1 - signedDouble (1 / n)) / (1 - 1 / n)) := by
      generalize hv : 1 / n = v at *
      constructor
      · rw [pow_one, le_div_iff₀ hden]
        linarith [herr'.2]
      · rw [pow_one, div_mul_eq_mul_div, div_le_one hden]
        have h4 : 1 - signedDouble v ≤ (1 + 1 / 2 ^ 53) * (1 - v) := by linarith [herr'.1]
        calc (1 - signedDouble v) * (1 - 1 / 2 ^ 53 : ℚ)
            ≤ (1 + 1 / 2 ^ 53) * (1 - v) * (1 - 1 / 2 ^ 53 : ℚ) := mul_le_mul_of_nonneg_right h4 c_pos.le
          _ = (1 - v) * ((1 + 1 / 2 ^ 53) * (1 - 1 / 2 ^ 53 : ℚ)) := by ring
          _ ≤ (1 - v) * 1 := mul_le_mul_of_nonneg_left (by norm_num) hden.le
          _ = 1 - v := mul_one _
    exact near_mul this nf
  obtain ⟨f4, e4, n4⟩ := hd
  have hDp : 0 < signedDouble (1 - signedDouble (1 / n)) := by rw [e4]; exact mul_pos hden (near_pos n4)
  -- numerator
  have a1 : Appr (3 * l.length + 3) (Q * f1 * f2) Q Q := by
    have h := appr_mul (appr_mul (appr_exact Q) n1) n2
    rw [abs_of_nonneg hQ0] at h
    exact appr_mono h (by omega)
  have a2 : Appr (3 * l.length + 3) (-signedDouble (1 / n)) (-(1 / n)) (1 / n) := by
    have h := appr_sd (appr_exact (-(1 / n)))
    rw [signedDouble_neg, abs_neg, abs_of_pos hn0] at h
    exact appr_mono h (by omega)
  have a3 := appr_sd (appr_add a1 a2)
  rw [← sub_eq_add_neg, ← sub_eq_add_neg, ← e2] at a3
  have a4 := appr_sd (appr_mul (appr_scale a3 (b := 1 / (1 - 1 / n)) (by positivity)) (near_inv n4))
  simp only [mul_one_div] at a4
  rw [div_div, ← e4] at a4
  refine ⟨signedDouble (signedDouble (sm (l.map fun r => signedDouble (signedDouble (r / sm l) *
    signedDouble (r / sm l))) - signedDouble (1 / n)) / signedDouble (1 - signedDouble (1 / n))), c, ?_, c1, ?_⟩
  · unfold hhiR
    simp only [filterMap_fdiv l (sm l) hT.ne' signedDouble, List.map_map, Function.comp_def, ← hndef]
    rw [fdiv, if_neg hDp.ne', Option.map_some]
  · rw [hc]
    have h5 := (appr_mono a4 (show _ ≤ 3 * l.length + 7 by omega)).2
    have h6 : (Q + 1 / n) / (1 - 1 / n) ≤ 3 := by
      rw [div_le_iff₀ hden]
      linarith
    have h7 := growth_small l.length hl
    have h8 : 0 ≤ growth (3 * l.length + 7) - 1 := by linarith [one_le_growth (3 * l.length + 7)]
    refine h5.trans ?_
    calc (growth (3 * l.length + 7) - 1) * ((Q + 1 / n) / (1 - 1 / n))
        ≤ (growth (3 * l.length + 7) - 1) * 3 := mul_le_mul_of_nonneg_left h6 h8
      _ ≤ 4 * (n + 2) / 2 ^ 53 * 3 := mul_le_mul_of_nonneg_right h7 (by norm_num)
      _ ≤ (n + 2) / 2 ^ 49 := by
        have : 0 ≤ n := hnp.le
        rw [div_mul_eq_mul_div, div_le_div_iff₀ (by positivity) (by positivity)]
        nlinarith

theorem fdiv_neg (a b : ℚ) : fdiv (-a) (-b) = fdiv a b := by
  unfold fdiv
  simp [neg_div_neg_eq]

theorem hhiR_neg (sm : List ℚ → ℚ) (hsm : SumOk sm) (rd : ℚ → ℚ) (l : List ℚ) :
    hhiR rd sm (l.map fun x => -x) = hhiR rd sm l := by
  unfold hhiR
  simp only [hsm.odd, List.map_map, Function.comp_def, List.length_map, fdiv_neg]

/-- C284, what holds (missing: that the index is between 0 and 1, see `DoubleConcentration`): for every way of adding
with the stated accuracy and fewer than 2^46 returns, a concentration computed in doubles is within `(n + 2) / 2^49`
of the exact one, `n` being the number of returns of that sign. -/
theorem C284_close_partial (sm : List ℚ → ℚ) (hsm : SumOk sm) (rets : List ℚ) (hn : 3 ≤ rets.length)
    (hl : rets.length ≤ 2 ^ 46) :
    (2 ≤ (rets.filter fun r => 0 ≤ r).length → (rets.filter fun r => 0 ≤ r).sum ≠ 0 →
      ∃ H h, (hhiConcentrationR signedDouble sm rets).1 = some H ∧ (hhiConcentration rets).1 = some h ∧
        |H - h| ≤ (((rets.filter fun r => 0 ≤ r).length : ℚ) + 2) / 2 ^ 49) ∧
    (2 ≤ (rets.filter fun r => r < 0).length →
      ∃ H h, (hhiConcentrationR signedDouble sm rets).2 = some H ∧ (hhiConcentration rets).2 = some h ∧
        |H - h| ≤ (((rets.filter fun r => r < 0).length : ℚ) + 2) / 2 ^ 49) := by
  have h2 : ¬ rets.length ≤ 2 := by omega
  constructor
  · intro hp hs
    obtain ⟨H, h, e1, e2, e3⟩ := hhiR_close sm hsm (rets.filter fun r => 0 ≤ r) (by
      intro x hx
      simpa using (List.mem_filter.1 hx).2) hp ((List.length_filter_le _ _).trans hl) hs
    refine ⟨H, h, ?_, ?_, e3⟩
    · unfold hhiConcentrationR
      rw [if_neg h2]
      simp only []
      rw [if_neg (by omega), e1]
    · unfold hhiConcentration
      rw [if_neg h2]
      simp only []
      rw [if_neg (by omega), e2]
  · intro hp
    set l := rets.filter fun r => r < 0 with hldef
    have hneg : ∀ x ∈ l, x < 0 := by
      intro x hx
      simpa using (List.mem_filter.1 hx).2
    have hpos : ∀ x ∈ l.map fun x => -x, 0 < x := by
      intro x hx
      obtain ⟨y, hy, rfl⟩ := List.mem_map.1 hx
      exact neg_pos.2 (hneg y hy)
    have hll : l.length ≤ 2 ^ 46 := (List.length_filter_le _ _).trans hl
    have hsn : (l.map fun x => -x).sum ≠ 0 := by
      intro h
      have h3 := sum_zero_of_nonneg (fun x hx => (hpos x hx).le) h
      obtain ⟨x, hx⟩ := List.exists_mem_of_length_pos (l := l) (by omega)
      have h4 := h3 (-x) (List.mem_map.2 ⟨x, hx, rfl⟩)
      linarith [hneg x hx]
    have hls : l.sum ≠ 0 := by
      intro h
      apply hsn
      have : ∀ l : List ℚ, (l.map fun x => -x).sum = -l.sum := by
        intro l
        induction l with
        | nil => simp
        | cons x l ih => rw [List.map_cons, List.sum_cons, List.sum_cons, ih]; ring
      rw [this, h, neg_zero]
    obtain ⟨H, h, e1, e2, e3⟩ := hhiR_close sm hsm (l.map fun x => -x) (fun x hx => (hpos x hx).le)
      (by rwa [List.length_map]) (by rwa [List.length_map]) hsn
    rw [hhiR_neg sm hsm] at e1
    rw [hhi_neg l hls hp] at e2
    rw [List.length_map] at e3
    refine ⟨H, h, ?_, ?_, e3⟩
    · unfold hhiConcentrationR
      rw [if_neg h2]
      simp only []
      rw [← hldef, if_neg (by omega), e1]
    · unfold hhiConcentration
      rw [if_neg h2]
      simp only []
      rw [← hldef, if_neg (by omega), e2]

theorem foldl_zeros (z : List ℚ) (hz : ∀ x ∈ z, x = 0) (s : ℚ) (hs : signedDouble s = s) :
    z.foldl (fun s x => signedDouble (s + x)) s = s := by
  induction z with
  | nil => rfl
  | cons x z ih =>
    rw [List.foldl_cons, hz x (by simp), add_zero, hs]
    exact ih fun y hy => hz y (by simp [hy])

theorem sumR_single (a b : List ℚ) (ha : ∀ x ∈ a, x = 0) (hb : ∀ x ∈ b, x = 0) (r : ℚ) (hr : signedDouble r = r) :
    sumR signedDouble (a ++ r :: b) = r := by
  unfold sumR
  rw [List.foldl_append, foldl_zeros a ha 0 FinML.Filters.sd_zero', List.foldl_cons, zero_add, hr, foldl_zeros b hb r hr]

theorem split_single (l : List ℚ) (h0 : ∀ x ∈ l, 0 ≤ x) (h1 : (l.filter fun r => 0 < r).length = 1) :
    ∃ a r b, l = a ++ r :: b ∧ 0 < r ∧ (∀ x ∈ a, x = 0) ∧ ∀ x ∈ b, x = 0 := by
  induction l with
  | nil => simp at h1
  | cons x l ih =>
    by_cases hx : 0 < x
    · refine ⟨[], x, l, rfl, hx, by simp, ?_⟩
      rw [List.filter_cons_of_pos (by simpa using hx), List.length_cons] at h1
      have h2 : l.filter (fun r => 0 < r) = [] := List.length_eq_zero_iff.1 (by omega)
      rw [List.filter_eq_nil_iff] at h2
      intro y hy
      have := h2 y hy
      exact le_antisymm (by simpa using this) (h0 y (by simp [hy]))
    · rw [List.filter_cons_of_neg (by simpa using hx)] at h1
      obtain ⟨a, r, b, h2, h3, h4, h5⟩ := ih (fun y hy => h0 y (by simp [hy])) h1
      refine ⟨x :: a, r, b, by rw [h2]; rfl, h3, ?_, h5⟩
      intro y hy
      rcases List.mem_cons.1 hy with rfl | hy
      · exact le_antisymm (not_lt.1 hx) (h0 y (by simp))
      · exact h4 y hy

/-- C284, what stays exact: if all gains come from one position, their concentration is exactly one. -/
theorem C284_single (rets : List ℚ) (hd : ∀ r ∈ rets, signedDouble r = r) (hn : 3 ≤ rets.length)
    (hp : 2 ≤ (rets.filter fun r => 0 ≤ r).length) (h1 : (rets.filter fun r => 0 < r).length = 1) :
    (hhiConcentrationR signedDouble (sumR signedDouble) rets).1 = some 1 := by
  have h2 : ¬ rets.length ≤ 2 := by omega
  unfold hhiConcentrationR
  rw [if_neg h2]
  simp only []
  rw [if_neg (by omega)]
  have h1' : ((rets.filter fun r => 0 ≤ r).filter fun r => 0 < r).length = 1 := by
    rw [List.filter_filter, ← h1]
    congr 1
    apply List.filter_congr
    intro x _
    by_cases hx : 0 < x
    · simp [hx, hx.le]
    · simp [hx]
  have hd' : ∀ r ∈ rets.filter fun r => 0 ≤ r, signedDouble r = r := fun r hr => hd r (List.mem_filter.1 hr).1
  have h0 : ∀ r ∈ rets.filter fun r => 0 ≤ r, 0 ≤ r := by
    intro x hx
    simpa using (List.mem_filter.1 hx).2
  generalize rets.filter (fun r => 0 ≤ r) = l at hp h1' hd' h0
  obtain ⟨a, r, b, e, hr, ha, hb⟩ := split_single l h0 h1'
  have hrd : signedDouble r = r := hd' r (by rw [e]; simp)
  have hsum : sumR signedDouble l = r := by rw [e]; exact sumR_single a b ha hb r hrd
  have sd0 := FinML.Filters.sd_zero'
  have hh : sumR signedDouble (l.map fun x => signedDouble (signedDouble (x / r) * signedDouble (x / r))) = 1 := by
    rw [e, List.map_append, List.map_cons, div_self hr.ne', signedDouble_one, mul_one, signedDouble_one]
    refine sumR_single _ _ ?_ ?_ 1 signedDouble_one
    · intro y hy
      obtain ⟨x, hx, rfl⟩ := List.mem_map.1 hy
      rw [ha x hx, zero_div, sd0, mul_zero, sd0]
    · intro y hy
      obtain ⟨x, hx, rfl⟩ := List.mem_map.1 hy
      rw [hb x hx, zero_div, sd0, mul_zero, sd0]
  have hn' : (2 : ℚ) ≤ (l.length : ℚ) := by exact_mod_cast hp
  have hhalf : signedDouble (1 / (l.length : ℚ)) ≤ 1 / 2 := by
    have h3 : 1 / (l.length : ℚ) ≤ 1 / 2 := one_div_le_one_div_of_le (by norm_num) hn'
    have h4 : signedDouble (1 / 2) = 1 / 2 := by decide +kernel
    rw [← h4]
    exact signedDouble_mono h3
  have hne : signedDouble (1 - signedDouble (1 / (l.length : ℚ))) ≠ 0 := by
    obtain ⟨f, ef, nf⟩ := sd_factor (1 - signedDouble (1 / (l.length : ℚ)))
    rw [ef]
    exact (mul_pos (by linarith) (near_pos nf)).ne'
  unfold hhiR
  simp only [hsum, filterMap_fdiv l r hr.ne' signedDouble, List.map_map, Function.comp_def, hh]
  rw [fdiv, if_neg hne, Option.map_some, div_self hne, signedDouble_one]

/-- C284, what stays exact: turning gains into losses turns one concentration into the other, for returns other than 0. -/
theorem C284_mirror (sm : List ℚ → ℚ) (hsm : SumOk sm) (rd : ℚ → ℚ) (rets : List ℚ) (h0 : ∀ r ∈ rets, r ≠ 0) :
    hhiConcentrationR rd sm (rets.map fun r => -r) =
      ((hhiConcentrationR rd sm rets).2, (hhiConcentrationR rd sm rets).1) := by
  have e1 : (rets.map fun r => -r).filter (fun r => 0 ≤ r) = (rets.filter fun r => r < 0).map fun r => -r := by
    rw [List.filter_map]
    congr 1
    apply List.filter_congr
    intro x hx
    have := h0 x hx
    rcases lt_or_gt_of_ne this with h | h
    · simp [h, h.le]
    · simp [h.le, not_le.2 h]
  have e2 : (rets.map fun r => -r).filter (fun r => r < 0) = (rets.filter fun r => 0 ≤ r).map fun r => -r := by
    rw [List.filter_map]
    congr 1
    apply List.filter_congr
    intro x hx
    have := h0 x hx
    rcases lt_or_gt_of_ne this with h | h
    · simp [h.le, not_le.2 h]
    · simp [h, h.le]
  unfold hhiConcentrationR
  rw [List.length_map]
  by_cases h2 : rets.length ≤ 2
  · rw [if_pos h2, if_pos h2]
  · rw [if_neg h2, if_neg h2]
    simp only [e1, e2, List.length_map, hhiR_neg sm hsm]

example : (hhiConcentrationR signedDouble (sumR signedDouble) [0, 1 / 4, 0, -1, -2, -1]) =
    (some 1, some (signedDouble (hhiR signedDouble (sumR signedDouble) [1, 2, 1]).get!)) := by decide +kernel

end FinML.Metrics
