import Verif.Metrics.TwrDoubleModel
import Verif.Default.CountDoubleProps
import Verif.Filters.DoubleProps
import Verif.Py.Lemmas
import Mathlib.Data.List.GetD

/-!
# Property C327: time weighted return in doubles
-/

namespace FinML.Metrics

open FinML.Alloc FinML.Default

/-- The growth of a portfolio over its rows `(value, flow)`: the value of each row over the value and flow of the one
before, all multiplied. -/
def totalGrowth : ℚ × ℚ → List (ℚ × ℚ) → ℚ
  | _, [] => 1
  | a, x :: rest => x.1 / (a.1 + a.2) * totalGrowth x rest

/-- A product in doubles, whatever the order of the factors: no more roundings than factors. -/
def IsProd (pr : List ℚ → ℚ) : Prop := ∀ l : List ℚ, ∃ f, pr l = l.prod * f ∧ Near l.length f

/-- A table of doubles: positive values, and positive balances after the flows but the last. -/
def GoodRows (a : ℚ × ℚ) (rest : List (ℚ × ℚ)) : Prop :=
  (∀ x ∈ a :: rest, signedDouble x.1 = x.1 ∧ signedDouble x.2 = x.2 ∧ 0 < x.1) ∧
    ∀ x ∈ (a :: rest).dropLast, 0 < x.1 + x.2

/-- The full claim: in doubles the return is that of a growth at most a half off, in relation to the exact growth, for up to
a million rows. -/
def ReturnInDoubles : Prop :=
  ∀ (pr : List ℚ → ℚ) (a : ℚ × ℚ) (rest : List (ℚ × ℚ)) (r : ℚ), IsProd pr → GoodRows a rest → rest.length ≤ 10 ^ 6 →
    timeWeightedReturnR signedDouble pr (a :: rest) = .ok r →
    |(1 + r) - totalGrowth a rest| ≤ totalGrowth a rest / 2

theorem isProd_prod : IsProd List.prod := fun l => ⟨1, by rw [mul_one], near_one _⟩

/-- C327 (refuted).  A value of 1 that falls to 2^-60 and rises to 1 again: the return should be 0 and is -1. -/
theorem C327_return_counterexample : ¬ ReturnInDoubles := by
  intro h
  have := h List.prod (1, 0) [(1 / 2 ^ 60, 0), (1, 0)] (-1) isProd_prod
    (by unfold GoodRows; decide +kernel) (by simp) (by decide +kernel)
  revert this
  decide +kernel

/-- One period: the factor in doubles is the growth up to five roundings. -/
theorem factor_near (v : ℚ) (b : ℚ × ℚ) (hv : 0 < v) (hd : signedDouble v = v) (hb : 0 < b.1 + b.2)
    (hhalf : b.1 + b.2 ≤ 2 * v) :
    ∃ r, twrReturnR signedDouble v b = .ok (some r) ∧
      ∃ f, signedDouble (1 + r) = v / (b.1 + b.2) * f ∧ Near 5 f := by
  obtain ⟨f1, e1, n1⟩ := sd_factor (b.1 + b.2)
  set B := signedDouble (b.1 + b.2) with hB
  have p1 := near_pos n1
  have hBpos : 0 < B := by rw [e1]; positivity
  have hB2 : B ≤ 2 * v := by
    have := signedDouble_mono hhalf
    have h2 : signedDouble (2 * v) = 2 * v := by
      have := FinML.Filters.signedDouble_scale 1 v
      rw [zpow_one] at this
      rw [this, hd]
    rwa [h2] at this
  obtain ⟨f2, e2, n2⟩ := sd_factor (v - B)
  obtain ⟨f3, e3, n3⟩ := sd_factor (signedDouble (v - B) / B)
  set r := signedDouble (signedDouble (v - B) / B) with hr
  refine ⟨r, ?_, ?_⟩
  · unfold twrReturnR
    simp only [← hB]
    rw [if_neg hBpos.ne']
    rfl
  obtain ⟨f4, e4, n4⟩ := sd_factor (1 + r)
  have nF := near_mul n2 n3
  set F := f2 * f3 with hF
  have hr' : 1 + r = v / B * (1 + (1 - B / v) * (F - 1)) := by
    rw [e3, e2, hF]
    field_simp
    ring
  have habs : |(1 - B / v) * (F - 1)| ≤ |F - 1| := by
    rw [abs_mul]
    have h1 : |1 - B / v| ≤ 1 := by
      rw [abs_le]
      have h0 : 0 < B / v := by positivity
      have h2 : B / v ≤ 2 := by rw [div_le_iff₀ hv]; exact hB2
      constructor <;> linarith
    have := mul_le_mul_of_nonneg_right h1 (abs_nonneg (F - 1))
    linarith
  have hsmall := habs.trans (near_abs nF)
  have nH : Near 3 (1 + (1 - B / v) * (F - 1)) := by
    have h2 := abs_le.1 hsmall
    have hc2 : 1 / (1 - 1 / 2 ^ 53 : ℚ) ^ (1 + 1) - 1 ≤ 1 - (1 - 1 / 2 ^ 53 : ℚ) ^ 3 := by norm_num
    have hc3 : (1 / (1 - 1 / 2 ^ 53 : ℚ) ^ (1 + 1)) * (1 - 1 / 2 ^ 53 : ℚ) ^ 3 ≤ 1 := by norm_num
    constructor
    · linarith [h2.1]
    · refine le_trans (mul_le_mul_of_nonneg_right ?_ (cpow_pos 3).le) hc3
      linarith [h2.2]
  refine ⟨1 / f1 * ((1 + (1 - B / v) * (F - 1)) * f4), ?_, ?_⟩
  · rw [e4, hr', e1]
    field_simp
  · exact near_mono (near_mul (near_inv n1) (near_mul nH n4)) (by norm_num)

/-- All periods. -/
theorem factors_near : ∀ (a : ℚ × ℚ) (rest : List (ℚ × ℚ)), GoodRows a rest →
    (∀ i < rest.length, ((a :: rest).getD i (0, 0)).1 + ((a :: rest).getD i (0, 0)).2 ≤ 2 * (rest.getD i (0, 0)).1) →
    ∃ rs : List ℚ, (rest.zip (a :: rest)).mapM (fun x => twrReturnR signedDouble x.1.1 x.2) = .ok (rs.map some) ∧
      rs.length = rest.length ∧
      ∃ f, (rs.map fun r => signedDouble (1 + r)).prod = totalGrowth a rest * f ∧ Near (5 * rest.length) f
  | a, [], _, _ => ⟨[], rfl, rfl, 1, by simp [totalGrowth], near_one _⟩
  | a, x :: rest, hg, hh => by
    obtain ⟨r, hr, f, hf, nf⟩ := factor_near x.1 a (hg.1 x (by simp)).2.2 (hg.1 x (by simp)).1
      (hg.2 a (by simp)) (by simpa using hh 0 (by simp))
    obtain ⟨rs, hrs, hlen, g, hprod, ng⟩ := factors_near x rest
      ⟨fun y hy => hg.1 y (by simp only [List.mem_cons] at hy ⊢; tauto),
        fun y hy => hg.2 y (by rw [List.dropLast_cons_of_ne_nil (by simp)]; exact List.mem_cons_of_mem _ hy)⟩
      (fun i hi => by simpa using hh (i + 1) (by simpa using hi))
    refine ⟨r :: rs, ?_, by simpa using hlen, f * g, ?_, ?_⟩
    · rw [List.zip_cons_cons, List.mapM_cons]
      show (do let y ← twrReturnR signedDouble x.1 a; _) = _
      rw [hr, py_bind_ok, hrs]
      rfl
    · rw [List.map_cons, List.prod_cons, hf, hprod]
      show _ = x.1 / (a.1 + a.2) * totalGrowth x rest * (f * g)
      ring
    · have := near_mul nf ng
      rwa [show 5 * (x :: rest).length = 5 + 5 * rest.length by simp; ring]

theorem growth_nonneg : ∀ (a : ℚ × ℚ) (rest : List (ℚ × ℚ)), GoodRows a rest → 0 ≤ totalGrowth a rest
  | _, [], _ => by simp [totalGrowth]
  | a, x :: rest, hg => by
    have h1 := growth_nonneg x rest ⟨fun y hy => hg.1 y (by simp only [List.mem_cons] at hy ⊢; tauto),
      fun y hy => hg.2 y (by rw [List.dropLast_cons_of_ne_nil (by simp)]; exact List.mem_cons_of_mem _ hy)⟩
    have h2 := (hg.1 x (by simp)).2.2
    have h3 := hg.2 a (by simp)
    show 0 ≤ x.1 / (a.1 + a.2) * totalGrowth x rest
    positivity

/-- C327 (partial).  If no period loses more than half of the balance, the return in doubles is that of a growth within
`n/2^49` of the exact one, in relation to it, and a last rounding, for `n` periods.  Missing: larger losses, see
`C327_return_counterexample`. -/
theorem C327_return_partial (pr : List ℚ → ℚ) (hpr : IsProd pr) (a : ℚ × ℚ) (rest : List (ℚ × ℚ)) (hg : GoodRows a rest)
    (hhalf : ∀ i < rest.length,
      ((a :: rest).getD i (0, 0)).1 + ((a :: rest).getD i (0, 0)).2 ≤ 2 * (rest.getD i (0, 0)).1)
    (hn : rest.length ≤ 10 ^ 6) :
    ∃ r g, timeWeightedReturnR signedDouble pr (a :: rest) = .ok r ∧ r = signedDouble (g - 1) ∧
      |g - totalGrowth a rest| ≤ totalGrowth a rest * (rest.length / 2 ^ 49) := by
  obtain ⟨rs, hrs, hlen, f, hf, nf⟩ := factors_near a rest hg hhalf
  obtain ⟨h, eh, nh⟩ := hpr (rs.map fun r => signedDouble (1 + r))
  refine ⟨_, pr (rs.map fun r => signedDouble (1 + r)), ?_, rfl, ?_⟩
  · unfold timeWeightedReturnR twrReturnsR
    obtain ⟨v, c⟩ := a
    simp only [hrs]
    simp only [py_bind_ok, py_pure]
    simp
  · rw [eh, hf]
    have hG := growth_nonneg a rest hg
    have n := near_mul nf nh
    have hs := near_small n (by simp only [List.length_map, hlen]; omega)
    rw [mul_assoc, ← mul_sub_one, abs_mul, abs_of_nonneg hG]
    refine mul_le_mul_of_nonneg_left (hs.trans ?_) hG
    simp only [List.length_map, hlen]
    push_cast
    have : (0 : ℚ) ≤ rest.length := by positivity
    rw [div_le_div_iff₀ (by norm_num) (by norm_num)]
    nlinarith

/-- The hypotheses hold for a deposit and a withdrawal on the way from 100 to 90. -/
example : GoodRows (100, 20) [(130, -10), (90, 0)] ∧ ∀ i < 2,
    (([(100, 20), (130, -10), (90, 0)] : List (ℚ × ℚ)).getD i (0, 0)).1 +
      (([(100, 20), (130, -10), (90, 0)] : List (ℚ × ℚ)).getD i (0, 0)).2 ≤
        2 * (([(130, -10), (90, 0)] : List (ℚ × ℚ)).getD i (0, 0)).1 := by
  unfold GoodRows
  decide +kernel

end FinML.Metrics
