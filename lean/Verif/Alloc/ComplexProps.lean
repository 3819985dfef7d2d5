import Verif.Alloc.ComplexModel
import Verif.Alloc.DivProps
import Mathlib.Analysis.Complex.Norm

/-! # Property C309: limit prices beyond the maximum position, negative coefficients -/

namespace FinML.Alloc

/-- C309, the full claim: a limit price is a real number. -/
def LimitsReal : Prop :=
  ∀ (cur target : ℤ) (max : ℕ) (f w : ℝ) (v : ℂ), 0 < w → computeLimitPriceC cur target max f w = .ok v → v.im = 0

/-- C309: where the model of C89 has a price, this is it. -/
theorem C309_agree (cur target : ℤ) (max : ℕ) (f w v : ℝ) (h : computeLimitPrice cur target max f w = .ok v) :
    computeLimitPriceC cur target max f w = .ok (v : ℂ) := by
  unfold computeLimitPrice at h
  rw [py_bind_eq_ok] at h
  obtain ⟨terms, h1, h2⟩ := h
  split at h2
  · cases h2
  next hne =>
  cases h2
  have key : ∀ (l : List ℕ) (ts : List ℝ), (l.mapM fun j : ℕ =>
      if max = 0 then (.error .zeroDivision : Py ℝ) else inversePrice f w ((j : ℝ) / (max : ℝ))) = .ok ts →
      (l.mapM fun j : ℕ => if max = 0 then (.error .zeroDivision : Py ℂ) else inversePriceC f w ((j : ℝ) / (max : ℝ))) =
        .ok (ts.map fun x : ℝ => (x : ℂ)) := by
    intro l
    induction l with
    | nil => intro ts hts; cases hts; rfl
    | cons j l ih =>
      intro ts hts
      rw [mapM_cons_py, py_bind_eq_ok] at hts
      obtain ⟨t, ht, hts⟩ := hts
      rw [py_bind_eq_ok] at hts
      obtain ⟨ts', hts', e⟩ := hts
      cases e
      have hj : (if max = 0 then (.error .zeroDivision : Py ℂ) else inversePriceC f w ((j : ℝ) / (max : ℝ))) = .ok (t : ℂ) := by
        split at ht
        · cases ht
        next hm =>
        rw [if_neg hm]
        unfold inversePrice at ht
        unfold inversePriceC
        split at ht
        · cases ht
        next hd =>
        split at ht
        · cases ht
        next hneg =>
        cases ht
        rw [if_neg hd]
        unfold sqrtC
        rw [if_neg hneg, rpow_half]
        congr 1
        push_cast
        rfl
      rw [mapM_cons_py, hj, py_bind_ok, ih ts' hts', py_bind_ok]
      rfl
  unfold computeLimitPriceC
  simp only
  rw [key _ _ h1, py_bind_ok, if_neg hne]
  congr 1
  have hsum : ∀ l : List ℝ, (l.map fun x : ℝ => (x : ℂ)).sum = ((l.sum : ℝ) : ℂ) := by
    intro l
    induction l with
    | nil => simp
    | cons a l ih => rw [List.map_cons, List.sum_cons, List.sum_cons, ih]; push_cast; rfl
  rw [hsum]
  push_cast
  rfl

theorem forall₂_mem {α β : Type} {R : α → β → Prop} {l : List α} {ts : List β} (h : List.Forall₂ R l ts) {a : α}
    (ha : a ∈ l) : ∃ y, R a y := by
  induction h with
  | nil => cases ha
  | cons hr _ ih =>
    rcases List.mem_cons.1 ha with rfl | ha
    · exact ⟨_, hr⟩
    · exact ih ha

/-- C309 for targets within the maximum position. -/
theorem C309_real_partial (cur target : ℤ) (max : ℕ) (f w : ℝ) (v : ℂ) (hw : 0 < w) (hc : |cur| ≤ max) (ht : |target| ≤ max)
    (h : computeLimitPriceC cur target max f w = .ok v) : v.im = 0 := by
  obtain ⟨hiff, herr⟩ := C138_defined_partial cur target max f w hw hc ht
  by_cases hd : cur ≠ target ∧ target ≠ max
  · obtain ⟨r, hr⟩ := hiff.2 hd
    rw [C309_agree _ _ _ _ _ _ hr] at h
    cases h
    exact Complex.ofReal_im r
  · exfalso
    have hmem : target = max → cur ≠ target →
        max ∈ pyRange (cur + if target > cur then 1 else -1).natAbs (target + 1).natAbs := by
      intro h1 h2
      have := abs_le.1 hc
      simp only [pyRange, List.mem_map, List.mem_range]
      rw [if_pos (show target > cur by omega)]
      exact ⟨max - (cur + 1).natAbs, by omega, by omega⟩
    unfold computeLimitPriceC at h
    rw [py_bind_eq_ok] at h
    obtain ⟨ts, h1, h2⟩ := h
    by_cases hct : cur = target
    · rw [if_pos (by omega)] at h2
      cases h2
    · have htm : target = max := by
        by_contra hne
        exact hd ⟨hct, hne⟩
      obtain ⟨y, hy⟩ := forall₂_mem ((mapM_eq_ok_iff _ _ _).1 h1) (hmem htm hct)
      split at hy
      · cases hy
      next hm =>
      have hm' : (max : ℝ) ≠ 0 := by exact_mod_cast hm
      unfold inversePriceC at hy
      rw [if_pos (by rw [div_self hm']; norm_num)] at hy
      cases hy

/-- The excess `√(w/(m² - 1))`, times `m`, of a position `m` times the maximum one. -/
noncomputable def excess (w m : ℝ) : ℝ := m * √(w / (m ^ 2 - 1))

/-- C309: an order that adds to a position at or beyond the maximum gets a price that is not real: the forecast less `i` times
the mean excess of its unit steps. -/
theorem C309_beyond (cur target max : ℕ) (f w : ℝ) (hw : 0 < w) (hmax : 0 < max) (hc : max ≤ cur) (ht : cur < target) :
    ∃ v : ℂ, computeLimitPriceC cur target max f w = .ok v ∧ v.re = f ∧
      v.im = -(((List.range (target - cur)).map fun k : ℕ => excess w (((cur + 1 + k : ℕ) : ℝ) / max)).sum /
        ((target - cur : ℕ) : ℝ)) ∧ v.im < 0 := by
  have hm : (0 : ℝ) < max := by exact_mod_cast hmax
  have hr : pyRange ((cur : ℤ) + if (target : ℤ) > cur then 1 else -1).natAbs ((target : ℤ) + 1).natAbs =
      (List.range (target - cur)).map fun k : ℕ => cur + 1 + k := by
    rw [if_pos (by exact_mod_cast ht)]
    unfold pyRange
    have h1 : ((cur : ℤ) + 1).natAbs = cur + 1 := by omega
    have h2 : ((target : ℤ) + 1).natAbs - (cur + 1) = target - cur := by omega
    rw [h1, h2]
  have hbig : ∀ j : ℕ, max < j → 1 < (j : ℝ) / max := by
    intro j hj
    rw [one_lt_div hm]
    exact_mod_cast hj
  have hstep : ∀ j : ℕ, max < j → inversePriceC f w ((j : ℝ) / max) = .ok ⟨f, -excess w ((j : ℝ) / max)⟩ := by
    intro j hj
    have h1 := hbig j hj
    have hd : 1 - ((j : ℝ) / max) ^ 2 < 0 := by nlinarith
    have hq : w / (1 - ((j : ℝ) / max) ^ 2) < 0 := div_neg_of_pos_of_neg hw hd
    unfold inversePriceC sqrtC
    rw [if_neg hd.ne, if_pos hq]
    congr 1
    apply Complex.ext
    · simp
    · simp only [Complex.sub_im, Complex.ofReal_im, Complex.mul_im, Complex.ofReal_re, zero_mul, add_zero, zero_sub]
      unfold excess
      rw [← div_neg, neg_sub]
  have hsum : ∀ l : List ℕ, (l.map fun k : ℕ => (⟨f, -excess w (((cur + 1 + k : ℕ) : ℝ) / max)⟩ : ℂ)).sum =
      ⟨l.length * f, -(l.map fun k : ℕ => excess w (((cur + 1 + k : ℕ) : ℝ) / max)).sum⟩ := by
    intro l
    induction l with
    | nil => apply Complex.ext <;> simp
    | cons k l ih =>
      rw [List.map_cons, List.sum_cons, ih]
      apply Complex.ext
      · simp only [Complex.add_re, List.length_cons]
        push_cast
        ring
      · simp only [Complex.add_im, List.map_cons, List.sum_cons]
        ring
  have hn : (0 : ℝ) < ((target - cur : ℕ) : ℝ) := by exact_mod_cast (by omega : 0 < target - cur)
  have hdivc : ((target : ℤ) - (cur : ℤ) : ℤ) = ((target - cur : ℕ) : ℤ) := by omega
  refine ⟨⟨f, -(((List.range (target - cur)).map fun k : ℕ => excess w (((cur + 1 + k : ℕ) : ℝ) / max)).sum /
        ((target - cur : ℕ) : ℝ))⟩, ?_, rfl, rfl, ?_⟩
  · unfold computeLimitPriceC
    simp only [hr]
    rw [mapM_ok_of_forall _ (fun j : ℕ => (⟨f, -excess w ((j : ℝ) / max)⟩ : ℂ))]
    · rw [py_bind_ok, if_neg (by omega), List.map_map, hdivc]
      congr 1
      simp only [Function.comp_def]
      rw [hsum, List.length_range]
      apply Complex.ext
      · rw [Int.cast_natCast, Complex.div_natCast_re]
        simp only
        field_simp
      · rw [Int.cast_natCast, Complex.div_natCast_im]
        simp only
        ring
    · intro j hj
      simp only [List.mem_map, List.mem_range] at hj
      obtain ⟨k, hk, rfl⟩ := hj
      rw [if_neg (by omega), hstep _ (by omega)]
  · simp only [neg_lt_zero]
    refine div_pos (List.sum_pos _ ?_ ?_) hn
    · intro x hx
      simp only [List.mem_map, List.mem_range] at hx
      obtain ⟨k, -, rfl⟩ := hx
      have h1 := hbig (cur + 1 + k) (by omega)
      exact mul_pos (by linarith) (Real.sqrt_pos.2 (div_pos hw (by nlinarith)))
    · simp
      omega

/-- C309, the full claim does not hold: from 1 to 2 with a maximum position of 1. -/
theorem C309_real_counterexample : ¬ LimitsReal := by
  intro h
  obtain ⟨v, hv, -, -, him⟩ := C309_beyond 1 2 1 10 1 one_pos one_pos le_rfl one_lt_two
  exact him.ne (h _ _ _ _ _ _ one_pos hv)

/-- C309: with a negative coefficient the size is refused up to a divergence of `√(-w)`, and beyond it is at least the maximum
one. -/
theorem C309_negative_coefficient (f p w : ℝ) (max : ℕ) (hw : w < 0) :
    ((f - p) ^ 2 < -w → positionSizeFromDivergenceC f p max w = .error .typeError) ∧
    ((f - p) ^ 2 = -w → positionSizeFromDivergenceC f p max w = .error .zeroDivision) ∧
    (-w < (f - p) ^ 2 → ∃ s : ℤ, positionSizeFromDivergenceC f p max w = .ok s ∧ (max : ℤ) ≤ |s|) := by
  refine ⟨fun h => ?_, fun h => ?_, fun h => ?_⟩
  · unfold positionSizeFromDivergenceC
    simp only
    rw [if_neg (by linarith), if_pos (by linarith)]
  · unfold positionSizeFromDivergenceC
    simp only
    rw [if_pos (by linarith)]
  · refine ⟨pyInt ((f - p) * (w + (f - p) ^ 2) ^ (-0.5 : ℝ) * max), ?_, ?_⟩
    · unfold positionSizeFromDivergenceC
      simp only
      rw [if_neg (by linarith), if_neg (by linarith)]
    · have hpos : 0 < w + (f - p) ^ 2 := by linarith
      rw [rpow_neg_half _ hpos.le]
      have hs := Real.sqrt_pos.2 hpos
      have hlt : √(w + (f - p) ^ 2) ≤ |f - p| := by
        rw [← Real.sqrt_sq_eq_abs]
        exact Real.sqrt_le_sqrt (by linarith)
      have hmax : (0 : ℝ) ≤ max := Nat.cast_nonneg _
      rcases le_total 0 (f - p) with h0 | h0
      · have h1 : 1 ≤ (f - p) * (1 / √(w + (f - p) ^ 2)) := by
          rw [mul_one_div, one_le_div hs]
          rwa [abs_of_nonneg h0] at hlt
        have h2 : (max : ℝ) ≤ (f - p) * (1 / √(w + (f - p) ^ 2)) * max := by nlinarith
        unfold pyInt
        rw [if_pos (le_trans hmax h2)]
        refine le_trans ?_ (le_abs_self _)
        rw [Int.le_floor]
        exact_mod_cast h2
      · have h1 : (f - p) * (1 / √(w + (f - p) ^ 2)) ≤ -1 := by
          rw [mul_one_div, div_le_iff₀ hs]
          rw [abs_of_nonpos h0] at hlt
          linarith
        have h2 : (f - p) * (1 / √(w + (f - p) ^ 2)) * max ≤ -(max : ℝ) := by nlinarith
        unfold pyInt
        split
        · next h3 =>
          have : (max : ℝ) = 0 := by linarith
          have : max = 0 := by exact_mod_cast this
          rw [this]
          exact abs_nonneg _
        · refine le_trans ?_ (neg_le_abs _)
          rw [le_neg, Int.ceil_le]
          push_cast
          exact h2

/-- C309: where the model of C88 has a size, this is it. -/
theorem C309_size_agree (f p ms w : ℝ) (s : ℤ) (h : positionSizeFromDivergence f p ms w = .ok s) :
    positionSizeFromDivergenceC f p ms w = .ok s := by
  unfold positionSizeFromDivergence scaledSigmoid at h
  unfold positionSizeFromDivergenceC
  simp only
  split at h
  · cases h
  next h0 =>
  rw [if_neg h0]
  split at h
  · cases h
  next h1 =>
  rw [if_neg h1]
  exact h

/-- With the coefficient -3 a divergence of 2 doubles the maximum position. -/
example : positionSizeFromDivergenceC 12 10 5 (-3) = .ok 10 := by
  unfold positionSizeFromDivergenceC pyInt
  norm_num

end FinML.Alloc
