import Verif.Entropy.SigmaDoubleModel
import Verif.Entropy.EncodeProps
import Verif.Alloc.DoubleProps
import Verif.Bars.DoubleProps

/-! # Property C319: sigma codes in doubles -/

namespace FinML.Entropy

open FinML.Alloc (signedDouble)

theorem sd_nonneg {q : ℚ} (hq : 0 ≤ q) : 0 ≤ signedDouble q := by
  have := FinML.Alloc.signedDouble_mono hq
  rwa [show signedDouble 0 = 0 by decide +kernel] at this

/-- Number of the symbol of a value. -/
def sigmaPosR (lo sigma x : ℚ) : ℕ := min ⌊signedDouble (x - lo) / sigma⌋.toNat 62

theorem sigmaEncodeR_eq (series : List ℚ) (sigma lo : ℚ) (hs : 0 < sigma) (hlo : IsLeast {x | x ∈ series} lo) :
    sigmaEncodeR signedDouble series sigma =
      .ok (series.map fun x => (fullAlphabet ++ ['?']).getD (sigmaPosR lo sigma x) ' ') := by
  have hfa : (fullAlphabet ++ ['?']).length = 63 := by decide
  unfold sigmaEncodeR
  have hne : series ≠ [] := List.ne_nil_of_mem hlo.1
  rw [if_neg hne, if_neg hs.ne', (npMin_eq_ok_iff series lo).2 hlo, py_bind_ok]
  apply mapM_ok_of_forall
  intro x hx
  have : sigmaPosR lo sigma x < 63 := by unfold sigmaPosR; omega
  have h0 : 0 ≤ ⌊signedDouble (x - lo) / sigma⌋ :=
    Int.floor_nonneg.2 (div_nonneg (sd_nonneg (sub_nonneg.2 (hlo.2 hx))) hs.le)
  have hi : (min ⌊signedDouble (x - lo) / sigma⌋ 62).toNat = sigmaPosR lo sigma x := by unfold sigmaPosR; omega
  unfold npIndex
  rw [if_pos (by omega), hi]
  rw [pyGet_eq_ok_iff, List.getD_eq_getElem _ _ (by omega)]
  exact List.getElem?_eq_getElem (by omega)

/-- The full claim: a series of doubles has in doubles the code it has exactly. -/
def SigmaExact : Prop :=
  ∀ (series : List ℚ) (sigma : ℚ), (∀ x ∈ series, signedDouble x = x) → signedDouble sigma = sigma → 0 < sigma →
    sigmaEncodeR signedDouble series sigma = sigmaEncode series sigma

/-- The full claim on a grid: `k` spacings above the minimum, with both numbers rounded to doubles, is symbol `k`. -/
def SigmaGrid : Prop :=
  ∀ (sigma : ℚ) (k : ℕ), 0 < sigma → k < 62 →
    sigmaEncodeR signedDouble [0, signedDouble (k * sigma)] (signedDouble sigma) =
      sigmaEncode [0, k * sigma] sigma

/-- C319 (partial).  One symbol per value; the symbol number `k` of value `x` satisfies `k·sigma ≤ x - min <
(k+1)·sigma` up to a relative error of `2^-53` of the difference (the second below the overflow symbol).  Missing: the
error itself, see `C319_exact_counterexample`. -/
theorem C319_symbols_partial (series : List ℚ) (sigma lo : ℚ) (hs : 0 < sigma) (hlo : IsLeast {x | x ∈ series} lo) :
    ∃ code, sigmaEncodeR signedDouble series sigma = .ok code ∧ code.length = series.length ∧
      ∀ (i : ℕ) x, series[i]? = some x → ∃ k : ℕ, k ≤ 62 ∧ code[i]? = (fullAlphabet ++ ['?'])[k]? ∧
        (k : ℚ) * sigma ≤ (x - lo) * (1 + 1 / 2 ^ 53) ∧
        (k < 62 → (x - lo) * (1 - 1 / 2 ^ 53) < ((k : ℚ) + 1) * sigma) ∧ (x = lo → k = 0) := by
  refine ⟨_, sigmaEncodeR_eq series sigma lo hs hlo, by simp, ?_⟩
  intro i x hx
  have hfa : (fullAlphabet ++ ['?']).length = 63 := by decide
  have hk : sigmaPosR lo sigma x ≤ 62 := by unfold sigmaPosR; omega
  have hge : 0 ≤ x - lo := sub_nonneg.2 (hlo.2 (List.mem_of_getElem? hx))
  have h0 : 0 ≤ signedDouble (x - lo) / sigma := div_nonneg (sd_nonneg hge) hs.le
  have herr := FinML.Alloc.signedDouble_err (x - lo)
  rw [abs_of_nonneg hge, abs_le] at herr
  have hn : (⌊signedDouble (x - lo) / sigma⌋.toNat : ℤ) = ⌊signedDouble (x - lo) / sigma⌋ :=
    Int.toNat_of_nonneg (Int.floor_nonneg.2 h0)
  have b1 : ((⌊signedDouble (x - lo) / sigma⌋.toNat : ℕ) : ℚ) * sigma ≤ signedDouble (x - lo) := by
    rw [← le_div_iff₀ hs]
    have := Int.floor_le (signedDouble (x - lo) / sigma)
    rw [← hn] at this
    exact_mod_cast this
  have b2 : signedDouble (x - lo) < (((⌊signedDouble (x - lo) / sigma⌋.toNat : ℕ) : ℚ) + 1) * sigma := by
    rw [← div_lt_iff₀ hs]
    have := Int.lt_floor_add_one (signedDouble (x - lo) / sigma)
    rw [← hn] at this
    exact_mod_cast this
  have hci : (series.map fun x => (fullAlphabet ++ ['?']).getD (sigmaPosR lo sigma x) ' ')[i]? =
      (fullAlphabet ++ ['?'])[sigmaPosR lo sigma x]? := by
    rw [List.getElem?_map, hx, Option.map_some, List.getD_eq_getElem _ _ (by omega),
      List.getElem?_eq_getElem (by omega)]
  have hkf : ((sigmaPosR lo sigma x : ℕ) : ℚ) ≤ ((⌊signedDouble (x - lo) / sigma⌋.toNat : ℕ) : ℚ) := by
    have : sigmaPosR lo sigma x ≤ ⌊signedDouble (x - lo) / sigma⌋.toNat := by unfold sigmaPosR; omega
    exact_mod_cast this
  refine ⟨sigmaPosR lo sigma x, hk, hci, ?_, ?_, ?_⟩
  · have := mul_le_mul_of_nonneg_right hkf hs.le
    linarith [herr.2]
  · intro hlt
    have : sigmaPosR lo sigma x = ⌊signedDouble (x - lo) / sigma⌋.toNat := by unfold sigmaPosR at hlt ⊢; omega
    rw [this]
    linarith [herr.1]
  · rintro rfl
    unfold sigmaPosR
    rw [sub_self, show signedDouble 0 = 0 by decide +kernel]
    simp

/-- C319 (partial).  The number of a symbol is within one of the exact number. -/
theorem C319_near_partial (series : List ℚ) (sigma lo : ℚ) (hs : 0 < sigma) (hlo : IsLeast {x | x ∈ series} lo) :
    ∃ code code', sigmaEncodeR signedDouble series sigma = .ok code ∧ sigmaEncode series sigma = .ok code' ∧
      ∀ (i : ℕ) x, series[i]? = some x → ∃ k k' : ℕ, code[i]? = (fullAlphabet ++ ['?'])[k]? ∧
        code'[i]? = (fullAlphabet ++ ['?'])[k']? ∧ k ≤ 62 ∧ k' ≤ 62 ∧ k ≤ k' + 1 ∧ k' ≤ k + 1 := by
  obtain ⟨code, h1, -, h2⟩ := C319_symbols_partial series sigma lo hs hlo
  obtain ⟨code', g1, -, g2⟩ := C77_symbols series sigma lo hs hlo
  refine ⟨code, code', h1, g1, fun i x hx => ?_⟩
  obtain ⟨k, a1, a2, a3, a4, -⟩ := h2 i x hx
  obtain ⟨k', b1, b2, b3, b4, -⟩ := g2 i x hx
  refine ⟨k, k', a2, b2, a1, b1, ?_, ?_⟩
  · by_contra hc
    have hk : (k' : ℚ) + 2 ≤ k := by exact_mod_cast (show k' + 2 ≤ k by omega)
    have h62 : (k' : ℚ) + 1 ≤ 62 := by exact_mod_cast (show k' + 1 ≤ 62 by omega)
    have hlt := b4 (by omega)
    have hd : (x - lo) * (1 / 2 ^ 53) ≤ 62 * sigma * (1 / 2 ^ 53) := by
      apply mul_le_mul_of_nonneg_right _ (by norm_num)
      nlinarith
    have : 62 * sigma * (1 / 2 ^ 53) < sigma := by
      have : (62 * (1 / 2 ^ 53) : ℚ) < 1 := by norm_num
      nlinarith
    nlinarith
  · by_contra hc
    have hk : (k : ℚ) + 2 ≤ k' := by exact_mod_cast (show k + 2 ≤ k' by omega)
    have h62 : (k : ℚ) + 1 ≤ 62 := by exact_mod_cast (show k + 1 ≤ 62 by omega)
    have hlt := a4 (by omega)
    have hc2 : ((k : ℚ) + 2) * sigma ≤ x - lo := by nlinarith
    have h3 : ((k : ℚ) + 2) * sigma * (1 - 1 / 2 ^ 53) ≤ (x - lo) * (1 - 1 / 2 ^ 53) :=
      mul_le_mul_of_nonneg_right hc2 (by norm_num)
    have h4 : ((k : ℚ) + 2) * (1 - 1 / 2 ^ 53) < k + 1 := by
      have : ((k : ℚ) + 2) * (1 - 1 / 2 ^ 53) * sigma < ((k : ℚ) + 1) * sigma := by linarith
      exact lt_of_mul_lt_mul_right this hs.le
    have h5 : ((k : ℚ) + 2) * (1 / 2 ^ 53) ≤ 63 * (1 / 2 ^ 53) :=
      mul_le_mul_of_nonneg_right (by linarith) (by norm_num)
    have h6 : (63 * (1 / 2 ^ 53) : ℚ) < 1 := by norm_num
    linarith

/-- C319.  The code in doubles keeps the order of the values. -/
theorem C319_order (series : List ℚ) (sigma : ℚ) (hs : 0 < sigma) (hne : series ≠ []) :
    ∃ (code : List Char) (num : List ℕ), sigmaEncodeR signedDouble series sigma = .ok code ∧
      num.map (fun k => (fullAlphabet ++ ['?'])[k]?) = code.map some ∧
      ∀ (i j : ℕ) x y k l, series[i]? = some x → series[j]? = some y → num[i]? = some k → num[j]? = some l →
        x ≤ y → k ≤ l := by
  obtain ⟨lo, hlo⟩ : ∃ lo, IsLeast {x | x ∈ series} lo := by
    obtain ⟨a, l, rfl⟩ := List.exists_cons_of_ne_nil hne
    exact ⟨_, foldl_min_isLeast a l⟩
  have hfa : (fullAlphabet ++ ['?']).length = 63 := by decide
  have hk : ∀ x, sigmaPosR lo sigma x ≤ 62 := by intro x; unfold sigmaPosR; omega
  refine ⟨_, series.map (sigmaPosR lo sigma), sigmaEncodeR_eq series sigma lo hs hlo, ?_, ?_⟩
  · rw [List.map_map, List.map_map]
    apply List.map_congr_left
    intro x _
    have := hk x
    simp only [Function.comp_apply]
    rw [List.getElem?_eq_getElem (by omega), List.getD_eq_getElem _ _ (by omega)]
  · intro i j x y k l hx hy hk' hl' hxy
    rw [List.getElem?_map, hx, Option.map_some, Option.some.injEq] at hk'
    rw [List.getElem?_map, hy, Option.map_some, Option.some.injEq] at hl'
    subst hk' hl'
    unfold sigmaPosR
    have : ⌊signedDouble (x - lo) / sigma⌋.toNat ≤ ⌊signedDouble (y - lo) / sigma⌋.toNat := by
      apply Int.toNat_le_toNat
      apply Int.floor_mono
      apply div_le_div_of_nonneg_right _ hs.le
      exact FinML.Alloc.signedDouble_mono (by linarith)
    omega

/-- C319 (partial).  If the values are whole multiples of a power of two whose range is below `2^53` of them, then the
code is exact. -/
theorem C319_exact_partial (series : List ℚ) (sigma : ℚ) (e : ℤ) (hs : 0 < sigma)
    (h : ∀ x ∈ series, ∀ y ∈ series, y ≤ x → ∃ n : ℕ, n < 2 ^ 53 ∧ x - y = n * (2 : ℚ) ^ e) :
    sigmaEncodeR signedDouble series sigma = sigmaEncode series sigma := by
  by_cases hne : series = []
  · subst hne; rfl
  obtain ⟨lo, hlo⟩ : ∃ lo, IsLeast {x | x ∈ series} lo := by
    obtain ⟨a, l, rfl⟩ := List.exists_cons_of_ne_nil hne
    exact ⟨_, foldl_min_isLeast a l⟩
  rw [sigmaEncodeR_eq series sigma lo hs hlo, sigmaEncode_eq series sigma lo hs hlo]
  congr 1
  apply List.map_congr_left
  intro x hx
  obtain ⟨n, hn, he⟩ := h x hx lo hlo.1 (hlo.2 hx)
  unfold sigmaPosR sigmaPos
  have : signedDouble (x - lo) = x - lo := by
    unfold signedDouble
    rw [if_neg (not_lt.2 (sub_nonneg.2 (hlo.2 hx))), FinML.Bars.roundDouble_of_isDouble ⟨n, e, hn, he⟩]
  rw [this]

/-- C319 (refuted).  The doubles 0.1 and 0.5 with spacing 0.1: their difference is a little less than four spacings
and is rounded up. -/
theorem C319_exact_counterexample : ¬ SigmaExact := by
  intro h
  have := h [3602879701896397 / 2 ^ 55, 1 / 2] (3602879701896397 / 2 ^ 55) (by decide +kernel) (by decide +kernel)
    (by norm_num)
  rw [show sigmaEncodeR signedDouble [3602879701896397 / 2 ^ 55, 1 / 2] (3602879701896397 / 2 ^ 55) =
      .ok "04".toList by decide +kernel,
    show sigmaEncode [(3602879701896397 / 2 ^ 55 : ℚ), 1 / 2] (3602879701896397 / 2 ^ 55) =
      .ok "03".toList by decide +kernel] at this
  exact absurd this (by decide)

/-- C319 (refuted).  The double 0.3 is less than three times the double 0.1, so 0.3 has symbol 2 for spacing 0.1. -/
theorem C319_grid_counterexample : ¬ SigmaGrid := by
  intro h
  have := h (1 / 10) 3 (by norm_num) (by norm_num)
  rw [show sigmaEncodeR signedDouble [0, signedDouble ((3 : ℕ) * (1 / 10))] (signedDouble (1 / 10)) =
      .ok "02".toList by decide +kernel,
    show sigmaEncode [(0 : ℚ), (3 : ℕ) * (1 / 10)] (1 / 10) = .ok "03".toList by decide +kernel] at this
  exact absurd this (by decide)

/-- C319 (partial).  Spacings that are doubles with few bits keep the grid: `k` spacings are symbol `k`. -/
theorem C319_grid_partial (m : ℕ) (e : ℤ) (hm : 0 < m) (k : ℕ) (hmk : k * m < 2 ^ 53) (hm2 : m < 2 ^ 53) :
    sigmaEncodeR signedDouble [0, signedDouble (k * (m * (2 : ℚ) ^ e))] (signedDouble (m * (2 : ℚ) ^ e)) =
      sigmaEncode [0, k * (m * (2 : ℚ) ^ e)] (m * (2 : ℚ) ^ e) := by
  have hE : (0 : ℚ) < (2 : ℚ) ^ e := zpow_pos (by norm_num) e
  have hd : ∀ n : ℕ, n < 2 ^ 53 → signedDouble (n * (2 : ℚ) ^ e) = n * (2 : ℚ) ^ e := by
    intro n hn
    unfold signedDouble
    rw [if_neg (not_lt.2 (by positivity)), FinML.Bars.roundDouble_of_isDouble ⟨n, e, hn, rfl⟩]
  have h1 : signedDouble (k * (m * (2 : ℚ) ^ e)) = k * (m * (2 : ℚ) ^ e) := by
    have := hd (k * m) hmk
    push_cast at this
    rwa [mul_assoc] at this
  rw [h1, hd m hm2]
  apply C319_exact_partial _ _ e (by positivity)
  intro x hx y hy hyx
  have hkm : (0 : ℚ) ≤ k * (m * (2 : ℚ) ^ e) := by positivity
  simp only [List.mem_cons, List.not_mem_nil, or_false] at hx hy
  rcases hx with rfl | rfl <;> rcases hy with rfl | rfl
  · exact ⟨0, by norm_num, by simp⟩
  · exact ⟨0, by norm_num, by rw [le_antisymm hyx hkm]; simp⟩
  · exact ⟨k * m, hmk, by push_cast; ring⟩
  · exact ⟨0, by norm_num, by simp⟩

example : sigmaEncodeR signedDouble [1, 5 / 2, 2, 100] 1 = .ok "011?".toList := by decide +kernel

end FinML.Entropy
