import Verif.Entropy.EncodeProps

/-! # Property C305: spacings that are not positive in sigma_encode -/

namespace FinML.Entropy

set_option linter.unusedSectionVars false

variable {K : Type} [Field K] [LinearOrder K] [IsStrictOrderedRing K] [FloorRing K]

/-- C305, the full claim: a spacing that is not positive is refused. -/
def RefusesSpacing : Prop :=
  ∀ (series : List ℚ) (sigma : ℚ), series ≠ [] → sigma ≤ 0 → ∃ e, sigmaEncode series sigma = .error e

/-- C305, part: a spacing of 0 is refused.  Missing from the full claim: negative spacings, `C305_negative`. -/
theorem C305_zero_partial (series : List K) (h : series ≠ []) : sigmaEncode series 0 = .error .valueError := by
  unfold sigmaEncode
  rw [if_neg h, if_pos rfl]

/-- C305: an empty series has the empty code, whatever the spacing. -/
theorem C305_empty (sigma : K) : sigmaEncode ([] : List K) sigma = .ok [] := by
  unfold sigmaEncode
  rw [if_pos rfl]

theorem mapM_error_iff {α β : Type} (f : α → Py β) (e : PyErr) (l : List α)
    (h : ∀ x ∈ l, f x = .error e ∨ ∃ y, f x = .ok y) :
    l.mapM f = .error e ↔ ∃ x ∈ l, f x = .error e := by
  induction l with
  | nil => simp [List.mapM_nil, pure, Except.pure]
  | cons x xs ih =>
    rw [mapM_cons_py]
    rcases h x (by simp) with hx | ⟨y, hy⟩
    · rw [hx]
      exact iff_of_true rfl ⟨x, by simp, hx⟩
    · have h2 := ih fun z hz => h z (by simp [hz])
      rw [hy, py_bind_ok]
      constructor
      · intro hh
        cases hm : xs.mapM f with
        | error e' =>
          rw [hm] at hh
          have : e' = e := by
            have h3 : (Except.error e' : Py (List β)) = .error e := hh
            exact Except.error.inj h3
          subst this
          obtain ⟨z, hz, hze⟩ := h2.1 hm
          exact ⟨z, by simp [hz], hze⟩
        | ok ys =>
          rw [hm] at hh
          cases hh
      · rintro ⟨z, hz, hze⟩
        rcases List.mem_cons.1 hz with rfl | hz
        · rw [hy] at hze; cases hze
        · rw [h2.2 ⟨z, hz, hze⟩]
          rfl

/-- The number of spacings, rounded up, that a value is above the least one. -/
def stepsUp (lo sigma x : K) : ℤ := ⌈(x - lo) / (-sigma)⌉

theorem npIndex_negative (lo sigma x : K) (hs : sigma < 0) (hx : lo ≤ x) :
    npIndex (fullAlphabet ++ ['?']) (min ⌊(x - lo) / sigma⌋ 62) =
      if x = lo then .ok '0'
      else if x - lo ≤ 63 * (-sigma) then
        pyGet (fullAlphabet ++ ['?']) (63 - stepsUp lo sigma x).toNat
      else .error .indexError := by
  have hfa : (fullAlphabet ++ ['?']).length = 63 := by decide
  have hfl : ⌊(x - lo) / sigma⌋ = -stepsUp lo sigma x := by
    unfold stepsUp
    rw [div_neg, Int.ceil_neg, neg_neg]
  have hn : 0 < -sigma := neg_pos.2 hs
  rw [hfl]
  by_cases he : x = lo
  · subst he
    have h0 : stepsUp x sigma x = 0 := by unfold stepsUp; simp
    rw [if_pos rfl, h0]
    rfl
  · rw [if_neg he]
    have hlt : 0 < x - lo := sub_pos.2 (lt_of_le_of_ne hx (Ne.symm he))
    have hpos : 0 < stepsUp lo sigma x := Int.ceil_pos.2 (div_pos hlt hn)
    have hle : stepsUp lo sigma x ≤ 63 ↔ x - lo ≤ 63 * (-sigma) := by
      unfold stepsUp
      rw [Int.ceil_le, div_le_iff₀ hn]
      norm_num
    unfold npIndex
    rw [if_neg (by omega), hfa]
    by_cases h63 : x - lo ≤ 63 * (-sigma)
    · have := hle.2 h63
      rw [if_pos h63, if_pos (by push_cast; omega)]
      congr 1
      push_cast
      omega
    · have : ¬ stepsUp lo sigma x ≤ 63 := fun h => h63 (hle.1 h)
      rw [if_neg h63, if_neg (by push_cast; omega)]

/-- C305: a negative spacing is refused, with an IndexError, exactly if some value is more than 63 spacings above the least
one.  Otherwise the least value has the symbol `0` and a value `m` spacings above it, rounded up, the `m`-th symbol counted
from the end of the alphabet. -/
theorem C305_negative (series : List K) (sigma lo : K) (hs : sigma < 0) (hlo : IsLeast {x | x ∈ series} lo) :
    (sigmaEncode series sigma = .error .indexError ↔ ∃ x ∈ series, 63 * (-sigma) < x - lo) ∧
      ((∀ x ∈ series, x - lo ≤ 63 * (-sigma)) → ∃ code, sigmaEncode series sigma = .ok code ∧
        code.length = series.length ∧ ∀ (i : ℕ) x, series[i]? = some x →
          (x = lo → code[i]? = some '0') ∧
          (x ≠ lo → ∃ m : ℕ, 1 ≤ m ∧ m ≤ 63 ∧ ((m : K) - 1) * (-sigma) < x - lo ∧ x - lo ≤ m * (-sigma) ∧
            code[i]? = (fullAlphabet ++ ['?'])[63 - m]?)) := by
  have hfa : (fullAlphabet ++ ['?']).length = 63 := by decide
  have hn : 0 < -sigma := neg_pos.2 hs
  have hne : series ≠ [] := List.ne_nil_of_mem hlo.1
  have hb : ∀ x ∈ series, x ≠ lo → 0 < stepsUp lo sigma x ∧
      (stepsUp lo sigma x ≤ 63 ↔ x - lo ≤ 63 * (-sigma)) := by
    intro x hx he
    have hlt : 0 < x - lo := sub_pos.2 (lt_of_le_of_ne (hlo.2 hx) (Ne.symm he))
    refine ⟨Int.ceil_pos.2 (div_pos hlt hn), ?_⟩
    unfold stepsUp
    rw [Int.ceil_le, div_le_iff₀ hn]
    norm_num
  have hcode : sigmaEncode series sigma =
      series.mapM fun x => npIndex (fullAlphabet ++ ['?']) (min ⌊(x - lo) / sigma⌋ 62) := by
    unfold sigmaEncode
    rw [if_neg hne, if_neg hs.ne, (npMin_eq_ok_iff series lo).2 hlo, py_bind_ok]
  have hok : ∀ x ∈ series, x - lo ≤ 63 * (-sigma) →
      npIndex (fullAlphabet ++ ['?']) (min ⌊(x - lo) / sigma⌋ 62) = .ok
        (if x = lo then '0' else (fullAlphabet ++ ['?']).getD (63 - stepsUp lo sigma x).toNat ' ') := by
    intro x hx h63
    rw [npIndex_negative lo sigma x hs (hlo.2 hx)]
    by_cases he : x = lo
    · rw [if_pos he, if_pos he]
    · rw [if_neg he, if_neg he, if_pos h63, pyGet_eq_ok_iff]
      have h1 := (hb x hx he).1
      rw [List.getD_eq_getElem _ _ (by omega)]
      exact List.getElem?_eq_getElem (by omega)
  constructor
  · rw [hcode, mapM_error_iff]
    · apply exists_congr
      intro x
      apply and_congr_right
      intro hx
      by_cases h63 : x - lo ≤ 63 * (-sigma)
      · rw [hok x hx h63]
        exact iff_of_false (by simp) (not_lt.2 h63)
      · have he : x ≠ lo := by
          rintro rfl
          apply h63
          rw [sub_self]
          positivity
        rw [npIndex_negative lo sigma x hs (hlo.2 hx), if_neg he, if_neg h63]
        exact iff_of_true rfl (not_le.1 h63)
    · intro x hx
      by_cases h63 : x - lo ≤ 63 * (-sigma)
      · exact Or.inr ⟨_, hok x hx h63⟩
      · left
        have he : x ≠ lo := by
          rintro rfl
          apply h63
          rw [sub_self]
          positivity
        rw [npIndex_negative lo sigma x hs (hlo.2 hx), if_neg he, if_neg h63]
  · intro hall
    refine ⟨_, hcode.trans (mapM_ok_of_forall _ _ _ fun x hx => hok x hx (hall x hx)), by simp, ?_⟩
    intro i x hx
    have hmem := List.mem_of_getElem? hx
    have hval : (series.map fun x => if x = lo then '0' else
        (fullAlphabet ++ ['?']).getD (63 - stepsUp lo sigma x).toNat ' ')[i]? = some (if x = lo then '0' else
        (fullAlphabet ++ ['?']).getD (63 - stepsUp lo sigma x).toNat ' ') := by
      rw [List.getElem?_map, hx]
      rfl
    constructor
    · intro he
      rw [hval, if_pos he]
    · intro he
      obtain ⟨h1, h2⟩ := hb x hmem he
      have h3 := h2.2 (hall x hmem)
      refine ⟨(stepsUp lo sigma x).toNat, by omega, by omega, ?_, ?_, ?_⟩
      · have hc : ((stepsUp lo sigma x).toNat : K) = ((stepsUp lo sigma x : ℤ) : K) := by
          rw [← Int.cast_natCast, Int.toNat_of_nonneg h1.le]
        rw [hc, ← lt_div_iff₀ hn]
        have := Int.ceil_lt_add_one ((x - lo) / (-sigma))
        unfold stepsUp
        linarith
      · have hc : ((stepsUp lo sigma x).toNat : K) = ((stepsUp lo sigma x : ℤ) : K) := by
          rw [← Int.cast_natCast, Int.toNat_of_nonneg h1.le]
        rw [hc, ← div_le_iff₀ hn]
        exact Int.le_ceil _
      · rw [hval, if_neg he]
        have hi : (63 - stepsUp lo sigma x).toNat = 63 - (stepsUp lo sigma x).toNat := by omega
        rw [hi, List.getD_eq_getElem _ _ (by omega)]
        exact (List.getElem?_eq_getElem (by omega)).symm

/-- C305, the full claim does not hold: a spacing of -1 encodes 0, 1 and 63 as `0?0`. -/
theorem C305_refuses_counterexample : ¬ RefusesSpacing := by
  intro h
  obtain ⟨e, he⟩ := h [0, 1, 63] (-1) (by simp) (by norm_num)
  have : sigmaEncode [(0 : ℚ), 1, 63] (-1) = .ok "0?0".toList := by decide +kernel
  rw [this] at he
  cases he

/-- A range of more than 63 spacings. -/
example : sigmaEncode [(0 : ℚ), 64] (-1) = .error .indexError := by decide +kernel

end FinML.Entropy
