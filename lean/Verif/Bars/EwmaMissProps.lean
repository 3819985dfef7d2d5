import Verif.Bars.EwmaMissModel
import Verif.Bars.MissFlowModel
import Verif.Bars.EwmaProps
import Mathlib.Data.Rat.Floor

/-! # `fast_ewma` of a series with missing values (C366) -/

namespace FinML.Bars

set_option linter.unusedSectionVars false

variable {K : Type} [Field K] [LinearOrder K] [IsStrictOrderedRing K]

/-- What pandas' `ewm(span).mean()` reports at position `i`: the mean of the known values so far, a value `k` bars old with the
weight `q ^ k`; NaN if none is known. -/
def ageMean (q : K) (l : List (Option K)) (i : ℕ) : Option K :=
  if ∃ k ∈ List.range (i + 1), (l.getD k none).isSome then
    some ((∑ k ∈ Finset.range (i + 1), q ^ k * (l.getD (i - k) none).getD 0) /
      ∑ k ∈ Finset.range (i + 1), if (l.getD (i - k) none).isSome then q ^ k else 0)
  else none

/-- C366, the full claim: `fast_ewma` with `adjust` is pandas' exponentially weighted mean. -/
def FastIsPandas (K : Type) [Field K] [LinearOrder K] : Prop :=
  ∀ (l : List (Option K)) (span : ℕ), 2 ≤ span → ∃ r, fastEwmaM l span true = .ok r ∧
    ∀ i, i < l.length → r[i]? = some (ageMean (1 - 2 / ((span : K) + 1)) l i)

/-- C366.  After a gap in a constant series the fast mean stays NaN, that of pandas is the constant. -/
theorem C366_counterexample : ¬ FastIsPandas ℚ := by
  intro h
  obtain ⟨r, hr, hi⟩ := h [some 1, none, some 1] 3 (by norm_num)
  have h1 : fastEwmaM ([some 1, none, some 1] : List (Option ℚ)) 3 true = .ok [some 1, none, none] := by decide +kernel
  rw [h1] at hr
  cases hr
  have h2 := hi 2 (by simp)
  revert h2
  simp only [ageMean]
  rw [if_pos ⟨0, by simp, rfl⟩]
  simp

/-- The entries of `r` up to the first missing value of `l`, NaN from there on. -/
def untilGap : Bool → List (Option K) → List K → List (Option K)
  | b, x :: xs, r :: rs => (if b && x.isSome then some r else none) :: untilGap (b && x.isSome) xs rs
  | _, _, _ => []

theorem ewmaAdjLoopM_eq (z alpha : K) (l : List (Option K)) (i : ℕ) (w : K) (old : Option K) (o : K)
    (h : ∀ v, old = some v → o = v) : ewmaAdjLoopM alpha i w old l =
      (ewmaAdjLoop alpha i w o (l.map fun x => x.getD z)).map (untilGap old.isSome l) := by
  induction l generalizing i w old o with
  | nil => rfl
  | cons x xs ih =>
    rw [ewmaAdjLoopM, List.map_cons, ewmaAdjLoop]
    by_cases hw : w + (1 - alpha) ^ i = 0
    · simp only [hw, if_true]; rfl
    · simp only [hw, if_false]
      have hb : (scaleAddM old (1 - alpha) x).isSome = (old.isSome && x.isSome) := by
        cases old <;> cases x <;> rfl
      rw [ih (i + 1) _ (scaleAddM old (1 - alpha) x) (o * (1 - alpha) + x.getD z) (by
        intro v hv
        cases old with
        | none => cases hv
        | some a =>
          cases x with
          | none => cases hv
          | some y =>
            cases hv
            rw [h a rfl]; rfl), hb]
      cases ewmaAdjLoop alpha (i + 1) (w + (1 - alpha) ^ i) (o * (1 - alpha) + x.getD z) (xs.map fun x => x.getD z) with
      | error e => rfl
      | ok rs =>
        cases old with
        | none => rfl
        | some a =>
          cases x with
          | none => rfl
          | some y =>
            rw [h a rfl]; rfl

theorem ewmaRecLoopM_eq (z alpha : K) (l : List (Option K)) (prev : Option K) (p : K) (h : ∀ v, prev = some v → p = v) :
    ewmaRecLoopM alpha prev l = untilGap prev.isSome l (ewmaRecLoop alpha p (l.map fun x => x.getD z)) := by
  induction l generalizing prev p with
  | nil => cases prev <;> rfl
  | cons x xs ih =>
    rw [ewmaRecLoopM, List.map_cons, ewmaRecLoop, untilGap]
    rw [ih _ (x.getD z * alpha + p * (1 - alpha)) (by
      intro v hv
      cases prev with
      | none => cases x <;> cases hv
      | some a =>
        cases x with
        | none => cases hv
        | some y =>
          cases hv
          rw [h a rfl]; rfl)]
    cases prev with
    | none => cases x <;> rfl
    | some a =>
      cases x with
      | none => rfl
      | some y => rw [h a rfl]; rfl

theorem fastEwmaM_eq (z : K) (l : List (Option K)) (span : ℕ) (adjust : Bool) :
    fastEwmaM l span adjust = (fastEwma (l.map fun x => x.getD z) span adjust).map (untilGap true l) := by
  cases l with
  | nil => rfl
  | cons x xs =>
    unfold fastEwmaM fastEwma
    simp only [List.map_cons]
    cases adjust with
    | true =>
      simp only [if_true]
      rw [ewmaAdjLoopM_eq z _ xs 1 1 x (x.getD z) (fun v hv => by rw [hv]; rfl)]
      cases ewmaAdjLoop (2 / ((span : K) + 1)) 1 1 (x.getD z) (xs.map fun x => x.getD z) with
      | error e => rfl
      | ok rs => cases x <;> rfl
    | false =>
      simp only [Bool.false_eq_true, if_false]
      rw [ewmaRecLoopM_eq z _ xs x (x.getD z) (fun v hv => by rw [hv]; rfl)]
      cases x <;> rfl

theorem untilGap_getElem? (l : List (Option K)) (r : List K) (hl : r.length = l.length) (b : Bool) (i : ℕ)
    (hi : i < l.length) :
    (untilGap b l r)[i]? = if b = true ∧ none ∉ l.take (i + 1) then (r[i]?).map some else some none := by
  induction l generalizing r b i with
  | nil => simp at hi
  | cons x xs ih =>
    cases r with
    | nil => simp at hl
    | cons y ys =>
      cases i with
      | zero => cases b <;> cases x <;> simp [untilGap]
      | succ i =>
        rw [untilGap, List.getElem?_cons_succ, ih ys (by simpa using hl) _ i (by simpa using hi)]
        cases b <;> cases x <;> simp

/-- C366.  A missing value makes the mean NaN from there on, in both variants. -/
theorem C366_forever (l : List (Option K)) (span : ℕ) (hs : 1 ≤ span) (adjust : Bool) (j i : ℕ) (hj : l[j]? = some none)
    (hji : j ≤ i) (hi : i < l.length) : ∃ r, fastEwmaM l span adjust = .ok r ∧ r[i]? = some none := by
  obtain ⟨r, hr, hlen⟩ : ∃ r, fastEwma (l.map fun x => x.getD 0) span adjust = .ok r ∧ r.length = l.length := by
    cases adjust with
    | true =>
      obtain ⟨r, h1, h2, _⟩ := fastEwma_adj (l.map fun x => x.getD 0) span hs
      exact ⟨r, h1, by simpa using h2⟩
    | false =>
      cases l with
      | nil => exact ⟨[], rfl, rfl⟩
      | cons x xs =>
        obtain ⟨r, h1, h2, _⟩ := C13_ewma_recursive (x.getD 0) (xs.map fun x => x.getD 0) span
        exact ⟨r, h1, by simpa using h2⟩
  refine ⟨untilGap true l r, by rw [fastEwmaM_eq 0, hr]; rfl, ?_⟩
  rw [untilGap_getElem? l r hlen true i hi, if_neg]
  rintro ⟨_, hn⟩
  apply hn
  rw [List.mem_iff_getElem?]
  exact ⟨j, by rw [List.getElem?_take, if_pos (by omega), hj]⟩

/-- C366.  Until the first missing value the fast mean is that of pandas (missing from the full claim: after a gap). -/
theorem C366_before_partial (l : List (Option K)) (span : ℕ) (hs : 1 ≤ span) :
    ∃ r, fastEwmaM l span true = .ok r ∧ ∀ i, i < l.length → none ∉ l.take (i + 1) →
      r[i]? = some (ageMean (1 - 2 / ((span : K) + 1)) l i) := by
  obtain ⟨r, h1, h2, h3⟩ := C13_ewma_adjusted (l.map fun x => x.getD 0) span hs
  refine ⟨untilGap true l r, by rw [fastEwmaM_eq 0, h1]; rfl, ?_⟩
  intro i hi hn
  rw [untilGap_getElem? l r (by simpa using h2) true i hi, if_pos ⟨rfl, hn⟩, h3 i (by simpa using hi)]
  have hk : ∀ k, k ≤ i → ∃ x, l[k]? = some (some x) := by
    intro k hk
    have hkl : k < l.length := by omega
    cases hx : l[k] with
    | some x => exact ⟨x, by rw [List.getElem?_eq_getElem hkl, hx]⟩
    | none =>
      exfalso
      apply hn
      rw [List.mem_iff_getElem?]
      exact ⟨k, by rw [List.getElem?_take, if_pos (by omega), List.getElem?_eq_getElem hkl, hx]⟩
  unfold ageMean
  rw [if_pos ⟨0, by simp, by obtain ⟨x, hx⟩ := hk 0 (by omega); simp [List.getD_eq_getElem?_getD, hx]⟩, Option.map_some]
  congr 3
  · apply Finset.sum_congr rfl
    intro k _
    obtain ⟨x, hx⟩ := hk (i - k) (by omega)
    simp [List.getD_eq_getElem?_getD, hx]
  · apply Finset.sum_congr rfl
    intro k _
    obtain ⟨x, hx⟩ := hk (i - k) (by omega)
    simp [List.getD_eq_getElem?_getD, hx]

/-- C366.  Until the first missing value both variants are those for any value in the gaps. -/
theorem C366_fill (l : List (Option K)) (span : ℕ) (hs : 1 ≤ span) (adjust : Bool) (z : K) :
    ∃ r r', fastEwmaM l span adjust = .ok r ∧ fastEwma (l.map fun x => x.getD z) span adjust = .ok r' ∧
      ∀ i, i < l.length → none ∉ l.take (i + 1) → ∃ v, r[i]? = some (some v) ∧ r'[i]? = some v := by
  obtain ⟨r, hr, hlen⟩ : ∃ r, fastEwma (l.map fun x => x.getD z) span adjust = .ok r ∧ r.length = l.length := by
    cases adjust with
    | true =>
      obtain ⟨r, h1, h2, _⟩ := fastEwma_adj (l.map fun x => x.getD z) span hs
      exact ⟨r, h1, by simpa using h2⟩
    | false =>
      cases l with
      | nil => exact ⟨[], rfl, rfl⟩
      | cons x xs =>
        obtain ⟨r, h1, h2, _⟩ := C13_ewma_recursive (x.getD z) (xs.map fun x => x.getD z) span
        exact ⟨r, h1, by simpa using h2⟩
  refine ⟨untilGap true l r, r, by rw [fastEwmaM_eq z, hr]; rfl, hr, ?_⟩
  intro i hi hn
  have hir : i < r.length := by omega
  refine ⟨r[i], ?_, List.getElem?_eq_getElem hir⟩
  rw [untilGap_getElem? l r hlen true i hi, if_pos ⟨rfl, hn⟩, List.getElem?_eq_getElem hir]
  rfl

/-- C366.  The last entry is what the imbalance bars of C349 use for their expected imbalance. -/
theorem C366_last (l : List (Option K)) (span : ℕ) (hs : 1 ≤ span) (hl : l ≠ []) :
    (fastEwmaM l span true >>= pyLast) = ewmaLastM l span := by
  obtain ⟨r, h1, h2, h3⟩ := fastEwma_adj (l.map fun x => x.getD 0) span hs
  rw [List.length_map] at h2
  have hpos : 0 < l.length := List.length_pos_iff.mpr hl
  have hlast := fastEwma_last (l.map fun x => x.getD 0) span hs (by simpa using hl)
  unfold ewmaLastM
  rw [hlast, py_bind_ok, fastEwmaM_eq 0, h1]
  have hlen : (untilGap true l r).length = l.length := by
    clear h1 h3 hlast hl hpos
    generalize true = b
    induction l generalizing r b with
    | nil => cases r <;> rfl
    | cons x xs ih =>
      cases r with
      | nil => simp at h2
      | cons y ys => simp [untilGap, ih ys (by simpa using h2)]
  have hget := untilGap_getElem? l r h2 true (l.length - 1) (by omega)
  rw [show l.length - 1 + 1 = l.length by omega, List.take_length, h3 _ (by simpa using by omega)] at hget
  rw [show l.length - 1 + 1 = l.length by omega, List.take_of_length_le (by simp)] at hget
  show pyLast (untilGap true l r) = _
  unfold pyLast
  rw [List.getLast?_eq_getElem?, hlen, hget]
  by_cases hn : none ∈ l
  · rw [if_neg (by simp [hn]), if_pos hn]; rfl
  · rw [if_pos ⟨rfl, hn⟩, if_neg hn]; rfl

/-- A gap at the third of four values; span 3 halves the weights. -/
example : fastEwmaM ([some 1, some 4, none, some 2] : List (Option ℚ)) 3 true = .ok [some 1, some 3, none, none] ∧
    fastEwmaM ([some 1, some 4, none, some 2] : List (Option ℚ)) 3 false = .ok [some 1, some (5 / 2), none, none] := by
  decide +kernel

end FinML.Bars
