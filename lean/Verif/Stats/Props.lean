import Verif.Stats.Model
import Verif.Py.Lemmas
import Mathlib.Data.List.GetD
import Mathlib.Algebra.BigOperators.Intervals
import Mathlib.Algebra.Order.BigOperators.Ring.Finset
import Mathlib.Tactic.FieldSimp
import Mathlib.Tactic.Positivity

/-!
# Properties C157 to C160: statistics
-/

namespace FinML.Stats

open Finset

/-! ## Lists and sums -/

theorem sum_nonneg_sq {A : Type} (l : List A) (f : A → ℝ) : 0 ≤ (l.map fun a => f a ^ 2).sum := by
  apply List.sum_nonneg
  intro x hx
  obtain ⟨a, -, rfl⟩ := List.mem_map.1 hx
  positivity

theorem sum_sq_zero {A : Type} (l : List A) (f : A → ℝ) (h : (l.map fun a => f a ^ 2).sum = 0) :
    ∀ a ∈ l, f a = 0 := by
  induction l with
  | nil => simp
  | cons a l ih =>
    rw [List.map_cons, List.sum_cons, add_eq_zero_iff_of_nonneg (sq_nonneg _) (sum_nonneg_sq l f)] at h
    rw [List.forall_mem_cons]
    exact ⟨sq_eq_zero_iff.1 h.1, ih h.2⟩

theorem list_cauchy {A : Type} (l : List A) (f g : A → ℝ) :
    (l.map fun a => f a * g a).sum ^ 2 ≤ (l.map fun a => f a ^ 2).sum * (l.map fun a => g a ^ 2).sum := by
  induction l with
  | nil => simp
  | cons a l ih =>
    simp only [List.map_cons, List.sum_cons]
    have hA := sum_nonneg_sq l f
    have hB := sum_nonneg_sq l g
    generalize (l.map fun a => f a * g a).sum = S at ih
    generalize (l.map fun a => f a ^ 2).sum = A at ih hA
    generalize (l.map fun a => g a ^ 2).sum = B at ih hB
    generalize f a = x
    generalize g a = y
    have h1 : 2 * S * x * y ≤ A * y ^ 2 + x ^ 2 * B := by
      refine (abs_le_of_sq_le_sq' ?_ ?_).2
      · have h2 : (2 * S * x * y) ^ 2 ≤ 4 * (A * B) * (x * y) ^ 2 := by
          have := mul_le_mul_of_nonneg_right ih (sq_nonneg (x * y))
          nlinarith
        nlinarith [sq_nonneg (A * y ^ 2 - x ^ 2 * B)]
      · positivity
    nlinarith

theorem corrcoef_range (l : List (ℝ × ℝ)) (r : ℝ) (h : corrcoef l = some r) : -1 ≤ r ∧ r ≤ 1 := by
  unfold corrcoef at h
  simp only at h
  split_ifs at h with hc
  simp only [Option.some.injEq] at h
  rw [not_or] at hc
  have h1 := sum_nonneg_sq l fun p => p.1 - mean (l.map Prod.fst)
  have h2 := sum_nonneg_sq l fun p => p.2 - mean (l.map Prod.snd)
  have h3 := list_cauchy l (fun p => p.1 - mean (l.map Prod.fst)) fun p => p.2 - mean (l.map Prod.snd)
  have p1 := lt_of_le_of_ne h1 (Ne.symm hc.1)
  have p2 := lt_of_le_of_ne h2 (Ne.symm hc.2)
  rw [← Real.sqrt_mul h1] at h
  rw [← abs_le, ← h, abs_div, abs_of_nonneg (Real.sqrt_nonneg _), div_le_one (Real.sqrt_pos.2 (mul_pos p1 p2))]
  exact Real.abs_le_sqrt h3

/-! ## C158: autocorrelation -/

/-- Positions at which both the value and the one `lag` rows before are present. -/
def bothAt (series : List (Option ℝ)) (lag : ℕ) : Finset ℕ :=
  (range (series.length - lag)).filter fun i =>
    (series.getD (i + lag) none).isSome ∧ (series.getD i none).isSome

/-- The value at a position. -/
noncomputable def at_ (series : List (Option ℝ)) (i : ℕ) : ℝ := (series.getD i none).getD 0

theorem sum_filterMap_range (m : ℕ) (g : ℕ → Option ℝ × Option ℝ) (f : ℝ × ℝ → ℝ) :
    (((List.range m).filterMap fun i => bothPresent (g i)).map f).sum =
      ∑ i ∈ (range m).filter (fun i => (g i).1.isSome ∧ (g i).2.isSome), f ((g i).1.getD 0, (g i).2.getD 0) := by
  induction m with
  | zero => simp
  | succ m ih =>
    rw [List.range_succ, List.filterMap_append, List.map_append, List.sum_append, ih, Finset.range_add_one,
      Finset.filter_insert]
    obtain ⟨a, b, hq⟩ : ∃ a b, g m = (a, b) := ⟨_, _, rfl⟩
    cases a <;> cases b <;>
      simp [bothPresent, hq, add_comm]

theorem lagPairs_eq (series : List (Option ℝ)) (lag : ℕ) :
    lagPairs series lag = (List.range (series.length - lag)).filterMap fun i =>
      bothPresent (series.getD (i + lag) none, series.getD i none) := by
  unfold lagPairs
  have : (series.drop lag).zip series = (List.range (series.length - lag)).map fun i =>
      (series.getD (i + lag) none, series.getD i none) := by
    apply List.ext_getElem
    · simp
    · intro i h1 h2
      simp only [List.length_zip, List.length_drop] at h1
      rw [List.getElem_zip, List.getElem_drop, List.getElem_map, List.getElem_range,
        List.getD_eq_getElem _ _ (by omega), List.getD_eq_getElem _ _ (by omega)]
      congr 2
      omega
  rw [this, List.filterMap_map]
  rfl

theorem sum_lagPairs (series : List (Option ℝ)) (lag : ℕ) (f : ℝ × ℝ → ℝ) :
    ((lagPairs series lag).map f).sum = ∑ i ∈ bothAt series lag, f (at_ series (i + lag), at_ series i) := by
  rw [lagPairs_eq, sum_filterMap_range]
  rfl

theorem length_lagPairs (series : List (Option ℝ)) (lag : ℕ) :
    ((lagPairs series lag).length : ℝ) = #(bothAt series lag) := by
  have := sum_lagPairs series lag fun _ => 1
  simpa using this

/-- C158. The value is the correlation of the present pairs of observations `lag` rows apart; it is in [-1,1].
It is missing exactly when one side of the pairs does not vary. -/
theorem C158_value (series : List (Option ℝ)) (lag : ℕ) (mu mv : ℝ)
    (hu : mu = (∑ i ∈ bothAt series lag, at_ series (i + lag)) / #(bothAt series lag))
    (hv : mv = (∑ i ∈ bothAt series lag, at_ series i) / #(bothAt series lag)) :
    (∀ r, pearsonAutocorr series lag = some r →
      -1 ≤ r ∧ r ≤ 1 ∧
      r * (√(∑ i ∈ bothAt series lag, (at_ series (i + lag) - mu) ^ 2) *
          √(∑ i ∈ bothAt series lag, (at_ series i - mv) ^ 2)) =
        ∑ i ∈ bothAt series lag, (at_ series (i + lag) - mu) * (at_ series i - mv)) ∧
    (pearsonAutocorr series lag = none ↔
      (∀ i ∈ bothAt series lag, at_ series (i + lag) = mu) ∨ (∀ i ∈ bothAt series lag, at_ series i = mv)) := by
  have e1 : mean ((lagPairs series lag).map Prod.fst) = mu := by
    unfold mean
    rw [hu, sum_lagPairs, List.length_map, length_lagPairs]
  have e2 : mean ((lagPairs series lag).map Prod.snd) = mv := by
    unfold mean
    rw [hv, sum_lagPairs, List.length_map, length_lagPairs]
  have z : ∀ g : ℕ → ℝ, ∀ c, (∑ i ∈ bothAt series lag, (g i - c) ^ 2 = 0 ↔
      ∀ i ∈ bothAt series lag, g i = c) := by
    intro g c
    rw [Finset.sum_eq_zero_iff_of_nonneg fun _ _ => sq_nonneg _]
    simp only [sq_eq_zero_iff, sub_eq_zero]
  have z1 := z (fun i => at_ series (i + lag)) mu
  have z2 := z (fun i => at_ series i) mv
  constructor
  · intro r hr
    have hrange := corrcoef_range _ _ hr
    unfold pearsonAutocorr corrcoef at hr
    simp only [e1, e2, sum_lagPairs] at hr
    split_ifs at hr with hc
    rw [not_or] at hc
    simp only [Option.some.injEq] at hr
    refine ⟨hrange.1, hrange.2, ?_⟩
    rw [← hr, div_mul_cancel₀]
    have q : ∀ g : ℕ → ℝ, ∀ c, ∑ i ∈ bothAt series lag, (g i - c) ^ 2 ≠ 0 →
        √(∑ i ∈ bothAt series lag, (g i - c) ^ 2) ≠ 0 := fun g c h =>
      (Real.sqrt_pos.2 (lt_of_le_of_ne (Finset.sum_nonneg fun _ _ => sq_nonneg _) (Ne.symm h))).ne'
    exact mul_ne_zero (q (fun i => at_ series (i + lag)) mu hc.1) (q (fun i => at_ series i) mv hc.2)
  · unfold pearsonAutocorr corrcoef
    simp only [e1, e2, sum_lagPairs]
    split_ifs with hc
    · exact ⟨fun _ => hc.imp z1.1 z2.1, fun _ => rfl⟩
    · exact ⟨fun h => by simp at h, fun h => (hc (h.imp z1.2 z2.2)).elim⟩

theorem mean_affine {A : Type} (l : List A) (hl : l ≠ []) (f : A → ℝ) (a b : ℝ) :
    mean (l.map fun x => a * f x + b) = a * mean (l.map f) + b := by
  unfold mean
  have h0 : (l.length : ℝ) ≠ 0 := by simpa using hl
  have : (l.map fun x => a * f x + b).sum = a * (l.map f).sum + l.length * b := by
    clear h0 hl
    induction l with
    | nil => simp
    | cons x l ih => simp only [List.map_cons, List.sum_cons, ih, List.length_cons]; push_cast; ring
  rw [this, List.length_map, List.length_map]
  field_simp

theorem sum_smul {A : Type} (l : List A) (f : A → ℝ) (c : ℝ) :
    (l.map fun x => c * f x).sum = c * (l.map f).sum := by
  induction l with
  | nil => simp
  | cons x l ih => simp only [List.map_cons, List.sum_cons, ih]; ring

/-- C158. Units and origin do not matter, and at lag 0 the value is 1. -/
theorem C158_affine (series : List (Option ℝ)) (lag : ℕ) (a b : ℝ) (ha : a ≠ 0) :
    pearsonAutocorr (series.map fun o => o.map fun x => a * x + b) lag = pearsonAutocorr series lag ∧
    ∀ r, pearsonAutocorr series 0 = some r → r = 1 := by
  constructor
  · have hp : lagPairs (series.map fun o => o.map fun x => a * x + b) lag =
        (lagPairs series lag).map fun p => (a * p.1 + b, a * p.2 + b) := by
      unfold lagPairs
      rw [← List.map_drop, List.zip_map, List.filterMap_map, List.map_filterMap]
      apply List.filterMap_congr
      rintro ⟨x, y⟩ -
      cases x <;> cases y <;> simp [bothPresent]
    unfold pearsonAutocorr
    rw [hp]
    generalize lagPairs series lag = l
    by_cases hl : l = []
    · subst hl; rfl
    unfold corrcoef
    simp only [List.map_map, Function.comp_def]
    rw [mean_affine l hl Prod.fst, mean_affine l hl Prod.snd]
    simp only [add_sub_add_right_eq_sub, ← mul_sub, mul_pow, sum_smul, mul_mul_mul_comm a _ a]
    have ha2 : a ^ 2 ≠ 0 := pow_ne_zero _ ha
    simp only [mul_eq_zero, ha2, false_or]
    split_ifs with hc
    · rfl
    · congr 1
      rw [Real.sqrt_mul (sq_nonneg a), Real.sqrt_mul (sq_nonneg a), Real.sqrt_sq_eq_abs, mul_mul_mul_comm,
        abs_mul_abs_self, mul_div_mul_left _ _ (mul_ne_zero ha ha)]
  · intro r hr
    have hp : ∀ p ∈ lagPairs series 0, p.1 = p.2 := by
      intro p hp
      unfold lagPairs at hp
      rw [List.drop_zero] at hp
      obtain ⟨q, hq, hqp⟩ := List.mem_filterMap.1 hp
      obtain ⟨x, rfl⟩ : ∃ x, q = (x, x) := by
        obtain ⟨i, hi, rfl⟩ := List.mem_iff_getElem.1 hq
        exact ⟨_, List.getElem_zip⟩
      cases x with
      | none => simp [bothPresent] at hqp
      | some x => simp only [bothPresent, Option.bind_some, Option.map_some, Option.some.injEq] at hqp; rw [← hqp]
    unfold pearsonAutocorr at hr
    generalize lagPairs series 0 = l at hr hp
    obtain ⟨m, rfl⟩ : ∃ m : List ℝ, l = m.map fun x => (x, x) := by
      refine ⟨l.map Prod.fst, ?_⟩
      rw [List.map_map]
      conv_lhs => rw [← List.map_id l]
      apply List.map_congr_left
      intro p hp'
      exact Prod.ext rfl (hp p hp').symm
    unfold corrcoef at hr
    simp only [List.map_map, Function.comp_def] at hr
    split_ifs at hr with hc
    rw [not_or] at hc
    simp only [Option.some.injEq] at hr
    have hn := sum_nonneg_sq m fun x => x - mean (m.map fun x => x)
    rw [← hr, Real.mul_self_sqrt hn]
    simp only [← pow_two]
    exact div_self hc.1

/-- An alternating series. -/
example : pearsonAutocorr [some 1, some (-1), some 1] 1 = some (-1) := by
  have : lagPairs [some 1, some (-1), some 1] 1 = [(-1, 1), (1, -1)] := rfl
  unfold pearsonAutocorr corrcoef mean
  rw [this]
  norm_num

/-! ## C157: Durbin-Watson -/

/-- C157. The statistic is the sum of the squared changes over the sum of squares, missing exactly when all
residuals are 0, at least 0 and less than 4, and 0 exactly for residuals that do not change. -/
theorem C157_range (e : List ℝ) :
    (durbinWatson e = none ↔ ∀ x ∈ e, x = 0) ∧
    ∀ d, durbinWatson e = some d → 0 ≤ d ∧ d < 4 ∧ (d = 0 ↔ ∃ c, ∀ x ∈ e, x = c) ∧
      d * ∑ i ∈ range e.length, e.getD i 0 ^ 2 = ∑ i ∈ range (e.length - 1), (e.getD (i + 1) 0 - e.getD i 0) ^ 2 := by
  have hsq := sum_nonneg_sq e id
  simp only [id] at hsq
  have hz : (e.map (· ^ 2)).sum = 0 ↔ ∀ x ∈ e, x = 0 := by
    clear hsq
    induction e with
    | nil => simp
    | cons a l ih =>
      have := sum_nonneg_sq l id
      simp only [id] at this
      simp only [List.map_cons, List.sum_cons, List.forall_mem_cons]
      rw [← ih, add_eq_zero_iff_of_nonneg (sq_nonneg a) this]
      simp
  have hnum : 0 ≤ ((List.zipWith (fun a b => b - a) e e.tail).map (· ^ 2)).sum := sum_nonneg_sq _ id
  have hlt : ∀ (l : List ℝ) (a : ℝ), ((List.zipWith (fun a b => b - a) (a :: l) l).map (· ^ 2)).sum + 2 * a ^ 2 ≤
      4 * ((a :: l).map (· ^ 2)).sum ∧
      ((∃ x ∈ a :: l, x ≠ 0) →
        ((List.zipWith (fun a b => b - a) (a :: l) l).map (· ^ 2)).sum < 4 * ((a :: l).map (· ^ 2)).sum) := by
    intro l
    induction l with
    | nil =>
      intro a
      refine ⟨by simp; nlinarith [sq_nonneg a], ?_⟩
      rintro ⟨x, hx, hne⟩
      simp only [List.mem_singleton] at hx
      subst hx
      have : 0 < x ^ 2 := by positivity
      simpa using this
    | cons b l ih =>
      intro a
      obtain ⟨h1, h2⟩ := ih b
      simp only [List.zipWith_cons_cons, List.map_cons, List.sum_cons] at h1 h2 ⊢
      refine ⟨by nlinarith [sq_nonneg (a + b)], ?_⟩
      rintro ⟨x, hx, hne⟩
      by_cases ha : a = 0
      · rcases List.mem_cons.1 hx with rfl | hx
        · exact (hne ha).elim
        · have h3 := h2 ⟨x, hx, hne⟩
          by_cases hb : b = 0
          · subst ha hb; simpa using h3
          · have : 0 < b ^ 2 := by positivity
            subst ha
            nlinarith
      · have : 0 < a ^ 2 := by positivity
        nlinarith [sq_nonneg (a + b)]
  have hzero : ((List.zipWith (fun a b => b - a) e e.tail).map (· ^ 2)).sum = 0 ↔ ∃ c, ∀ x ∈ e, x = c := by
    cases e with
    | nil => simp
    | cons a l =>
      have : ∀ (l : List ℝ) (a : ℝ), ((List.zipWith (fun a b => b - a) (a :: l) l).map (· ^ 2)).sum = 0 ↔
          ∀ x ∈ l, x = a := by
        intro l
        induction l with
        | nil => simp
        | cons b l ih =>
          intro a
          have hn : 0 ≤ ((List.zipWith (fun a b => b - a) (b :: l) l).map (· ^ 2)).sum := sum_nonneg_sq _ id
          simp only [List.zipWith_cons_cons, List.map_cons, List.sum_cons, List.forall_mem_cons]
          rw [add_eq_zero_iff_of_nonneg (sq_nonneg _) hn, ih b, sq_eq_zero_iff, sub_eq_zero]
          constructor
          · rintro ⟨rfl, h⟩; exact ⟨rfl, h⟩
          · rintro ⟨rfl, h⟩; exact ⟨rfl, h⟩
      rw [List.tail_cons, this l a]
      constructor
      · intro h
        exact ⟨a, by simpa using h⟩
      · rintro ⟨c, hc⟩ x hx
        rw [hc x (List.mem_cons_of_mem _ hx), hc a List.mem_cons_self]
  have hsum : (e.map (· ^ 2)).sum = ∑ i ∈ range e.length, e.getD i 0 ^ 2 := by
    rw [← Fin.sum_univ_eq_sum_range (fun i => e.getD i 0 ^ 2) e.length, ← List.sum_ofFn]
    congr 1
    apply List.ext_getElem <;> simp
  have hdiff : ((List.zipWith (fun a b => b - a) e e.tail).map (· ^ 2)).sum =
      ∑ i ∈ range (e.length - 1), (e.getD (i + 1) 0 - e.getD i 0) ^ 2 := by
    rw [← Fin.sum_univ_eq_sum_range (fun i => (e.getD (i + 1) 0 - e.getD i 0) ^ 2) (e.length - 1), ← List.sum_ofFn]
    congr 1
    apply List.ext_getElem
    · simp
    · intro i h1 h2
      simp only [List.length_map, List.length_zipWith, List.length_tail] at h1
      rw [List.getElem_map, List.getElem_zipWith, List.getElem_ofFn, List.getElem_tail,
        List.getD_eq_getElem _ _ (by simp only; omega), List.getD_eq_getElem _ _ (by simp only; omega)]
  unfold durbinWatson fdiv
  constructor
  · rw [← hz]
    split_ifs with h
    · simpa using h
    · simpa using h
  · intro d hd
    split_ifs at hd with h
    simp only [Option.some.injEq] at hd
    have hpos := lt_of_le_of_ne hsq (Ne.symm h)
    refine ⟨hd ▸ div_nonneg hnum hsq, ?_, ?_, ?_⟩
    · rw [← hd, div_lt_iff₀ hpos]
      cases e with
      | nil => simp at h
      | cons a l =>
        refine (hlt l a).2 ?_
        by_contra hc
        push Not at hc
        exact h (hz.2 hc)
    · rw [← hzero, ← hd, div_eq_zero_iff]
      simp [h]
    · rw [← hsum, ← hdiff, ← hd, div_mul_cancel₀ _ h]

/-- C157. The scale of the residuals does not matter. -/
theorem C157_scale (e : List ℝ) (c : ℝ) (hc : c ≠ 0) : durbinWatson (e.map (c * ·)) = durbinWatson e := by
  have h1 : List.zipWith (fun a b => b - a) (e.map (c * ·)) (e.map (c * ·)).tail =
      (List.zipWith (fun a b => b - a) e e.tail).map (c * ·) := by
    rw [← List.map_tail, List.zipWith_map, List.map_zipWith]
    congr 1
    funext a b
    ring
  unfold durbinWatson
  rw [h1, List.map_map, List.map_map]
  simp only [Function.comp_def, mul_pow]
  rw [sum_smul _ (fun x => x ^ 2), sum_smul _ (fun x => x ^ 2)]
  unfold fdiv
  have hc2 : c ^ 2 ≠ 0 := pow_ne_zero _ hc
  simp only [mul_eq_zero, hc2, false_or, mul_div_mul_left _ _ hc2]

/-- Alternating residuals. -/
example : durbinWatson [1, -1, 1, -1] = some 3 := by
  unfold durbinWatson fdiv
  norm_num

/-! ## C159: Jarque-Bera -/

theorem moment_affine (l : List ℝ) (hl : l ≠ []) (a b : ℝ) (k : ℕ) :
    moment k (l.map fun x => a * x + b) = a ^ k * moment k l := by
  unfold moment
  rw [mean_affine l hl (fun x => x) a b, List.map_map]
  simp only [Function.comp_def, add_sub_add_right_eq_sub, ← mul_sub, List.map_id']
  have := mean_affine l hl (fun x => (x - mean l) ^ k) (a ^ k) 0
  simpa only [mul_pow, add_zero] using this

/-- C159. The p-value is in (0,1]; it is `exp(-JB/2)` for the Jarque-Bera statistic; it is 1 exactly when the
third central moment vanishes and the fourth is three times the squared second; constant data have none. -/
theorem C159_value (l : List ℝ) :
    (jarqueBeraPval l = none ↔ ∃ c, ∀ x ∈ l, x = c) ∧
    ∀ p, jarqueBeraPval l = some p → 0 < p ∧ p ≤ 1 ∧
      (p = 1 ↔ moment 3 l = 0 ∧ moment 4 l = 3 * moment 2 l ^ 2) ∧
      -2 * Real.log p = l.length / 6 * (moment 3 l ^ 2 / moment 2 l ^ 3 +
        (moment 4 l / moment 2 l ^ 2 - 3) ^ 2 / 4) := by
  have hm2 : 0 ≤ moment 2 l := div_nonneg (sum_nonneg_sq l fun x => x - mean l) (Nat.cast_nonneg _)
  have hz : moment 2 l = 0 ↔ ∃ c, ∀ x ∈ l, x = c := by
    by_cases hl : l = []
    · subst hl; simp [moment, mean]
    have h0 : (l.length : ℝ) ≠ 0 := by simpa using hl
    constructor
    · intro h
      refine ⟨mean l, ?_⟩
      unfold moment at h
      rw [mean, div_eq_zero_iff, List.length_map] at h
      have h1 := h.resolve_right h0
      intro x hx
      have := sum_sq_zero l (fun x => x - mean l) h1 x hx
      rwa [sub_eq_zero] at this
    · rintro ⟨c, hc⟩
      have hmean : mean l = c := by
        have : l = List.replicate l.length c := List.eq_replicate_iff.2 ⟨rfl, hc⟩
        unfold mean
        rw [this, List.sum_replicate, List.length_replicate, nsmul_eq_mul]
        field_simp
      unfold moment
      rw [hmean, mean]
      have : l.map (fun x => (x - c) ^ 2) = l.map fun _ => 0 := by
        apply List.map_congr_left
        intro x hx
        rw [hc x hx]
        ring
      rw [this]
      simp
  unfold jarqueBeraPval
  constructor
  · rw [← hz]
    split_ifs with h <;> simp [h]
  · intro p hp
    split_ifs at hp with h
    have hpos := lt_of_le_of_ne hm2 (Ne.symm h)
    have hl : l ≠ [] := by
      rintro rfl
      simp [moment, mean] at h
    have hn : (0 : ℝ) < l.length := by simpa using List.length_pos_of_ne_nil hl
    simp only [Option.some.injEq] at hp
    have e : (moment 3 l / moment 2 l ^ (3 / 2 : ℝ)) ^ 2 = moment 3 l ^ 2 / moment 2 l ^ 3 := by
      rw [div_pow, ← Real.rpow_natCast (moment 2 l ^ (3 / 2 : ℝ)), ← Real.rpow_mul hm2, ← Real.rpow_natCast]
      norm_num
    rw [e] at hp
    have hq : 0 ≤ moment 3 l ^ 2 / moment 2 l ^ 3 := by positivity
    refine ⟨hp ▸ Real.exp_pos _, ?_, ?_, ?_⟩
    · rw [← hp, Real.exp_le_one_iff]
      have : 0 ≤ (l.length : ℝ) / 6 * (moment 3 l ^ 2 / moment 2 l ^ 3 + 1 / 4 * (moment 4 l / moment 2 l ^ 2 - 3) ^ 2) := by
        positivity
      linarith
    · rw [← hp, Real.exp_eq_one_iff]
      have e0 : -((l.length : ℝ) / 6 * (moment 3 l ^ 2 / moment 2 l ^ 3 + 1 / 4 * (moment 4 l / moment 2 l ^ 2 - 3) ^ 2)) / 2 = 0 ↔
          moment 3 l ^ 2 / moment 2 l ^ 3 + 1 / 4 * (moment 4 l / moment 2 l ^ 2 - 3) ^ 2 = 0 := by
        rw [div_eq_zero_iff, neg_eq_zero, mul_eq_zero]
        have : (l.length : ℝ) / 6 ≠ 0 := by positivity
        simp [this]
      rw [e0, add_eq_zero_iff_of_nonneg hq (by positivity), div_eq_zero_iff, mul_eq_zero, sq_eq_zero_iff,
        sq_eq_zero_iff, sub_eq_zero, div_eq_iff (pow_ne_zero 2 h)]
      have h3 : moment 2 l ^ 3 ≠ 0 := pow_ne_zero 3 h
      simp [h3]
    · rw [← hp, Real.log_exp]
      ring

/-- C159. Units and origin do not matter. -/
theorem C159_affine (l : List ℝ) (a b : ℝ) (ha : a ≠ 0) :
    jarqueBeraPval (l.map fun x => a * x + b) = jarqueBeraPval l := by
  by_cases hl : l = []
  · subst hl; rfl
  have hm2 : 0 ≤ moment 2 l := div_nonneg (sum_nonneg_sq l fun x => x - mean l) (Nat.cast_nonneg _)
  have ha2 : a ^ 2 ≠ 0 := pow_ne_zero _ ha
  unfold jarqueBeraPval
  simp only [moment_affine l hl, mul_eq_zero, ha2, false_or, List.length_map]
  split_ifs with h
  · rfl
  · congr 6
    · rw [Real.mul_rpow (sq_nonneg a) hm2, div_pow, div_pow, mul_pow, mul_pow]
      rw [← Real.rpow_natCast ((a ^ 2) ^ (3 / 2 : ℝ)), ← Real.rpow_mul (sq_nonneg a)]
      have : (a ^ 2) ^ ((3 / 2 : ℝ) * ((2 : ℕ) : ℝ)) = (a ^ 3) ^ 2 := by
        rw [show (3 / 2 : ℝ) * ((2 : ℕ) : ℝ) = ((3 : ℕ) : ℝ) by norm_num, Real.rpow_natCast]
        ring
      rw [this, mul_div_mul_left _ _ (by positivity)]
    · rw [mul_pow, ← pow_mul, mul_div_mul_left _ _ (by positivity)]

/-- Two values taken equally often. -/
example : ∃ p, jarqueBeraPval [0, 2] = some p := by
  unfold jarqueBeraPval moment mean
  norm_num

/-! ## C160: rank correlation "p-values" -/

/-- C160, the full claim: the functions return p-values, numbers in [0,1] where defined. -/
def TauIsPval : Prop :=
  ∀ (pval : List ℝ → List ℝ → Option ℝ), (∀ x y p, pval x y = some p → 0 ≤ p ∧ p ≤ 1) →
    ∀ x y p, kendallTauPval pval x y = .ok (some p) → 0 ≤ p ∧ p ≤ 1

theorem kendall_reversed (pval : List ℝ → List ℝ → Option ℝ) :
    kendallTauPval pval [0, 1] [1, 0] = .ok (some (-1)) := by
  unfold kendallTauPval kendalltau tauB
  simp [rowPairs, sgn]

/-- C160. For two observations in opposite order the "p-value" is -1. -/
theorem C160_pval_counterexample : ¬ TauIsPval := by
  intro h
  have := (h (fun _ _ => some 1) (by simp) _ _ _ (kendall_reversed _)).1
  norm_num at this

/-- C160. The same for the weighted version: a statistic that is -1 for opposite orders comes back, whatever the
second entry is. -/
theorem C160_weighted_counterexample (weightedtau : List ℝ → List ℝ → Py (Option ℝ × Option ℝ)) (x y : List ℝ)
    (p : Option ℝ) (h : weightedtau x y = .ok (some (-1), p)) :
    ¬ ∃ q, weightedTauPval weightedtau x y = .ok (some q) ∧ 0 ≤ q ∧ q ≤ 1 := by
  rintro ⟨q, h1, h2, -⟩
  unfold weightedTauPval at h1
  rw [h] at h1
  cases h1
  norm_num at h2

theorem sgn_sq (x : ℝ) : sgn x ^ 2 = if x = 0 then 0 else 1 := by
  unfold sgn
  rcases lt_trichotomy x 0 with h | h | h
  · rw [sign_neg h, if_neg h.ne]; norm_num
  · subst h; simp
  · rw [sign_pos h, if_neg h.ne']; norm_num

theorem sgn_neg (x : ℝ) : sgn (-x) = -sgn x := by
  unfold sgn
  rw [Left.sign_neg]
  push_cast
  simp

theorem sum_rowPairs (l : List (ℝ × ℝ)) (f : (ℝ × ℝ) × ℝ × ℝ → ℝ) :
    ((rowPairs l).map f).sum = ∑ j ∈ range l.length, ∑ i ∈ range j, f (l.getD i (0, 0), l.getD j (0, 0)) := by
  induction l with
  | nil => simp [rowPairs]
  | cons a l ih =>
    rw [rowPairs, List.map_append, List.sum_append, ih, List.length_cons, Finset.sum_range_succ']
    simp only [Finset.sum_range_succ', List.getD_cons_succ, List.getD_cons_zero, Finset.sum_add_distrib,
      Finset.range_zero, Finset.sum_empty, add_zero]
    rw [add_comm]
    congr 1
    rw [← Fin.sum_univ_eq_sum_range (fun j => f (a, l.getD j (0, 0))) l.length, ← List.sum_ofFn]
    congr 1
    apply List.ext_getElem <;> simp

/-- The number of pairs of positions `i < j` below `n` with a property. -/
def pairCount (n : ℕ) (P : ℕ → ℕ → Prop) [∀ i j, Decidable (P i j)] : ℕ :=
  ∑ j ∈ range n, #((range j).filter fun i => P i j)

theorem pairCount_eq (n : ℕ) (P : ℕ → ℕ → Prop) [∀ i j, Decidable (P i j)] :
    (pairCount n P : ℝ) = ∑ j ∈ range n, ∑ i ∈ range j, if P i j then 1 else 0 := by
  unfold pairCount
  push_cast
  apply Finset.sum_congr rfl
  intro j _
  rw [Finset.sum_boole]

theorem length_filter_rowPairs (x y : List ℝ) (h : x.length = y.length) (P : (ℝ × ℝ) × ℝ × ℝ → Prop)
    [DecidablePred P] :
    (((rowPairs (x.zip y)).filter fun p => P p).length : ℝ) =
      pairCount x.length fun i j => P ((x.getD i 0, y.getD i 0), x.getD j 0, y.getD j 0) := by
  have e : (((rowPairs (x.zip y)).filter fun p => P p).length : ℝ) =
      ((rowPairs (x.zip y)).map fun p => if P p then (1 : ℝ) else 0).sum := by
    induction rowPairs (x.zip y) with
    | nil => simp
    | cons a l ih =>
      rw [List.map_cons, List.sum_cons, List.filter_cons, ← ih]
      by_cases ha : P a <;> simp [ha, add_comm]
  have hz : ∀ i, i < x.length → (x.zip y).getD i (0, 0) = (x.getD i 0, y.getD i 0) := by
    intro i hi
    rw [List.getD_eq_getElem _ _ (by simp; omega), List.getElem_zip, List.getD_eq_getElem _ _ hi,
      List.getD_eq_getElem _ _ (by omega)]
  rw [e, sum_rowPairs, pairCount_eq, List.length_zip, ← h, min_self]
  apply Finset.sum_congr rfl
  intro j hj
  apply Finset.sum_congr rfl
  intro i hi
  rw [Finset.mem_range] at hi hj
  rw [hz i (by omega), hz j hj]

theorem sum_sgn_sq {A : Type} (l : List A) (f : A → ℝ × ℝ) :
    (l.map fun p => sgn ((f p).1 - (f p).2) ^ 2).sum = ((l.filter fun p => (f p).1 ≠ (f p).2).length : ℝ) := by
  induction l with
  | nil => simp
  | cons a l ih =>
    rw [List.map_cons, List.sum_cons, ih, sgn_sq, List.filter_cons]
    by_cases h : (f a).1 = (f a).2
    · simp [h]
    · simp [h, sub_eq_zero, add_comm]

/-- C160. What is returned is Kendall's tau-b of the rows, a number in [-1,1]; reversing the order of one
variable changes its sign, and exchanging the variables does not change it.  Arrays of different lengths
raise. -/
theorem C160_pval_partial (pval : List ℝ → List ℝ → Option ℝ) (x y : List ℝ) :
    (x.length ≠ y.length → kendallTauPval pval x y = .error .valueError) ∧
    (x.length = y.length →
      (∀ t, kendallTauPval pval x y = .ok (some t) → -1 ≤ t ∧ t ≤ 1 ∧
        t * √((pairCount x.length fun i j => x.getD i 0 ≠ x.getD j 0) *
            (pairCount x.length fun i j => y.getD i 0 ≠ y.getD j 0)) =
          (pairCount x.length fun i j => 0 < (x.getD i 0 - x.getD j 0) * (y.getD i 0 - y.getD j 0)) -
          (pairCount x.length fun i j => (x.getD i 0 - x.getD j 0) * (y.getD i 0 - y.getD j 0) < 0)) ∧
      (∀ t, kendallTauPval pval x y = .ok t →
        kendallTauPval pval x (y.map (- ·)) = .ok (t.map (- ·)) ∧ kendallTauPval pval y x = .ok t)) := by
  constructor
  · intro h
    unfold kendallTauPval kendalltau
    rw [if_neg h]
    rfl
  intro h
  have e1 : kendallTauPval pval x y = .ok (tauB (x.zip y)) := by
    unfold kendallTauPval kendalltau
    rw [if_pos h]
    rfl
  have rp_map : ∀ (l : List (ℝ × ℝ)) (f : ℝ × ℝ → ℝ × ℝ), rowPairs (l.map f) =
      (rowPairs l).map fun p => (f p.1, f p.2) := by
    intro l f
    induction l with
    | nil => rfl
    | cons a l ih => simp only [List.map_cons, rowPairs, ih, List.map_append, List.map_map, Function.comp_def]
  have hnum : ∀ l : List ((ℝ × ℝ) × ℝ × ℝ), (l.map fun p => sgn (p.1.1 - p.2.1) * sgn (p.1.2 - p.2.2)).sum =
      ((l.filter fun p => 0 < (p.1.1 - p.2.1) * (p.1.2 - p.2.2)).length : ℝ) -
        (l.filter fun p => (p.1.1 - p.2.1) * (p.1.2 - p.2.2) < 0).length := by
    intro l
    induction l with
    | nil => simp
    | cons a l ih =>
      rw [List.map_cons, List.sum_cons, ih, List.filter_cons, List.filter_cons]
      have e : sgn (a.1.1 - a.2.1) * sgn (a.1.2 - a.2.2) = sgn ((a.1.1 - a.2.1) * (a.1.2 - a.2.2)) := by
        unfold sgn
        rw [sign_mul]
        push_cast
        rfl
      rw [e]
      generalize (a.1.1 - a.2.1) * (a.1.2 - a.2.2) = z
      unfold sgn
      rcases lt_trichotomy z 0 with hz | hz | hz
      · rw [sign_neg hz]; simp [hz, not_lt.2 hz.le]; ring
      · subst hz; simp
      · rw [sign_pos hz]; simp [hz, not_lt.2 hz.le]; ring
  refine ⟨fun t ht => ?_, fun t ht => ?_⟩
  · rw [e1] at ht
    simp only [Except.ok.injEq] at ht
    unfold tauB at ht
    simp only at ht
    split_ifs at ht with hc
    rw [not_or] at hc
    simp only [Option.some.injEq] at ht
    have hcs := list_cauchy (rowPairs (x.zip y)) (fun p => sgn (p.1.1 - p.2.1)) fun p => sgn (p.1.2 - p.2.2)
    rw [sum_sgn_sq _ (fun p : (ℝ × ℝ) × ℝ × ℝ => (p.1.1, p.2.1)),
      sum_sgn_sq _ (fun p : (ℝ × ℝ) × ℝ × ℝ => (p.1.2, p.2.2))] at hcs
    simp only at hcs
    have c1 := length_filter_rowPairs x y h fun p => p.1.1 ≠ p.2.1
    have c2 := length_filter_rowPairs x y h fun p => p.1.2 ≠ p.2.2
    have c3 := length_filter_rowPairs x y h fun p => 0 < (p.1.1 - p.2.1) * (p.1.2 - p.2.2)
    have c4 := length_filter_rowPairs x y h fun p => (p.1.1 - p.2.1) * (p.1.2 - p.2.2) < 0
    rw [← c1, ← c2, ← c3, ← c4, ← hnum]
    generalize ((rowPairs (x.zip y)).map fun p => sgn (p.1.1 - p.2.1) * sgn (p.1.2 - p.2.2)).sum = S at *
    have hpos : 0 < √((((rowPairs (x.zip y)).filter fun p => p.1.1 ≠ p.2.1).length : ℝ) *
          ((rowPairs (x.zip y)).filter fun p => p.1.2 ≠ p.2.2).length) := by
      apply Real.sqrt_pos.2
      exact mul_pos (Nat.cast_pos.2 (Nat.pos_of_ne_zero hc.1)) (Nat.cast_pos.2 (Nat.pos_of_ne_zero hc.2))
    have hb := Real.abs_le_sqrt hcs
    rw [← ht, div_mul_cancel₀ _ hpos.ne']
    rw [← and_assoc, ← abs_le]
    refine ⟨?_, rfl⟩
    rw [abs_div, abs_of_pos hpos, div_le_one hpos]
    exact hb
  · rw [e1] at ht
    simp only [Except.ok.injEq] at ht
    constructor
    · unfold kendallTauPval kendalltau
      rw [List.length_map, if_pos h]
      simp only [py_bind_ok, py_pure, Except.ok.injEq]
      rw [← ht]
      have ez : x.zip (y.map (- ·)) = (x.zip y).map fun p => (p.1, -p.2) := by
        rw [List.zip_map_right]
        rfl
      unfold tauB
      rw [ez, rp_map]
      simp only [List.map_map, Function.comp_def, List.filter_map, List.length_map, neg_sub_neg, ne_eq, neg_inj]
      have hs : ((rowPairs (x.zip y)).map fun p => sgn (p.1.1 - p.2.1) * sgn (p.2.2 - p.1.2)).sum =
          -((rowPairs (x.zip y)).map fun p => sgn (p.1.1 - p.2.1) * sgn (p.1.2 - p.2.2)).sum := by
        induction rowPairs (x.zip y) with
        | nil => simp
        | cons a l ih =>
          simp only [List.map_cons, List.sum_cons, ih]
          rw [← neg_sub a.1.2 a.2.2, sgn_neg]
          ring
      rw [hs]
      split_ifs
      · rfl
      · simp [neg_div]
    · unfold kendallTauPval kendalltau
      rw [if_pos h.symm]
      simp only [py_bind_ok, py_pure, Except.ok.injEq]
      rw [← ht]
      have ez : y.zip x = (x.zip y).map Prod.swap := (List.zip_swap x y).symm
      unfold tauB
      rw [ez, rp_map]
      simp only [List.map_map, Function.comp_def, List.filter_map, List.length_map, Prod.fst_swap, Prod.snd_swap]
      have hs : ((rowPairs (x.zip y)).map fun p => sgn (p.1.2 - p.2.2) * sgn (p.1.1 - p.2.1)) =
          (rowPairs (x.zip y)).map fun p => sgn (p.1.1 - p.2.1) * sgn (p.1.2 - p.2.2) :=
        List.map_congr_left fun p _ => mul_comm _ _
      rw [hs, mul_comm (((rowPairs (x.zip y)).filter fun p => p.1.2 ≠ p.2.2).length : ℝ)]
      exact if_congr or_comm rfl rfl

end FinML.Stats
