import Verif.Stats.Props

/-!
# Rank correlation sees order only (C254); residual statistics in reversed time (C255)
-/

namespace FinML.Stats

open Finset

/-! ## C254 -/

theorem kendall_eq (pval : List ℝ → List ℝ → Option ℝ) {x y : List ℝ} (h : x.length = y.length) :
    kendallTauPval pval x y = .ok (tauB (x.zip y)) := by
  unfold kendallTauPval kendalltau
  rw [if_pos h]
  rfl

theorem rowPairs_map {A B : Type} (l : List A) (f : A → B) :
    rowPairs (l.map f) = (rowPairs l).map fun p => (f p.1, f p.2) := by
  induction l with
  | nil => rfl
  | cons a l ih => simp only [List.map_cons, rowPairs, ih, List.map_append, List.map_map, Function.comp_def]

theorem sgn_sub_mono {f : ℝ → ℝ} (hf : StrictMono f) (a b : ℝ) : sgn (f a - f b) = sgn (a - b) := by
  unfold sgn
  rcases lt_trichotomy a b with h | h | h
  · rw [sign_neg (sub_neg.2 h), sign_neg (sub_neg.2 (hf h))]
  · rw [h, sub_self, sub_self]
  · rw [sign_pos (sub_pos.2 h), sign_pos (sub_pos.2 (hf h))]

/-- C254.  Only the order of the values counts: strictly increasing maps of the two variables change
nothing. -/
theorem C254_monotone (pval : List ℝ → List ℝ → Option ℝ) (x y : List ℝ) {f g : ℝ → ℝ} (hf : StrictMono f)
    (hg : StrictMono g) : kendallTauPval pval (x.map f) (y.map g) = kendallTauPval pval x y := by
  by_cases h : x.length = y.length
  · rw [kendall_eq pval h, kendall_eq pval (by simpa using h)]
    have ez : (x.map f).zip (y.map g) = (x.zip y).map fun p => (f p.1, g p.2) := by
      rw [List.zip_map]
      rfl
    unfold tauB
    rw [ez, rowPairs_map]
    simp only [List.map_map, Function.comp_def, List.filter_map, List.length_map, sgn_sub_mono hf, sgn_sub_mono hg,
      ne_eq, hf.injective.eq_iff, hg.injective.eq_iff]
  · unfold kendallTauPval kendalltau
    rw [if_neg h, if_neg (by simpa using h)]

theorem sum_rowPairs_perm {A M : Type} [AddCommMonoid M] (f : A × A → M) (hf : ∀ a b, f (a, b) = f (b, a))
    {l l' : List A} (h : l.Perm l') : ((rowPairs l).map f).sum = ((rowPairs l').map f).sum := by
  induction h with
  | nil => rfl
  | cons a h ih =>
    simp only [rowPairs, List.map_append, List.sum_append, List.map_map, ih]
    rw [(h.map _).sum_eq]
  | swap a b l =>
    simp only [rowPairs, List.map_append, List.sum_append, List.map_map, List.map_cons, List.sum_cons]
    rw [hf a b]
    simp only [add_assoc, add_left_comm]
  | trans _ _ ih1 ih2 => rw [ih1, ih2]

theorem length_filter_sum {A : Type} (l : List A) (p : A → Bool) :
    (l.filter p).length = (l.map fun a => if p a then 1 else 0).sum := by
  induction l with
  | nil => rfl
  | cons a l ih =>
    rw [List.filter_cons, List.map_cons, List.sum_cons, ← ih]
    cases p a <;> simp [add_comm]

/-- C254.  The order of the observations does not count. -/
theorem C254_reorder (pval : List ℝ → List ℝ → Option ℝ) {x y x' y' : List ℝ} (h : x.length = y.length)
    (h' : x'.length = y'.length) (hp : (x.zip y).Perm (x'.zip y')) :
    kendallTauPval pval x y = kendallTauPval pval x' y' := by
  rw [kendall_eq pval h, kendall_eq pval h']
  unfold tauB
  simp only [length_filter_sum]
  rw [sum_rowPairs_perm _ _ hp, sum_rowPairs_perm _ _ hp, sum_rowPairs_perm _ _ hp]
  · rintro ⟨a, b⟩ ⟨c, d⟩
    show sgn (a - c) * sgn (b - d) = sgn (c - a) * sgn (d - b)
    rw [← neg_sub a c, ← neg_sub b d, sgn_neg, sgn_neg]
    ring
  · rintro a b
    simp only [ne_comm]
  · rintro a b
    simp only [ne_comm]

theorem mem_rowPairs {A : Type} (l : List A) (p : A × A) :
    p ∈ rowPairs l ↔ ∃ i j : ℕ, i < j ∧ l[i]? = some p.1 ∧ l[j]? = some p.2 := by
  induction l with
  | nil => simp [rowPairs]
  | cons a l ih =>
    rw [rowPairs, List.mem_append, ih, List.mem_map]
    constructor
    · rintro (⟨b, hb, rfl⟩ | ⟨i, j, hij, h1, h2⟩)
      · obtain ⟨k, hk⟩ := List.mem_iff_getElem?.1 hb
        exact ⟨0, k + 1, by omega, by simp, by simpa using hk⟩
      · exact ⟨i + 1, j + 1, by omega, by simpa using h1, by simpa using h2⟩
    · rintro ⟨i, j, hij, h1, h2⟩
      obtain ⟨k, rfl⟩ : ∃ k, j = k + 1 := ⟨j - 1, by omega⟩
      rw [List.getElem?_cons_succ] at h2
      cases i with
      | zero =>
        left
        rw [List.getElem?_cons_zero, Option.some.injEq] at h1
        exact ⟨p.2, List.mem_of_getElem? h2, by rw [h1]⟩
      | succ i =>
        right
        exact ⟨i, k, by omega, by simpa using h1, h2⟩

theorem sum_eq_length_iff {A : Type} (l : List A) (f : A → ℝ) (h : ∀ a ∈ l, f a ≤ 1) :
    (l.map f).sum = l.length ↔ ∀ a ∈ l, f a = 1 := by
  have hle : ∀ l : List A, (∀ a ∈ l, f a ≤ 1) → (l.map f).sum ≤ l.length := by
    intro l hl
    induction l with
    | nil => simp
    | cons a l ih =>
      rw [List.map_cons, List.sum_cons, List.length_cons]
      push_cast
      linarith [ih fun b hb => hl b (by simp [hb]), hl a (by simp)]
  induction l with
  | nil => simp
  | cons a l ih =>
    have h1 := h a (by simp)
    have h2 := hle l fun b hb => h b (by simp [hb])
    have ih' := ih fun b hb => h b (by simp [hb])
    rw [List.forall_mem_cons, List.map_cons, List.sum_cons, List.length_cons]
    push_cast
    constructor
    · intro e
      exact ⟨by linarith, ih'.1 (by linarith)⟩
    · rintro ⟨e1, e2⟩
      linarith [ih'.2 e2]

theorem sgn_mul_eq_one {a b : ℝ} (ha : a ≠ 0) (hb : b ≠ 0) :
    sgn a * sgn b ≤ 1 ∧ -(sgn a * sgn b) ≤ 1 ∧ (sgn a * sgn b = 1 ↔ (a < 0 ↔ b < 0)) ∧
      (-(sgn a * sgn b) = 1 ↔ (a < 0 ↔ 0 < b)) := by
  unfold sgn
  rcases lt_or_gt_of_ne ha with h | h <;> rcases lt_or_gt_of_ne hb with h' | h' <;>
    simp [sign_neg, sign_pos, h, h', not_lt.2 h.le, not_lt.2 h'.le] <;> norm_num

theorem tau_one (pval : List ℝ → List ℝ → Option ℝ) {x y : List ℝ} (h : x.length = y.length)
    (h2 : 2 ≤ x.length) (hx : x.Nodup) (hy : y.Nodup) :
    ∃ t, kendallTauPval pval x y = .ok (some t) ∧
      (t = 1 ↔ ∀ i j (hi : i < x.length) (hj : j < x.length), x[i] < x[j] → y[i] < y[j]) := by
  have hmem : ∀ p, p ∈ rowPairs (x.zip y) ↔ ∃ (i j : ℕ) (hi : i < x.length) (hj : j < x.length), i < j ∧
      p = ((x[i], y[i]), (x[j], y[j])) := by
    intro p
    rw [mem_rowPairs]
    constructor
    · rintro ⟨i, j, hij, h1, h2⟩
      obtain ⟨hi, h1⟩ := List.getElem?_eq_some_iff.1 h1
      obtain ⟨hj, h2⟩ := List.getElem?_eq_some_iff.1 h2
      have hi' : i < x.length := by simp at hi; omega
      have hj' : j < x.length := by simp at hj; omega
      refine ⟨i, j, hi', hj', hij, ?_⟩
      rw [Prod.ext_iff]
      constructor
      · rw [← h1, List.getElem_zip]
      · rw [← h2, List.getElem_zip]
    · rintro ⟨i, j, hi, hj, hij, rfl⟩
      refine ⟨i, j, hij, ?_, ?_⟩
      · rw [List.getElem?_eq_getElem (by simp; omega), List.getElem_zip]
      · rw [List.getElem?_eq_getElem (by simp; omega), List.getElem_zip]
  have hxne : ∀ i j (hi : i < x.length) (hj : j < x.length), i ≠ j → x[i] ≠ x[j] := by
    intro i j hi hj hij e
    exact hij ((hx.getElem_inj_iff).1 e)
  have hyne : ∀ i j (hi : i < y.length) (hj : j < y.length), i ≠ j → y[i] ≠ y[j] := by
    intro i j hi hj hij e
    exact hij ((hy.getElem_inj_iff).1 e)
  have hne : ∀ p ∈ rowPairs (x.zip y), p.1.1 ≠ p.2.1 ∧ p.1.2 ≠ p.2.2 := by
    intro p hp
    obtain ⟨i, j, hi, hj, hij, rfl⟩ := (hmem p).1 hp
    exact ⟨hxne i j hi hj hij.ne, hyne i j (by omega) (by omega) hij.ne⟩
  have hN : 0 < (rowPairs (x.zip y)).length := by
    apply List.length_pos_of_mem (a := ((x[0], y[0]), (x[1], y[1])))
    exact (hmem _).2 ⟨0, 1, by omega, by omega, by omega, rfl⟩
  rw [kendall_eq pval h]
  have f1 : (rowPairs (x.zip y)).filter (fun p => decide (p.1.1 ≠ p.2.1)) = rowPairs (x.zip y) := by
    rw [List.filter_eq_self]
    intro p hp
    simpa using (hne p hp).1
  have f2 : (rowPairs (x.zip y)).filter (fun p => decide (p.1.2 ≠ p.2.2)) = rowPairs (x.zip y) := by
    rw [List.filter_eq_self]
    intro p hp
    simpa using (hne p hp).2
  have hN' : (0 : ℝ) < (rowPairs (x.zip y)).length := by exact_mod_cast hN
  have hs : ∀ p ∈ rowPairs (x.zip y), p.1.1 - p.2.1 ≠ 0 ∧ p.1.2 - p.2.2 ≠ 0 := fun p hp =>
    ⟨sub_ne_zero.2 (hne p hp).1, sub_ne_zero.2 (hne p hp).2⟩
  refine ⟨((rowPairs (x.zip y)).map fun p => sgn (p.1.1 - p.2.1) * sgn (p.1.2 - p.2.2)).sum /
    (rowPairs (x.zip y)).length, ?_, ?_⟩
  · unfold tauB
    simp only [f1, f2]
    rw [if_neg (by omega), Real.sqrt_mul_self hN'.le]
  · rw [div_eq_one_iff_eq hN'.ne', sum_eq_length_iff _ _ fun p hp => (sgn_mul_eq_one (hs p hp).1 (hs p hp).2).1]
    constructor
    · intro hall i j hi hj hlt
      have hij : i ≠ j := by rintro rfl; exact lt_irrefl _ hlt
      rcases lt_or_gt_of_ne hij with hlt' | hlt'
      · have hp := (hmem _).2 ⟨i, j, hi, hj, hlt', rfl⟩
        have := (sgn_mul_eq_one (hs _ hp).1 (hs _ hp).2).2.2.1.1 (hall _ hp)
        simp only [sub_neg] at this
        exact this.1 hlt
      · have hp := (hmem _).2 ⟨j, i, hj, hi, hlt', rfl⟩
        have := (sgn_mul_eq_one (hs _ hp).1 (hs _ hp).2).2.2.1.1 (hall _ hp)
        simp only [sub_neg] at this
        have hn : ¬ y[j] < y[i] := fun hc => lt_asymm hlt (this.2 hc)
        exact lt_of_le_of_ne (not_lt.1 hn) (hyne _ _ _ _ hij)
    · intro hall p hp
      rw [(sgn_mul_eq_one (hs p hp).1 (hs p hp).2).2.2.1]
      obtain ⟨i, j, hi, hj, hij, rfl⟩ := (hmem p).1 hp
      simp only [sub_neg]
      constructor
      · exact hall i j hi hj
      · intro hlt
        by_contra hc
        have := lt_of_le_of_ne (not_lt.1 hc) (hxne _ _ hj hi hij.ne')
        exact lt_asymm hlt (hall j i hj hi this)

/-- C254.  Without ties the result is 1 exactly when the two variables put all observations in the same
order, and -1 exactly when they put them in opposite orders. -/
theorem C254_extremes (pval : List ℝ → List ℝ → Option ℝ) {x y : List ℝ} (h : x.length = y.length)
    (h2 : 2 ≤ x.length) (hx : x.Nodup) (hy : y.Nodup) :
    ∃ t, kendallTauPval pval x y = .ok (some t) ∧
      (t = 1 ↔ ∀ i j (hi : i < x.length) (hj : j < x.length), x[i] < x[j] → y[i] < y[j]) ∧
      (t = -1 ↔ ∀ i j (hi : i < x.length) (hj : j < x.length), x[i] < x[j] → y[j] < y[i]) := by
  obtain ⟨t, ht, h1⟩ := tau_one pval h h2 hx hy
  refine ⟨t, ht, h1, ?_⟩
  obtain ⟨t', ht', h1'⟩ := tau_one pval (y := y.map (- ·)) (by simpa using h) h2 hx (hy.map neg_injective)
  have := (((C160_pval_partial pval x y).2 h).2 _ ht).1
  rw [ht', Option.map_some, Except.ok.injEq, Option.some.injEq] at this
  rw [this, neg_eq_iff_eq_neg] at h1'
  rw [h1']
  simp only [List.getElem_map, neg_lt_neg_iff]

/-- Three observations in the same order. -/
example : kendallTauPval (fun _ _ => none) [1, 5, 2] [10, 30, 20] = .ok (some 1) := by
  obtain ⟨t, ht, h1, -⟩ := C254_extremes (fun _ _ => none) (x := [1, 5, 2]) (y := [10, 30, 20]) rfl (by simp)
    (by norm_num) (by norm_num)
  rw [ht, h1.2]
  intro i j hi hj
  simp only [List.length_cons, List.length_nil] at hi hj
  interval_cases i <;> interval_cases j <;> norm_num

/-! ## C255 -/

/-- C255.  The Durbin-Watson statistic is twice one less the share of the products of neighbours, less the share
of the two ends. -/
theorem C255_identity {e : List ℝ} {d : ℝ} (h : durbinWatson e = some d) :
    d = 2 * (1 - (List.zipWith (· * ·) e e.tail).sum / (e.map (· ^ 2)).sum) -
      (e.headD 0 ^ 2 + e.getLastD 0 ^ 2) / (e.map (· ^ 2)).sum := by
  have key : ∀ (a : ℝ) (l : List ℝ),
      ((List.zipWith (fun a b => b - a) (a :: l) l).map (· ^ 2)).sum =
        2 * ((a :: l).map (· ^ 2)).sum - 2 * (List.zipWith (· * ·) (a :: l) l).sum -
          (a ^ 2 + (a :: l).getLastD 0 ^ 2) := by
    intro a l
    induction l generalizing a with
    | nil => simp; ring
    | cons b l ih =>
      have := ih b
      simp only [List.zipWith_cons_cons, List.map_cons, List.sum_cons, List.getLastD_cons] at this ⊢
      rw [this]
      ring
  unfold durbinWatson fdiv at h
  split at h
  · cases h
  rename_i hne
  cases e with
  | nil => simp at hne
  | cons a l =>
    simp only [Option.some.injEq] at h
    rw [List.tail_cons, key] at h
    rw [← h, List.tail_cons, List.headD_cons]
    field_simp

theorem zip_take_left {A B : Type} (l : List A) (l' : List B) : l.zip l' = l.zip (l'.take l.length) := by
  induction l generalizing l' with
  | nil => simp
  | cons a l ih =>
    cases l' with
    | nil => simp
    | cons b l' => rw [List.length_cons, List.take_succ_cons, List.zip_cons_cons, List.zip_cons_cons, ← ih]

theorem lagged_reverse {A : Type} (s : List A) (k : ℕ) :
    (s.reverse.drop k).zip s.reverse = (((s.drop k).zip s).map Prod.swap).reverse := by
  rw [zip_take_left (s.reverse.drop k), zip_take_left (s.drop k), List.length_drop, List.length_drop,
    List.length_reverse, List.drop_reverse, List.take_reverse, List.zip_swap]
  by_cases h : k ≤ s.length
  · simp only [show s.length - (s.length - k) = k by omega, List.zip]
    rw [← List.reverse_zipWith (by rw [List.length_take, List.length_drop]; omega)]
  · rw [show s.length - k = 0 by omega]
    simp

theorem durbin_sum_reverse (e : List ℝ) :
    ((List.zipWith (fun a b => b - a) e.reverse e.reverse.tail).map (· ^ 2)).sum =
      ((List.zipWith (fun a b => b - a) e e.tail).map (· ^ 2)).sum := by
  have key : ∀ l : List ℝ, ((List.zipWith (fun a b => b - a) l l.tail).map (· ^ 2)).sum =
      (((l.drop 1).zip l).map fun p => (p.1 - p.2) ^ 2).sum := by
    intro l
    rw [List.drop_one, List.zip, List.map_zipWith, List.map_zipWith, List.zipWith_comm]
  rw [key, key, lagged_reverse, List.map_reverse, List.sum_reverse, List.map_map]
  congr 1
  apply List.map_congr_left
  rintro ⟨a, b⟩ -
  simp only [Function.comp, Prod.fst_swap, Prod.snd_swap]
  ring

/-- C255.  The Durbin-Watson statistic is the same in reversed time. -/
theorem C255_durbin_reverse (e : List ℝ) : durbinWatson e.reverse = durbinWatson e := by
  unfold durbinWatson
  rw [durbin_sum_reverse, List.map_reverse, List.sum_reverse]

theorem corrcoef_perm {l l' : List (ℝ × ℝ)} (h : l.Perm l') : corrcoef l = corrcoef l' := by
  have e1 : mean (l.map Prod.fst) = mean (l'.map Prod.fst) := by
    unfold mean
    rw [(h.map _).sum_eq, (h.map _).length_eq]
  have e2 : mean (l.map Prod.snd) = mean (l'.map Prod.snd) := by
    unfold mean
    rw [(h.map _).sum_eq, (h.map _).length_eq]
  unfold corrcoef
  simp only [e1, e2, (h.map _).sum_eq]

theorem corrcoef_swap (l : List (ℝ × ℝ)) : corrcoef (l.map Prod.swap) = corrcoef l := by
  unfold corrcoef
  simp only [List.map_map, Function.comp_def, Prod.fst_swap, Prod.snd_swap]
  simp only [or_comm, mul_comm]

/-- C255.  The autocorrelation at any lag is the same in reversed time. -/
theorem C255_autocorr_reverse (series : List (Option ℝ)) (lag : ℕ) :
    pearsonAutocorr series.reverse lag = pearsonAutocorr series lag := by
  unfold pearsonAutocorr
  rw [← corrcoef_swap (lagPairs series lag)]
  apply corrcoef_perm
  unfold lagPairs
  rw [lagged_reverse, List.filterMap_reverse]
  refine (List.reverse_perm _).trans ?_
  rw [List.filterMap_map, List.map_filterMap]
  apply List.Perm.of_eq
  apply List.filterMap_congr
  rintro ⟨a, b⟩ -
  cases a <;> cases b <;> rfl

/-- The residuals 1, 3, 2 and their reverse. -/
example : durbinWatson [1, 3, 2] = some (5 / 14) ∧ durbinWatson [2, 3, 1] = some (5 / 14) := by
  norm_num [durbinWatson, fdiv]

end FinML.Stats
