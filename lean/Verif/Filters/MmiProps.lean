import Verif.Filters.Props
import Mathlib.Algebra.BigOperators.Ring.Finset

/-! # Properties C56, C57 and C134: market meanness index and Hull moving average -/

set_option linter.unusedSectionVars false

namespace FinML.Filters

variable {K : Type} [Field K] [LinearOrder K] [IsStrictOrderedRing K]

/-! ## The median -/

theorem sorted_countP_lt (s : List K) (hs : s.Pairwise (· ≤ ·)) (k : ℕ) (v : K)
    (hv : ∀ y, s[k]? = some y → v ≤ y) : s.countP (fun x => x < v) ≤ k := by
  rw [← List.take_append_drop k s, List.countP_append]
  have e2 : (s.drop k).countP (fun x => decide (x < v)) = 0 := by
    rw [List.countP_eq_zero]
    intro x hx
    obtain ⟨j, hj, rfl⟩ := List.mem_iff_getElem.1 hx
    rw [List.getElem_drop]
    simp only [decide_eq_true_eq, not_lt]
    have hkj : k + j < s.length := by rw [List.length_drop] at hj; omega
    have h1 := hv (s[k]'(by omega)) (List.getElem?_eq_getElem _)
    rcases Nat.eq_zero_or_pos j with h | h
    · subst h; exact h1
    · exact h1.trans (List.pairwise_iff_getElem.1 hs k (k + j) (by omega) hkj (by omega))
  rw [e2, Nat.add_zero]
  exact (List.countP_le_length).trans (by simp)

theorem sorted_countP_gt (s : List K) (hs : s.Pairwise (· ≤ ·)) (k : ℕ) (v : K) (hk : k < s.length)
    (hv : s[k] ≤ v) : s.countP (fun x => v < x) ≤ s.length - 1 - k := by
  rw [← List.take_append_drop (k + 1) s, List.countP_append]
  have e2 : (s.take (k + 1)).countP (fun x => decide (v < x)) = 0 := by
    rw [List.countP_eq_zero]
    intro x hx
    obtain ⟨j, hj, rfl⟩ := List.mem_iff_getElem.1 hx
    rw [List.getElem_take]
    simp only [decide_eq_true_eq, not_lt]
    have hjk : j < k + 1 := by rw [List.length_take] at hj; omega
    rcases Nat.lt_or_eq_of_le (Nat.lt_succ_iff.1 hjk) with h | h
    · exact (List.pairwise_iff_getElem.1 hs j k (by omega) hk h).trans hv
    · subst h; exact hv
  rw [e2, Nat.zero_add]
  refine (List.countP_le_length).trans ?_
  rw [List.take_append_drop, List.length_drop]
  omega

theorem sort_pairwise (l : List K) : (l.insertionSort (· ≤ ·)).Pairwise (· ≤ ·) :=
  List.pairwise_insertionSort (· ≤ ·) l

theorem sort_eq (l s : List K) (hp : s.Perm l) (hs : s.Pairwise (· ≤ ·)) :
    l.insertionSort (· ≤ ·) = s :=
  ((List.perm_insertionSort (· ≤ ·) l).trans hp.symm).eq_of_pairwise
    (fun _ _ _ _ hab hba => le_antisymm hab hba) (sort_pairwise l) hs

theorem npMedian_sorted (s : List K) (hs : s.Pairwise (· ≤ ·)) (hne : s ≠ []) :
    npMedian s = (s.getD ((s.length - 1) / 2) 0 + s.getD (s.length / 2) 0) / 2 := by
  unfold npMedian
  simp only
  rw [sort_eq s s (List.Perm.refl _) hs]
  have hpos : 0 < s.length := List.length_pos_iff.2 hne
  by_cases h : s.length % 2 = 1
  · rw [if_pos h, show (s.length - 1) / 2 = s.length / 2 by omega]
    ring
  · rw [if_neg h, show (s.length - 1) / 2 = s.length / 2 - 1 by omega]

theorem npMedian_perm (l s : List K) (h : s.Perm l) : npMedian s = npMedian l := by
  unfold npMedian
  simp only
  rw [sort_eq s (l.insertionSort (· ≤ ·)) ((List.perm_insertionSort _ l).trans h.symm) (sort_pairwise l),
    h.length_eq]

/-- C56, the centre: at most half of the values are below the median used by the index and at most
half above it, and it is the mean of two of the values. -/
theorem C56_median (l : List K) (hne : l ≠ []) :
    2 * l.countP (fun x => x < npMedian l) ≤ l.length ∧
    2 * l.countP (fun x => npMedian l < x) ≤ l.length ∧
    ∃ x ∈ l, ∃ y ∈ l, 2 * npMedian l = x + y := by
  have hp := List.perm_insertionSort (· ≤ ·) l
  rw [← npMedian_perm l _ hp, ← hp.countP_eq, ← hp.countP_eq]
  have hs := sort_pairwise l
  have hlen := hp.length_eq
  have hmem := fun x => (hp.mem_iff (a := x)).1
  have hsne : l.insertionSort (· ≤ ·) ≠ [] := by
    intro h; rw [h] at hlen; exact hne (List.length_eq_zero_iff.1 hlen.symm)
  generalize l.insertionSort (· ≤ ·) = s at *
  have hpos : 0 < s.length := List.length_pos_iff.2 hsne
  have h1 : (s.length - 1) / 2 < s.length := by omega
  have h2 : s.length / 2 < s.length := by omega
  have hm := npMedian_sorted s hs hsne
  rw [List.getD_eq_getElem _ _ h1, List.getD_eq_getElem _ _ h2] at hm
  have hle : s[(s.length - 1) / 2] ≤ s[s.length / 2] := by
    rcases Nat.lt_or_eq_of_le (show (s.length - 1) / 2 ≤ s.length / 2 by omega) with h | h
    · exact List.pairwise_iff_getElem.1 hs _ _ h1 h2 h
    · simp only [h]; exact le_rfl
  refine ⟨?_, ?_, s[(s.length - 1) / 2], hmem _ (List.getElem_mem _), s[s.length / 2],
    hmem _ (List.getElem_mem _), by rw [hm]; ring⟩
  · have := sorted_countP_lt s hs (s.length / 2) (npMedian s) (by
      intro y hy
      rw [List.getElem?_eq_getElem h2] at hy
      cases hy
      rw [hm]; linarith)
    omega
  · have := sorted_countP_gt s hs ((s.length - 1) / 2) (npMedian s) h1 (by rw [hm]; linarith)
    omega

theorem npMedian_affine (a c : K) (ha : 0 < a) (l : List K) (hne : l ≠ []) :
    npMedian (l.map fun x => a * x + c) = a * npMedian l + c := by
  have hp := List.perm_insertionSort (· ≤ ·) l
  rw [← npMedian_perm l _ hp, ← npMedian_perm _ _ (hp.map fun x => a * x + c)]
  have hs := sort_pairwise l
  have hlen := hp.length_eq
  have hsne : l.insertionSort (· ≤ ·) ≠ [] := by
    intro h; rw [h] at hlen; exact hne (List.length_eq_zero_iff.1 hlen.symm)
  generalize l.insertionSort (· ≤ ·) = s at *
  have hpos : 0 < s.length := List.length_pos_iff.2 hsne
  have h1 : (s.length - 1) / 2 < s.length := by omega
  have h2 : s.length / 2 < s.length := by omega
  rw [npMedian_sorted s hs hsne, npMedian_sorted _ _ (by simpa using hsne)]
  · rw [List.length_map]
    have hg : ∀ i (hi : i < s.length), (s.map fun x => a * x + c).getD i 0 = a * s.getD i 0 + c := by
      intro i hi
      simp [List.getD_eq_getElem?_getD, hi]
    rw [hg _ h1, hg _ h2]
    ring
  · rw [List.pairwise_map]
    refine hs.imp fun {x y} hxy => ?_
    have := mul_le_mul_of_nonneg_left hxy ha.le
    linarith

theorem npMedian_neg (l : List K) (hne : l ≠ []) : npMedian (l.map fun x => -x) = -npMedian l := by
  have hp := List.perm_insertionSort (· ≤ ·) l
  have hs := sort_pairwise l
  have hlen := hp.length_eq
  have hsne : l.insertionSort (· ≤ ·) ≠ [] := by
    intro h; rw [h] at hlen; exact hne (List.length_eq_zero_iff.1 hlen.symm)
  rw [← npMedian_perm l _ hp]
  rw [← npMedian_perm _ _ ((List.reverse_perm _).trans (hp.map fun x => -x))]
  generalize l.insertionSort (· ≤ ·) = s at *
  have hpos : 0 < s.length := List.length_pos_iff.2 hsne
  have h1 : (s.length - 1) / 2 < s.length := by omega
  have h2 : s.length / 2 < s.length := by omega
  rw [npMedian_sorted s hs hsne, npMedian_sorted _ _ (by simpa using hsne)]
  · rw [List.length_reverse, List.length_map]
    have hg : ∀ i (hi : i < s.length),
        ((s.map fun x => -x).reverse).getD i 0 = -s.getD (s.length - 1 - i) 0 := by
      intro i hi
      rw [List.getD_eq_getElem?_getD, List.getD_eq_getElem?_getD, List.getElem?_reverse (by simpa using hi),
        List.length_map, List.getElem?_map, List.getElem?_eq_getElem (by omega)]
      rfl
    rw [hg _ h1, hg _ h2, show s.length - 1 - (s.length - 1) / 2 = s.length / 2 by omega,
      show s.length - 1 - s.length / 2 = (s.length - 1) / 2 by omega]
    ring
  · rw [List.pairwise_reverse, List.pairwise_map]
    exact hs.imp fun {x y} hxy => neg_le_neg hxy

/-! ## C56 -/

theorem zipWith_tail_map {β : Type} (f g : K → K → β) (h : K → K) (hfg : ∀ b a, f (h b) (h a) = g b a)
    (l : List K) : List.zipWith f (l.map h).tail (l.map h) = List.zipWith g l.tail l := by
  rw [← List.map_tail, List.zipWith_map]
  congr 1
  funext b a
  exact hfg b a

theorem hilo_le (m : K) (l : List K) : nHi m l + nLo m l ≤ l.length - 1 := by
  unfold nHi nLo
  have key : ∀ (p q : List K), (List.zipWith (fun b a => decide (b > m) && decide (b - a > 0)) p q).count true +
      (List.zipWith (fun b a => decide (b < m) && decide (b - a < 0)) p q).count true ≤ p.length := by
    intro p
    induction p with
    | nil => intro q; simp
    | cons b p ih =>
      intro q
      cases q with
      | nil => simp
      | cons a q =>
        rw [List.zipWith_cons_cons, List.zipWith_cons_cons, List.count_cons, List.count_cons,
          List.length_cons]
        have := ih q
        have hex : (if (decide (b > m) && decide (b - a > 0)) == true then 1 else 0) +
            (if (decide (b < m) && decide (b - a < 0)) == true then 1 else 0) ≤ 1 := by
          by_cases h1 : b > m
          · have : ¬ b < m := not_lt.2 (le_of_lt h1)
            simp only [this, decide_false, Bool.false_and]
            split <;> simp
          · simp only [h1, decide_false, Bool.false_and]
            rw [if_neg (by simp), Nat.zero_add]
            split <;> omega
        omega
  have := key l.tail l
  rw [List.length_tail] at this
  exact this

/-- C56.  The index is in [0,1]. -/
theorem C56_fraction (l : List K) (h : 2 ≤ l.length) : ∃ v, mmi l = .ok v ∧ 0 ≤ v ∧ v ≤ 1 := by
  have hne : l ≠ [] := by rintro rfl; simp at h
  have hpos : (0 : K) < ((l.length - 1 : ℕ) : K) := by
    have : 0 < l.length - 1 := by omega
    exact_mod_cast this
  refine ⟨_, by unfold mmi; rw [if_neg (by omega), if_neg (by omega)], ?_, ?_⟩
  · positivity
  · rw [div_le_one hpos]
    exact_mod_cast hilo_le _ l

/-- C56.  One value raises ZeroDivisionError, and a non-empty series has an index exactly when it has two
or more values. -/
theorem C56_defined (l : List K) :
    (mmi l = .error .zeroDivision ↔ l.length = 1) ∧ ((∃ v, mmi l = .ok v) ↔ 2 ≤ l.length) := by
  unfold mmi
  by_cases h0 : l.length = 0
  · rw [if_pos h0, h0]
    simp
  · rw [if_neg h0]
    by_cases h1 : l.length = 1
    · rw [if_pos h1, h1]
      simp
    · rw [if_neg h1]
      refine ⟨⟨fun h => by simp at h, fun h => absurd h h1⟩, fun _ => by omega, fun _ => ⟨_, rfl⟩⟩

example : mmi ([7] : List ℚ) = .error .zeroDivision := (C56_defined [7]).1.2 rfl

theorem mmi_congr (l l' : List K) (hlen : l'.length = l.length)
    (h : nHi (npMedian l') l' + nLo (npMedian l') l' = nHi (npMedian l) l + nLo (npMedian l) l) :
    mmi l' = mmi l := by
  unfold mmi
  rw [hlen, h]

/-- C56.  Shifts and positive scalings do not change the index. -/
theorem C56_affine (a c : K) (ha : 0 < a) (l : List K) :
    mmi (l.map fun x => a * x + c) = mmi l := by
  by_cases hne : l = []
  · subst hne; rfl
  apply mmi_congr _ _ (by simp)
  rw [npMedian_affine a c ha l hne]
  have e1 : nHi (a * npMedian l + c) (l.map fun x => a * x + c) = nHi (npMedian l) l := by
    unfold nHi
    rw [zipWith_tail_map _ (fun b a => decide (b > npMedian l) && decide (b - a > 0))]
    intro y x
    congr 2
    · simp [ha]
    · rw [show a * y + c - (a * x + c) = a * (y - x) by ring]
      simp [ha]
  have e2 : nLo (a * npMedian l + c) (l.map fun x => a * x + c) = nLo (npMedian l) l := by
    unfold nLo
    rw [zipWith_tail_map _ (fun b a => decide (b < npMedian l) && decide (b - a < 0))]
    intro y x
    congr 2
    · simp [ha]
    · rw [show a * y + c - (a * x + c) = a * (y - x) by ring, mul_neg_iff]
      simp [ha, not_lt.2 ha.le]
  rw [e1, e2]

/-- C56.  Negating the series does not change the index. -/
theorem C56_negation (l : List K) : mmi (l.map fun x => -x) = mmi l := by
  by_cases hne : l = []
  · subst hne; rfl
  apply mmi_congr _ _ (by simp)
  rw [npMedian_neg l hne]
  have e1 : nHi (-npMedian l) (l.map fun x => -x) = nLo (npMedian l) l := by
    unfold nHi nLo
    rw [zipWith_tail_map _ (fun b a => decide (b < npMedian l) && decide (b - a < 0))]
    intro y x
    congr 2
    · simp
    · rw [show -y - -x = -(y - x) by ring]
      simp only [gt_iff_lt, Left.neg_pos_iff]
  have e2 : nLo (-npMedian l) (l.map fun x => -x) = nHi (npMedian l) l := by
    unfold nHi nLo
    rw [zipWith_tail_map _ (fun b a => decide (b > npMedian l) && decide (b - a > 0))]
    intro y x
    congr 2
    · simp
    · rw [show -y - -x = -(y - x) by ring]
      simp only [gt_iff_lt, Left.neg_neg_iff]
  rw [e1, e2, Nat.add_comm]

example : mmi [(1 : ℚ), 3, 2, 5, 1] = .ok (3 / 4) := by decide +kernel

/-! ## C134 -/

/-- C134.  A strictly rising series of length `n` has index `⌊n/2⌋ / (n-1)`. -/
theorem C134_trend (l : List K) (h : 2 ≤ l.length) (hinc : l.Pairwise (· < ·)) :
    mmi l = .ok (((l.length / 2 : ℕ) : K) / ((l.length - 1 : ℕ) : K)) := by
  have hne : l ≠ [] := by rintro rfl; simp at h
  have hle : l.Pairwise (· ≤ ·) := hinc.imp le_of_lt
  have h1 : (l.length - 1) / 2 < l.length := by omega
  have h2 : l.length / 2 < l.length := by omega
  have hm := npMedian_sorted l hle hne
  rw [List.getD_eq_getElem _ _ h1, List.getD_eq_getElem _ _ h2] at hm
  unfold mmi
  rw [if_neg (by omega), if_neg (by omega)]
  have hlo : nLo (npMedian l) l = 0 := by
    unfold nLo
    rw [List.count_eq_zero]
    intro hmem
    obtain ⟨i, hi, heq⟩ := List.mem_iff_getElem.1 hmem
    rw [List.getElem_zipWith] at heq
    simp only [List.length_zipWith, List.length_tail] at hi
    have := List.pairwise_iff_getElem.1 hinc i (i + 1) (by omega) (by omega) (by omega)
    simp only [List.getElem_tail, Bool.and_eq_true, decide_eq_true_eq] at heq
    linarith [heq.2]
  have hhi : nHi (npMedian l) l = l.length / 2 := by
    unfold nHi
    have hz : List.zipWith (fun b a => decide (b > npMedian l) && decide (b - a > 0)) l.tail l =
        (List.range (l.length - 1)).map fun i : ℕ => decide ((l.length - 1) / 2 ≤ i) := by
      apply List.ext_getElem
      · simp
      · intro i hi1 hi2
        have hi : i < l.length - 1 := by simpa using hi2
        have hstep := List.pairwise_iff_getElem.1 hinc i (i + 1) (by omega) (by omega) (by omega)
        rw [List.getElem_zipWith, List.getElem_map, List.getElem_range, List.getElem_tail]
        rw [show decide (l[i + 1] - l[i] > 0) = true by simp [hstep], Bool.and_true, decide_eq_decide]
        have hmono : ∀ p q (hp : p < l.length) (hq : q < l.length), p ≤ q → l[p] ≤ l[q] := by
          intro p q hp hq hpq
          rcases Nat.lt_or_eq_of_le hpq with hh | hh
          · exact List.pairwise_iff_getElem.1 hle p q hp hq hh
          · subst hh; exact le_rfl
        have hsm : ∀ p q (hp : p < l.length) (hq : q < l.length), p < q → l[p] < l[q] := by
          intro p q hp hq hpq
          exact List.pairwise_iff_getElem.1 hinc p q hp hq hpq
        constructor
        · intro hgt
          rw [gt_iff_lt] at hgt
          by_contra hc
          have e1 := hmono (i + 1) ((l.length - 1) / 2) (by omega) h1 (by omega)
          have e2 := hmono (i + 1) (l.length / 2) (by omega) h2 (by omega)
          linarith
        · intro hge
          have e1 := hsm ((l.length - 1) / 2) (i + 1) h1 (by omega) (by omega)
          rcases Nat.lt_or_ge (l.length / 2) (i + 1) with hh | hh
          · have e2 := hsm (l.length / 2) (i + 1) h2 (by omega) hh
            linarith
          · have e2 := hmono (l.length / 2) (i + 1) h2 (by omega) (by omega)
            linarith
    rw [hz]
    have hcount : ∀ n k : ℕ, k ≤ n →
        ((List.range n).map fun i : ℕ => decide (k ≤ i)).count true = n - k := by
      intro n
      induction n with
      | zero => intro k hk; simp
      | succ n ih =>
        intro k hk
        rw [List.range_succ, List.map_append, List.count_append]
        rcases Nat.lt_or_eq_of_le hk with hh | hh
        · rw [ih k (by omega)]
          simp [show k ≤ n by omega]
          omega
        · subst hh
          have e0 : ((List.range n).map fun i : ℕ => decide (n + 1 ≤ i)).count true = 0 := by
            rw [List.count_eq_zero]
            intro hm
            obtain ⟨i, hi, hi'⟩ := List.mem_map.1 hm
            rw [List.mem_range] at hi
            simp only [decide_eq_true_eq] at hi'
            omega
          rw [e0]
          simp
    rw [hcount _ _ (by omega)]
    omega
  rw [hhi, hlo, Nat.add_zero]

/-- C134.  A series that crosses its median at every step has index 1. -/
theorem C134_reversion (l : List K) (h : 2 ≤ l.length)
    (hcross : ∀ i (hi : i + 1 < l.length), (l[i] < npMedian l ∧ npMedian l < l[i + 1]) ∨
      (npMedian l < l[i] ∧ l[i + 1] < npMedian l)) : mmi l = .ok 1 := by
  have hne : l ≠ [] := by rintro rfl; simp at h
  have hpos : ((l.length - 1 : ℕ) : K) ≠ 0 := by
    have : l.length - 1 ≠ 0 := by omega
    exact_mod_cast this
  unfold mmi
  rw [if_neg (by omega), if_neg (by omega)]
  have key : nHi (npMedian l) l + nLo (npMedian l) l = l.length - 1 := by
    unfold nHi nLo
    generalize npMedian l = m at hcross
    clear hne hpos h
    induction l with
    | nil => simp
    | cons a l ih =>
      cases l with
      | nil => simp
      | cons b l =>
        have ih' := ih (fun i hi => hcross (i + 1) (by simpa using hi))
        have h0 := hcross 0 (by simp)
        simp only [List.getElem_cons_zero, List.getElem_cons_succ, Nat.zero_add] at h0
        simp only [List.tail_cons] at ih' ⊢
        rw [List.zipWith_cons_cons, List.zipWith_cons_cons, List.count_cons, List.count_cons]
        rw [List.length_cons, List.length_cons] at *
        rcases h0 with ⟨e1, e2⟩ | ⟨e1, e2⟩
        · have e3 : ¬ b < m := not_lt.2 e2.le
          have e4 : b - a > 0 := by linarith
          simp only [gt_iff_lt, e2, decide_true, e4, Bool.and_self, beq_self_eq_true, if_true, e3,
            decide_false, Bool.false_and]
          simp only [gt_iff_lt] at ih'
          rw [if_neg (by simp)]
          omega
        · have e3 : ¬ b > m := not_lt.2 e2.le
          have e4 : b - a < 0 := by linarith
          simp only [e2, decide_true, e4, Bool.and_self, beq_self_eq_true, if_true, e3,
            decide_false, Bool.false_and]
          rw [if_neg (by simp)]
          omega
  rw [key, div_self hpos]

example : mmi [(1 : ℚ), 2, 3, 4, 5, 6] = .ok (3 / 5) ∧ mmi [(1 : ℚ), 4, 2, 5, 1, 4] = .ok 1 ∧
    npMedian [(1 : ℚ), 4, 2, 5, 1, 4] = 3 := by decide +kernel

/-! ## C57 -/

/-- The mean of the `w` values ending at position `i`. -/
def ma (w : ℕ) (f : ℕ → K) (i : ℕ) : K := (∑ j ∈ Finset.range w, f (i + 1 - w + j)) / (w : K)

theorem meanW_map (w : ℕ) (g : ℕ → K) :
    meanW w ((List.range w).map g) = (∑ j ∈ Finset.range w, g j) / (w : K) := by
  unfold meanW
  rw [list_range_map_sum]

/-- C57, value.  Missing exactly in the first `n + ⌊√n⌋ - 2` positions; elsewhere the mean over
`⌊√n⌋` positions of twice the short mean minus the long mean. -/
theorem C57_value (series : List K) (n : ℕ) (hn : 2 ≤ n) :
    ∃ h, hullMa series n = .ok h ∧
      Has h series.length (n + Nat.sqrt n - 2)
        (ma (Nat.sqrt n) fun i => 2 * ma (n / 2) (fun j => series.getD j 0) i -
          ma n (fun j => series.getD j 0) i) := by
  have hsq : 1 ≤ Nat.sqrt n := Nat.sqrt_pos.2 (by omega)
  have h0 := has_map_some series 0
  have h1 := has_rolling h0 (n / 2) (by omega) (meanW (n / 2))
  have h2 := has_rolling h0 n (by omega) (meanW n)
  have h3 := has_zipO (fun s l : K => 2 * s - l) h1 h2
  have h4 := has_rolling h3 (Nat.sqrt n) hsq (meanW (Nat.sqrt n))
  refine ⟨_, by unfold hullMa; rw [if_neg (by omega)], ?_⟩
  rw [show max (0 + n / 2 - 1) (0 + n - 1) + Nat.sqrt n - 1 = n + Nat.sqrt n - 2 by
    have : max (0 + n / 2 - 1) (0 + n - 1) = n - 1 := by omega
    rw [this]; omega] at h4
  refine has_congr h4 ?_
  intro i _ _
  simp only [meanW_map]
  rfl

theorem ma_affine (w : ℕ) (hw : 1 ≤ w) (a b : K) (f : ℕ → K) (i : ℕ) :
    ma w (fun j => a * f j + b) i = a * ma w f i + b := by
  unfold ma
  have : (w : K) ≠ 0 := by exact_mod_cast (by omega : w ≠ 0)
  rw [Finset.sum_add_distrib, ← Finset.mul_sum, Finset.sum_const, Finset.card_range, nsmul_eq_mul]
  field_simp

/-- C57.  The average commutes with affine changes of the values. -/
theorem C57_affine (series : List K) (n : ℕ) (hn : 2 ≤ n) (a b : K) :
    ∃ h h', hullMa series n = .ok h ∧ hullMa (series.map fun x => a * x + b) n = .ok h' ∧
      h' = h.map (Option.map fun x => a * x + b) := by
  have hsq : 1 ≤ Nat.sqrt n := Nat.sqrt_pos.2 (by omega)
  obtain ⟨h, e1, e2⟩ := C57_value series n hn
  obtain ⟨h', e1', e2'⟩ := C57_value (series.map fun x => a * x + b) n hn
  refine ⟨h, h', e1, e1', ?_⟩
  rw [List.length_map] at e2'
  refine has_unique e2' (has_congr (has_map e2 _) ?_)
  intro i hi hlo
  have hcong : ∀ (w : ℕ) (f g : ℕ → K) (i : ℕ), (∀ j, i + 1 - w ≤ j → j < i + 1 - w + w → f j = g j) →
      ma w f i = ma w g i := by
    intro w f g i hfg
    unfold ma
    congr 1
    refine Finset.sum_congr rfl ?_
    intro j hj
    rw [Finset.mem_range] at hj
    exact hfg _ (by omega) (by omega)
  rw [← ma_affine _ hsq]
  refine hcong _ _ _ _ ?_
  intro p hp1 hp2
  have hget : ∀ j, j < series.length → (series.map fun x => a * x + b).getD j 0 =
      a * series.getD j 0 + b := by
    intro j hj
    simp [List.getD_eq_getElem?_getD, hj]
  rw [hcong (n / 2) _ (fun j => a * series.getD j 0 + b) p (fun j _ h2 => hget j (by omega)),
    hcong n _ (fun j => a * series.getD j 0 + b) p (fun j _ h2 => hget j (by omega)),
    ma_affine _ (by omega), ma_affine _ (by omega)]
  ring

/-- C57.  A constant series is reproduced. -/
theorem C57_constant (c : K) (m n : ℕ) (hn : 2 ≤ n) :
    ∃ h, hullMa (List.replicate m c) n = .ok h ∧ Has h m (n + Nat.sqrt n - 2) (fun _ => c) := by
  have hsq : 1 ≤ Nat.sqrt n := Nat.sqrt_pos.2 (by omega)
  obtain ⟨h, e1, e2⟩ := C57_value (List.replicate m c) n hn
  refine ⟨h, e1, ?_⟩
  rw [List.length_replicate] at e2
  refine has_congr e2 ?_
  intro i hi hlo
  have hc : ∀ (w : ℕ) (f : ℕ → K) (i : ℕ), 1 ≤ w →
      (∀ j, i + 1 - w ≤ j → j < i + 1 - w + w → f j = c) → ma w f i = c := by
    intro w f i hw hf
    unfold ma
    have hw0 : (w : K) ≠ 0 := by exact_mod_cast (by omega : w ≠ 0)
    rw [Finset.sum_congr rfl (g := fun _ => c) (fun j hj => hf _ (by omega)
      (by rw [Finset.mem_range] at hj; omega)), Finset.sum_const, Finset.card_range, nsmul_eq_mul]
    field_simp
  have hr : ∀ j, j < m → (List.replicate m c).getD j 0 = c := by
    intro j hj
    simp [List.getD_eq_getElem?_getD, hj]
  refine hc _ _ _ hsq ?_
  intro p hp1 hp2
  rw [hc (n / 2) _ p (by omega) (fun j _ h2 => hr j (by omega)),
    hc n _ p (by omega) (fun j _ h2 => hr j (by omega))]
  ring

/-- C57.  On a linear trend the average for even `n` is the trend delayed by `(⌊√n⌋ - 2) / 2`. -/
theorem C57_lag (slope icept : K) (m n : ℕ) (hn : 2 ≤ n) (heven : n % 2 = 0) :
    ∃ h, hullMa ((List.range m).map fun t : ℕ => slope * (t : K) + icept) n = .ok h ∧
      Has h m (n + Nat.sqrt n - 2)
        (fun t => slope * ((t : K) - ((Nat.sqrt n : K) - 2) / 2) + icept) := by
  have hsq : 1 ≤ Nat.sqrt n := Nat.sqrt_pos.2 (by omega)
  obtain ⟨h, e1, e2⟩ := C57_value ((List.range m).map fun t : ℕ => slope * (t : K) + icept) n hn
  refine ⟨h, e1, ?_⟩
  rw [List.length_map, List.length_range] at e2
  refine has_congr e2 ?_
  intro i hi hlo
  have hlin : ∀ (w : ℕ) (f : ℕ → K) (q : K) (i : ℕ), 1 ≤ w → w ≤ i + 1 →
      (∀ j, i + 1 - w ≤ j → j < i + 1 - w + w → f j = slope * ((j : K) + q) + icept) →
      ma w f i = slope * ((i : K) + q - ((w : K) - 1) / 2) + icept := by
    intro w f q i hw hwi hf
    unfold ma
    have hw0 : (w : K) ≠ 0 := by exact_mod_cast (by omega : w ≠ 0)
    have hrw : ∑ j ∈ Finset.range w, f (i + 1 - w + j) =
        ∑ j ∈ Finset.range w, (slope * ((j : K) + (((i + 1 - w : ℕ) : K) + q)) + icept) := by
      refine Finset.sum_congr rfl ?_
      intro j hj
      rw [hf _ (by omega) (by rw [Finset.mem_range] at hj; omega)]
      push_cast
      ring
    rw [hrw]
    have hsum : ∀ (w : ℕ) (c : K), (∑ j ∈ Finset.range w, (slope * ((j : K) + c) + icept)) =
        (w : K) * (slope * (c + ((w : K) - 1) / 2) + icept) := by
      intro w c
      induction w with
      | zero => simp
      | succ w ih => rw [Finset.sum_range_succ, ih]; push_cast; ring
    rw [hsum]
    have hc : ((i + 1 - w : ℕ) : K) = (i : K) + 1 - (w : K) := by
      rw [Nat.cast_sub hwi]; push_cast; ring
    rw [hc]
    field_simp
    ring
  have hr : ∀ j, j < m → ((List.range m).map fun t : ℕ => slope * (t : K) + icept).getD j 0 =
      slope * ((j : K) + 0) + icept := by
    intro j hj
    simp [List.getD_eq_getElem?_getD, hj]
  have hhalf : ((n / 2 : ℕ) : K) = (n : K) / 2 := by
    have : (n : K) = ((2 * (n / 2) : ℕ) : K) := by
      congr 1; omega
    rw [this]; push_cast; ring
  rw [hlin (Nat.sqrt n) _ (1 / 2) i hsq (by omega)]
  · ring
  · intro p hp1 hp2
    have hpn : n ≤ p + 1 := by omega
    rw [hlin (n / 2) _ 0 p (by omega) (by omega) (fun j _ h2 => hr j (by omega)),
      hlin n _ 0 p (by omega) (by omega) (fun j _ h2 => hr j (by omega)), hhalf]
    ring

example : hullMa [(0 : ℚ), 1, 2, 3, 4, 5, 6] 4 =
    .ok [none, none, none, none, some 4, some 5, some 6] := by decide +kernel

end FinML.Filters
