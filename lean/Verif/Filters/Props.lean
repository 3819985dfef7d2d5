import Verif.Filters.Model
import Verif.Filters.Spec
import Verif.Py.Lemmas
import Mathlib.Tactic.FieldSimp
import Mathlib.Tactic.Positivity
import Mathlib.Data.List.GetD
import Mathlib.Data.Rat.Floor

/-! # Properties C53-C55: the CUSUM filter -/

set_option linter.unusedSectionVars false

namespace FinML.Filters

variable {K : Type} [Field K] [LinearOrder K] [IsStrictOrderedRing K]

/-! ## The loop over positions -/

/-- Invariant: at position `i`, with the last reset at `r`, the sums are the rise above the minimum
and the fall below the maximum since the reset. -/
def Inv (x : ℕ → K) (thr : K) (r i : ℕ) (pos neg : K) : Prop :=
  r ≤ i ∧ Quiet x thr r (i + 1) ∧
  (∃ s, r ≤ s ∧ s ≤ i ∧ pos = x i - x s) ∧ (∀ s, r ≤ s → s ≤ i → x i - x s ≤ pos) ∧
  (∃ s, r ≤ s ∧ s ≤ i ∧ neg = x i - x s) ∧ (∀ s, r ≤ s → s ≤ i → neg ≤ x i - x s)

theorem inv_reset (x : ℕ → K) (thr : K) (i : ℕ) : Inv x thr i i 0 0 := by
  refine ⟨le_rfl, ?_, ⟨i, le_rfl, le_rfl, by ring⟩, ?_, ⟨i, le_rfl, le_rfl, by ring⟩, ?_⟩
  · intro s t h1 h2 h3; omega
  · intro s h1 h2; have : s = i := by omega
    subst this; simp
  · intro s h1 h2; have : s = i := by omega
    subst this; simp

theorem inv_step (x : ℕ → K) (thr : K) (r i : ℕ) (pos neg : K) (h : Inv x thr r i pos neg) :
    (∃ s, r ≤ s ∧ s ≤ i + 1 ∧ max 0 (pos + (x (i + 1) - x i)) = x (i + 1) - x s) ∧
    (∀ s, r ≤ s → s ≤ i + 1 → x (i + 1) - x s ≤ max 0 (pos + (x (i + 1) - x i))) ∧
    (∃ s, r ≤ s ∧ s ≤ i + 1 ∧ min 0 (neg + (x (i + 1) - x i)) = x (i + 1) - x s) ∧
    (∀ s, r ≤ s → s ≤ i + 1 → min 0 (neg + (x (i + 1) - x i)) ≤ x (i + 1) - x s) := by
  obtain ⟨hr, -, ⟨s1, a1, b1, c1⟩, hpos, ⟨s2, a2, b2, c2⟩, hneg⟩ := h
  refine ⟨?_, ?_, ?_, ?_⟩
  · rcases le_total 0 (pos + (x (i + 1) - x i)) with h | h
    · exact ⟨s1, a1, by omega, by rw [max_eq_right h, c1]; ring⟩
    · exact ⟨i + 1, by omega, le_rfl, by rw [max_eq_left h]; ring⟩
  · intro s h1 h2
    rcases Nat.lt_or_eq_of_le h2 with h3 | h3
    · have := hpos s h1 (by omega)
      refine le_trans ?_ (le_max_right _ _)
      linarith
    · subst h3; simp
  · rcases le_total 0 (neg + (x (i + 1) - x i)) with h | h
    · exact ⟨i + 1, by omega, le_rfl, by rw [min_eq_left h]; ring⟩
    · exact ⟨s2, a2, by omega, by rw [min_eq_right h, c2]; ring⟩
  · intro s h1 h2
    rcases Nat.lt_or_eq_of_le h2 with h3 | h3
    · have := hneg s h1 (by omega)
      refine le_trans (min_le_right _ _) ?_
      linarith
    · subst h3; simp

/-- The loop as a fold over positions. -/
def posFold (x : ℕ → K) (lab : ℕ → ℤ) (thr : K) (s : Cusum K) (js : List ℕ) : Cusum K :=
  js.foldl (fun s j => cusumStep thr s (lab j) (x j - x (j - 1))) s

theorem posFold_segmented (x : ℕ → K) (lab : ℕ → ℤ) (thr : K) (hthr : 0 ≤ thr) (m : ℕ) :
    ∀ (r i : ℕ) (s : Cusum K), Inv x thr r i s.pos s.neg →
      ∃ ps, (posFold x lab thr s (List.range' (i + 1) m)).events = s.events ++ ps.map lab ∧
        Segmented x thr (i + 1 + m) r ps ∧ ∀ p ∈ ps, i < p := by
  induction m with
  | zero =>
    intro r i s h
    exact ⟨[], by simp [posFold], h.2.1, by simp⟩
  | succ m ih =>
    intro r i s h
    have hst := inv_step x thr r i s.pos s.neg h
    obtain ⟨hr, hq, -⟩ := h
    unfold posFold
    rw [List.range'_succ, List.foldl_cons]
    have hii : i + 1 - 1 = i := by omega
    rw [hii]
    have hn : i + 1 + (m + 1) = i + 1 + 1 + m := by omega
    rw [hn]
    obtain ⟨⟨s1, a1, b1, c1⟩, hpos, ⟨s2, a2, b2, c2⟩, hneg⟩ := hst
    set P := max 0 (s.pos + (x (i + 1) - x i)) with hP
    set N := min 0 (s.neg + (x (i + 1) - x i)) with hN
    have hstep : cusumStep thr s (lab (i + 1)) (x (i + 1) - x i) =
        if N < -thr then ⟨P, 0, s.events ++ [lab (i + 1)]⟩
        else if P > thr then ⟨0, N, s.events ++ [lab (i + 1)]⟩
        else ⟨P, N, s.events⟩ := rfl
    have hP0 : 0 ≤ P := le_max_left _ _
    have hN0 : N ≤ 0 := min_le_left _ _
    have hevent : ∀ s3, r ≤ s3 → s3 ≤ i → thr < |x (i + 1) - x s3| → ∀ st : Cusum K,
        st = ⟨0, 0, s.events ++ [lab (i + 1)]⟩ →
        ∃ ps, (List.foldl (fun s j => cusumStep thr s (lab j) (x j - x (j - 1))) st
          (List.range' (i + 1 + 1) m)).events = s.events ++ ps.map lab ∧
          Segmented x thr (i + 1 + 1 + m) r ps ∧ ∀ p ∈ ps, i < p := by
      intro s3 h1 h2 h3 st hst
      obtain ⟨ps, e1, e2, e3⟩ := ih (i + 1) (i + 1) st (by rw [hst]; exact inv_reset x thr (i + 1))
      refine ⟨(i + 1) :: ps, ?_, ?_, ?_⟩
      · unfold posFold at e1
        rw [e1, hst]
        simp
      · exact ⟨by omega, by omega, hq, ⟨s3, h1, by omega, h3⟩, e2⟩
      · intro p hp
        rcases List.mem_cons.1 hp with rfl | hp
        · omega
        · have := e3 p hp; omega
    by_cases h1 : N < -thr
    · have hs2 : s2 ≤ i := by
        by_contra hc
        have : s2 = i + 1 := by omega
        rw [this] at c2
        simp only [sub_self] at c2
        linarith
      have hP00 : P = 0 := by
        by_contra hne
        have hPpos : 0 < P := lt_of_le_of_ne hP0 (Ne.symm hne)
        have hs1 : s1 ≤ i := by
          by_contra hc
          have : s1 = i + 1 := by omega
          rw [this] at c1
          simp only [sub_self] at c1
          linarith
        have hgap : thr < x s2 - x s1 := by linarith
        rcases lt_trichotomy s1 s2 with h | h | h
        · have := (abs_le.1 (hq s1 s2 a1 h (by omega))).2
          linarith
        · subst h; linarith
        · have := (abs_le.1 (hq s2 s1 a2 h (by omega))).1
          linarith
      rw [hstep, if_pos h1, hP00]
      refine hevent s2 a2 hs2 ?_ _ rfl
      rw [lt_abs]
      right
      linarith
    · rw [hstep, if_neg h1]
      by_cases h2 : P > thr
      · have hs1 : s1 ≤ i := by
          by_contra hc
          have : s1 = i + 1 := by omega
          rw [this] at c1
          simp only [sub_self] at c1
          linarith
        have hN00 : N = 0 := by
          by_contra hne
          have hNneg : N < 0 := lt_of_le_of_ne hN0 hne
          have hs2 : s2 ≤ i := by
            by_contra hc
            have : s2 = i + 1 := by omega
            rw [this] at c2
            simp only [sub_self] at c2
            linarith
          have hgap : thr < x s2 - x s1 := by linarith
          rcases lt_trichotomy s1 s2 with h | h | h
          · have := (abs_le.1 (hq s1 s2 a1 h (by omega))).2
            linarith
          · subst h; linarith
          · have := (abs_le.1 (hq s2 s1 a2 h (by omega))).1
            linarith
        rw [if_pos h2, hN00]
        refine hevent s1 a1 hs1 ?_ _ rfl
        rw [lt_abs]
        left
        linarith
      · rw [if_neg h2]
        obtain ⟨ps, e1, e2, e3⟩ := ih r (i + 1) ⟨P, N, s.events⟩ (by
          refine ⟨by omega, ?_, ⟨s1, a1, b1, c1⟩, hpos, ⟨s2, a2, b2, c2⟩, hneg⟩
          intro u v hu huv hv
          rcases Nat.lt_or_eq_of_le (Nat.lt_succ_iff.1 hv) with h | h
          · exact hq u v hu huv h
          · subst h
            rw [abs_le]
            exact ⟨by linarith [hneg u hu (by omega)], by linarith [hpos u hu (by omega)]⟩)
        refine ⟨ps, e1, e2, ?_⟩
        intro p hp
        have := e3 p hp
        omega

/-! ## From labels to positions -/

theorem diffs_getElem (series : List K) (j : ℕ) (hj : j + 1 < series.length) :
    (diffs series)[j + 1]? = some (some (series.getD (j + 1) 0 - series.getD j 0)) := by
  cases series with
  | nil => simp at hj
  | cons a l =>
    have h1 : j < l.length := by simpa using hj
    unfold diffs
    rw [List.getElem?_cons_succ, List.getElem?_zipWith, List.getElem?_eq_getElem h1,
      List.getElem?_eq_getElem (by simp; omega)]
    simp only [List.getD_cons_succ]
    rw [List.getD_eq_getElem?_getD, List.getD_eq_getElem?_getD, List.getElem?_eq_getElem h1,
      List.getElem?_eq_getElem (by simp; omega)]
    simp

theorem diffs_length (series : List K) : (diffs series).length = series.length := by
  cases series <;> simp [diffs]

theorem filter_label {β : Type} (index : List ℤ) (d : List β) (hn : index.Nodup) (j : ℕ) (t : ℤ) (v : β)
    (ht : index[j]? = some t) (hv : d[j]? = some v) :
    ((index.zip d).filter fun p => p.1 = t).map Prod.snd = [v] := by
  induction index generalizing d j with
  | nil => simp at ht
  | cons a l ih =>
    rw [List.nodup_cons] at hn
    cases d with
    | nil => simp at hv
    | cons b d =>
      rw [List.zip_cons_cons]
      cases j with
      | zero =>
        simp only [List.getElem?_cons_zero, Option.some.injEq] at ht hv
        subst ht hv
        rw [List.filter_cons_of_pos (by simp), List.map_cons]
        congr 1
        rw [List.map_eq_nil_iff, List.filter_eq_nil_iff]
        rintro ⟨u, w⟩ hp
        have := (List.of_mem_zip hp).1
        simp only [decide_eq_true_eq]
        rintro rfl
        exact hn.1 this
      | succ j =>
        rw [List.getElem?_cons_succ] at ht hv
        rw [List.filter_cons_of_neg, ih d hn.2 j ht hv]
        simp only [decide_eq_true_eq]
        rintro rfl
        exact hn.1 (List.mem_of_getElem? ht)

theorem locDiff_eq (index : List ℤ) (series : List K) (hlen : index.length = series.length)
    (hn : index.Nodup) (j : ℕ) (hj : j + 1 < series.length) :
    locDiff index (diffs series) (index.getD (j + 1) 0) =
      .ok (series.getD (j + 1) 0 - series.getD j 0) := by
  unfold locDiff
  rw [filter_label index (diffs series) hn (j + 1) (index.getD (j + 1) 0)
    (some (series.getD (j + 1) 0 - series.getD j 0))]
  · rw [List.getD_eq_getElem?_getD (l := index), List.getElem?_eq_getElem (by omega)]
    rfl
  · exact diffs_getElem series j hj

theorem cusumLoop_eq (index : List ℤ) (series : List K) (thr : K)
    (hlen : index.length = series.length) (hn : index.Nodup) (m : ℕ) :
    ∀ (i : ℕ) (s : Cusum K), i + 1 + m = series.length →
      cusumLoop index (diffs series) thr
        ((List.range' (i + 1) m).map fun j : ℕ => index.getD j 0) s =
      .ok (posFold (fun j => series.getD j 0) (fun j => index.getD j 0) thr s (List.range' (i + 1) m)) := by
  induction m with
  | zero => intro i s _; simp [cusumLoop, posFold]
  | succ m ih =>
    intro i s h
    rw [List.range'_succ, List.map_cons]
    unfold cusumLoop
    rw [locDiff_eq index series hlen hn i (by omega), py_bind_ok, ih (i + 1) _ (by omega)]
    unfold posFold
    rw [List.foldl_cons]
    have hii : i + 1 - 1 = i := by omega
    rw [hii]

theorem tail_eq_range' (index : List ℤ) :
    index.tail = (List.range' 1 (index.length - 1)).map fun j : ℕ => index.getD j 0 := by
  apply List.ext_getElem?
  intro i
  rw [List.getElem?_tail]
  by_cases hi : i + 1 < index.length
  · rw [List.getElem?_map, List.getElem?_range' (by omega), List.getElem?_eq_getElem hi]
    simp [List.getD_eq_getElem?_getD, Nat.add_comm 1 i, hi]
  · rw [List.getElem?_eq_none (by omega), List.getElem?_eq_none (by simp; omega)]

/-- The filter succeeds on unique labels and its events are a segmentation. -/
theorem filterCusum_segmented (index : List ℤ) (series : List K) (thr : K) (hthr : 0 ≤ thr)
    (hlen : index.length = series.length) (hn : index.Nodup) (hne : series ≠ []) :
    ∃ ps, filterCusum index series thr = .ok (ps.map fun p : ℕ => index.getD p 0) ∧
      Segmented (fun j => series.getD j 0) thr series.length 0 ps := by
  have hpos : 0 < series.length := List.length_pos_iff.2 hne
  obtain ⟨ps, h1, h2, -⟩ := posFold_segmented (fun j => series.getD j 0) (fun j => index.getD j 0) thr
    hthr (series.length - 1) 0 0 ⟨0, 0, []⟩ (inv_reset _ thr 0)
  refine ⟨ps, ?_, ?_⟩
  · unfold filterCusum
    rw [tail_eq_range', hlen]
    have := cusumLoop_eq index series thr hlen hn (series.length - 1) 0 ⟨0, 0, []⟩ (by omega)
    simp only [Nat.zero_add] at this h1
    rw [this, py_bind_ok, h1]
    rfl
  · have : 0 + 1 + (series.length - 1) = series.length := by omega
    rw [this] at h2
    exact h2

theorem segmented_sorted (x : ℕ → K) (thr : K) (n : ℕ) (ps : List ℕ) :
    ∀ r, Segmented x thr n r ps → (r :: ps).Pairwise (· < ·) ∧ ∀ p ∈ ps, p < n := by
  induction ps with
  | nil => intro r _; simp
  | cons p ps ih =>
    rintro r ⟨h1, h2, -, -, h5⟩
    obtain ⟨h6, h7⟩ := ih p h5
    constructor
    · rw [List.pairwise_cons]
      refine ⟨?_, h6⟩
      intro q hq
      rcases List.mem_cons.1 hq with rfl | hq
      · exact h1
      · exact h1.trans (List.rel_of_pairwise_cons h6 hq)
    · intro q hq
      rcases List.mem_cons.1 hq with rfl | hq
      · exact h2
      · exact h7 q hq

theorem segmented_at (x : ℕ → K) (thr : K) (n : ℕ) (ps : List ℕ) :
    ∀ r, Segmented x thr n r ps → ∀ (k : ℕ) a, (r :: ps)[k]? = some a →
      (∀ b, ps[k]? = some b → Quiet x thr a b ∧ ∃ s, a ≤ s ∧ s < b ∧ thr < |x b - x s|) ∧
      (ps[k]? = none → Quiet x thr a n) := by
  induction ps with
  | nil =>
    intro r h k a hk
    cases k with
    | zero => cases hk; exact ⟨by simp, fun _ => h⟩
    | succ k => simp at hk
  | cons p ps ih =>
    rintro r ⟨h1, h2, h3, h4, h5⟩ k a hk
    cases k with
    | zero =>
      cases hk
      refine ⟨?_, by simp⟩
      intro b hb
      cases hb
      exact ⟨h3, h4⟩
    | succ k => exact ih p h5 k a hk

/-- A series has one segmentation only. -/
theorem segmented_unique (x : ℕ → K) (thr : K) (n : ℕ) (ps : List ℕ) :
    ∀ r qs, Segmented x thr n r ps → Segmented x thr n r qs → ps = qs := by
  induction ps with
  | nil =>
    intro r qs h h'
    cases qs with
    | nil => rfl
    | cons q qs =>
      obtain ⟨h1, h2, -, ⟨s, h3, h4, h5⟩, -⟩ := h'
      exact absurd (h s q h3 h4 h2) (not_le.2 h5)
  | cons p ps ih =>
    intro r qs h h'
    cases qs with
    | nil =>
      obtain ⟨h1, h2, -, ⟨s, h3, h4, h5⟩, -⟩ := h
      exact absurd (h' s p h3 h4 h2) (not_le.2 h5)
    | cons q qs =>
      obtain ⟨h1, h2, h3, ⟨s, h4, h5, h6⟩, h7⟩ := h
      obtain ⟨g1, g2, g3, ⟨t, g4, g5, g6⟩, g7⟩ := h'
      have hpq : p = q := by
        rcases lt_trichotomy p q with hlt | heq | hgt
        · exact absurd (g3 s p h4 h5 hlt) (not_le.2 h6)
        · exact heq
        · exact absurd (h3 t q g4 g5 hgt) (not_le.2 g6)
      subst hpq
      rw [ih p qs h7 g7]

/-! ## C53 and C54 -/

/-- C53.  The events are at strictly increasing positions after the first one, and each is more than
the threshold away from a position not before the previous event (or the start). -/
theorem C53_justified (index : List ℤ) (series : List K) (thr : K) (hthr : 0 ≤ thr)
    (hlen : index.length = series.length) (hn : index.Nodup) (hne : series ≠ []) :
    ∃ ps : List ℕ, filterCusum index series thr = .ok (ps.map fun p : ℕ => index.getD p 0) ∧
      ps.Pairwise (· < ·) ∧ (∀ p ∈ ps, 0 < p ∧ p < series.length) ∧
      ∀ (k : ℕ) a b, (0 :: ps)[k]? = some a → ps[k]? = some b →
        ∃ s, a ≤ s ∧ s < b ∧ thr < |series.getD b 0 - series.getD s 0| := by
  obtain ⟨ps, h1, h2⟩ := filterCusum_segmented index series thr hthr hlen hn hne
  obtain ⟨h3, h4⟩ := segmented_sorted _ _ _ _ _ h2
  rw [List.pairwise_cons] at h3
  refine ⟨ps, h1, h3.2, fun p hp => ⟨h3.1 p hp, h4 p hp⟩, ?_⟩
  intro k a b ha hb
  exact ((segmented_at _ _ _ _ _ h2 k a ha).1 b hb).2

/-- C53, in times: on an increasing index the events are an increasing subsequence of the index
without its first element. -/
theorem C53_times (index : List ℤ) (series : List K) (thr : K) (hthr : 0 ≤ thr)
    (hlen : index.length = series.length) (hs : index.Pairwise (· < ·)) (hne : series ≠ []) :
    ∃ ts, filterCusum index series thr = .ok ts ∧ ts.Pairwise (· < ·) ∧ ts.Sublist index.tail := by
  have hn : index.Nodup := hs.imp ne_of_lt
  obtain ⟨ps, h1, h2, h3, -⟩ := C53_justified index series thr hthr hlen hn hne
  have hsub : (ps.map fun p : ℕ => index.getD p 0).Sublist index.tail := by
    rw [tail_eq_range']
    apply List.Sublist.map
    have : ps = (List.range' 1 (index.length - 1)).filter fun j => j ∈ ps := by
      apply List.Perm.eq_of_pairwise (le := (· < ·)) (fun a b _ _ hab hba => absurd hab (lt_asymm hba)) h2
      · exact List.Pairwise.filter _ (List.pairwise_lt_range' )
      · rw [List.perm_ext_iff_of_nodup (h2.imp ne_of_lt) ((List.nodup_range').filter _)]
        intro a
        rw [List.mem_filter, List.mem_range'_1, decide_eq_true_eq]
        constructor
        · intro ha; have := h3 a ha; exact ⟨by omega, ha⟩
        · exact fun ha => ha.2
    rw [this]
    exact List.filter_sublist
  refine ⟨_, h1, ?_, hsub⟩
  exact List.Pairwise.sublist hsub (hs.sublist (List.tail_sublist _))

/-- C54.  Between two consecutive events, before the first one and after the last one the series
never moves by more than the threshold. -/
theorem C54_complete (index : List ℤ) (series : List K) (thr : K) (hthr : 0 ≤ thr)
    (hlen : index.length = series.length) (hn : index.Nodup) (hne : series ≠ []) :
    ∃ ps : List ℕ, filterCusum index series thr = .ok (ps.map fun p : ℕ => index.getD p 0) ∧
      ∀ (k : ℕ) a, (0 :: ps)[k]? = some a → ∀ s t, a ≤ s → s < t →
        t < (ps[k]?).getD series.length → |series.getD t 0 - series.getD s 0| ≤ thr := by
  obtain ⟨ps, h1, h2⟩ := filterCusum_segmented index series thr hthr hlen hn hne
  refine ⟨ps, h1, ?_⟩
  intro k a ha s t hs hst ht
  obtain ⟨h3, h4⟩ := segmented_at _ _ _ _ _ h2 k a ha
  cases hb : ps[k]? with
  | none => rw [hb] at ht; exact h4 hb s t hs hst ht
  | some b => rw [hb] at ht; exact (h3 b hb).1 s t hs hst ht

example : filterCusum [10, 11, 12, 13, 14, 15] [(0 : ℚ), 2, 1, -2, 1, 1] 2 = .ok [13, 14] := by
  decide +kernel

/-- C53.  With a repeated label after the first position the filter raises. -/
theorem C53_duplicate_labels (index : List ℤ) (series : List K) (thr : K)
    (hlen : index.length = series.length) (t : ℤ) (ht : t ∈ index.tail) (hdup : 2 ≤ index.count t) :
    filterCusum index series thr = .error .valueError := by
  have hloc : ∀ (d : List (Option K)), index.length = d.length →
      locDiff index d t = .error .valueError := by
    intro d hd
    have hl : (((index.zip d).filter fun p => p.1 = t).map Prod.snd).length = index.count t := by
      clear hlen ht hdup
      rw [List.length_map]
      induction index generalizing d with
      | nil => simp
      | cons a l ih =>
        cases d with
        | nil => simp at hd
        | cons b d =>
          rw [List.zip_cons_cons, List.filter_cons, List.count_cons]
          have := ih d (by simpa using hd)
          by_cases h : a = t
          · simp [h, this]
          · simp [h, this]
    unfold locDiff
    split
    · rename_i v heq
      rw [heq] at hl
      simp only [List.length_singleton] at hl
      omega
    · rfl
  have hloop : ∀ (ts : List ℤ) (s : Cusum K), t ∈ ts →
      cusumLoop index (diffs series) thr ts s = .error .valueError := by
    intro ts
    induction ts with
    | nil => intro s h; cases h
    | cons a ts ih =>
      intro s h
      unfold cusumLoop
      rcases List.mem_cons.1 h with rfl | h
      · rw [hloc _ (by rw [diffs_length, hlen]), py_bind_error]
      · cases hv : locDiff index (diffs series) a with
        | ok v => rw [py_bind_ok, ih _ h]
        | error e =>
          have : e = .valueError := by
            unfold locDiff at hv
            split at hv
            · cases hv
            · cases hv; rfl
          rw [this, py_bind_error]
  unfold filterCusum
  rw [hloop _ _ ht, py_bind_error]

example : filterCusum [10, 11, 11] [(0 : ℚ), 2, 1] 2 = .error .valueError := by decide +kernel

/-! ## C55 -/

/-- C55.  A change of the values that keeps all distances keeps the events. -/
theorem C55_isometry (index : List ℤ) (series series' : List K) (thr : K) (hthr : 0 ≤ thr)
    (hlen : index.length = series.length) (hlen' : series'.length = series.length) (hn : index.Nodup)
    (hiso : ∀ i j, i < series.length → j < series.length →
      |series'.getD i 0 - series'.getD j 0| = |series.getD i 0 - series.getD j 0|) :
    filterCusum index series' thr = filterCusum index series thr := by
  by_cases hne : series = []
  · subst hne
    have : series' = [] := by simpa using hlen'
    rw [this]
  have hne' : series' ≠ [] := by
    intro h; rw [h] at hlen'; apply hne; exact List.length_eq_zero_iff.1 hlen'.symm
  obtain ⟨ps, h1, h2⟩ := filterCusum_segmented index series thr hthr hlen hn hne
  obtain ⟨qs, g1, g2⟩ := filterCusum_segmented index series' thr hthr (by omega) hn hne'
  have hseg : ∀ (ps : List ℕ) r, Segmented (fun j => series.getD j 0) thr series.length r ps →
      Segmented (fun j => series'.getD j 0) thr series.length r ps := by
    intro ps
    have hq : ∀ a b, b ≤ series.length → Quiet (fun j => series.getD j 0) thr a b →
        Quiet (fun j => series'.getD j 0) thr a b := by
      intro a b hb h s t h1 h2 h3
      have := h s t h1 h2 h3
      simp only at this ⊢
      rw [hiso t s (by omega) (by omega)]
      exact this
    induction ps with
    | nil => intro r h; exact hq _ _ le_rfl h
    | cons p ps ih =>
      rintro r ⟨h1, h2, h3, ⟨s, h4, h5, h6⟩, h7⟩
      refine ⟨h1, h2, hq _ _ h2.le h3, ⟨s, h4, h5, ?_⟩, ih p h7⟩
      simp only at h6 ⊢
      rw [hiso p s h2 (by omega)]
      exact h6
  rw [hlen'] at g2
  rw [h1, g1, segmented_unique _ _ _ _ _ _ g2 (hseg ps 0 h2)]

/-- C55.  Negating the series does not change the events. -/
theorem C55_negation (index : List ℤ) (series : List K) (thr : K) (hthr : 0 ≤ thr)
    (hlen : index.length = series.length) (hn : index.Nodup) :
    filterCusum index (series.map fun v => -v) thr = filterCusum index series thr := by
  refine C55_isometry index series _ thr hthr hlen (by simp) hn ?_
  intro i j hi hj
  have hg : ∀ i, i < series.length → (series.map fun v => -v).getD i 0 = -series.getD i 0 := by
    intro i hi
    simp [List.getD_eq_getElem?_getD, hi]
  rw [hg i hi, hg j hj, ← abs_neg]
  congr 1
  ring

/-- C55.  Adding a constant does not change the events. -/
theorem C55_shift (index : List ℤ) (series : List K) (thr c : K) (hthr : 0 ≤ thr)
    (hlen : index.length = series.length) (hn : index.Nodup) :
    filterCusum index (series.map fun v => v + c) thr = filterCusum index series thr := by
  refine C55_isometry index series _ thr hthr hlen (by simp) hn ?_
  intro i j hi hj
  have hg : ∀ i, i < series.length → (series.map fun v => v + c).getD i 0 = series.getD i 0 + c := by
    intro i hi
    simp [List.getD_eq_getElem?_getD, hi]
  rw [hg i hi, hg j hj]
  congr 1
  ring

/-- C55.  The events of the first `m` values are a prefix of the events of the whole series; the
others are later labels. -/
theorem C55_causal (index : List ℤ) (series : List K) (thr : K)
    (hlen : index.length = series.length) (hn : index.Nodup) (m : ℕ) (hm : 0 < m)
    (hm' : m ≤ series.length) :
    ∃ early late, filterCusum (index.take m) (series.take m) thr = .ok early ∧
      filterCusum index series thr = .ok (early ++ late) ∧ ∀ t ∈ late, t ∈ index.drop m := by
  have hfull := cusumLoop_eq index series thr hlen hn (series.length - 1) 0 ⟨0, 0, []⟩ (by omega)
  have hcut := cusumLoop_eq (index.take m) (series.take m) thr (by simp [hlen])
    (hn.sublist (List.take_sublist _ _)) (m - 1) 0 ⟨0, 0, []⟩ (by simp; omega)
  simp only [Nat.zero_add] at hfull hcut
  have hext : ∀ (js : List ℕ) (s : Cusum K), ∃ late,
      (posFold (fun j => series.getD j 0) (fun j => index.getD j 0) thr s js).events =
        s.events ++ late ∧ ∀ t ∈ late, ∃ j ∈ js, t = index.getD j 0 := by
    intro js
    induction js with
    | nil => intro s; exact ⟨[], by simp [posFold], by simp⟩
    | cons j js ih =>
      intro s
      obtain ⟨late, e1, e2⟩ := ih (cusumStep thr s (index.getD j 0) (series.getD j 0 - series.getD (j - 1) 0))
      have hs : (cusumStep thr s (index.getD j 0) (series.getD j 0 - series.getD (j - 1) 0)).events =
          s.events ++ [index.getD j 0] ∨
          (cusumStep thr s (index.getD j 0) (series.getD j 0 - series.getD (j - 1) 0)).events =
          s.events := by
        unfold cusumStep
        simp only
        split
        · exact Or.inl rfl
        · split
          · exact Or.inl rfl
          · exact Or.inr rfl
      unfold posFold at e1 ⊢
      rw [List.foldl_cons, e1]
      rcases hs with hs | hs
      · refine ⟨index.getD j 0 :: late, by rw [hs]; simp, ?_⟩
        intro t ht
        rcases List.mem_cons.1 ht with rfl | ht
        · exact ⟨j, by simp, rfl⟩
        · obtain ⟨j', h1, h2⟩ := e2 t ht
          exact ⟨j', by simp [h1], h2⟩
      · refine ⟨late, by rw [hs], ?_⟩
        intro t ht
        obtain ⟨j', h1, h2⟩ := e2 t ht
        exact ⟨j', by simp [h1], h2⟩
  have hsame : ∀ (js : List ℕ) (s : Cusum K), (∀ j ∈ js, 0 < j ∧ j < m) →
      posFold (fun j => (series.take m).getD j 0) (fun j => (index.take m).getD j 0) thr s js =
      posFold (fun j => series.getD j 0) (fun j => index.getD j 0) thr s js := by
    intro js
    induction js with
    | nil => intro s _; rfl
    | cons j js ih =>
      intro s h
      have hg : ∀ i, i < m → (series.take m).getD i 0 = series.getD i 0 := by
        intro i hi
        rw [List.getD_eq_getElem?_getD, List.getD_eq_getElem?_getD, List.getElem?_take_of_lt hi]
      have hg' : ∀ i, i < m → (index.take m).getD i 0 = index.getD i 0 := by
        intro i hi
        rw [List.getD_eq_getElem?_getD, List.getD_eq_getElem?_getD, List.getElem?_take_of_lt hi]
      have := h j (by simp)
      have hrec := ih (cusumStep thr s (index.getD j 0) (series.getD j 0 - series.getD (j - 1) 0))
        (fun j hj => h j (by simp [hj]))
      unfold posFold at hrec ⊢
      rw [List.foldl_cons, List.foldl_cons]
      simp only at hrec ⊢
      rw [hg j this.2, hg (j - 1) (by omega), hg' j this.2]
      exact hrec
  have hsplit : List.range' 1 (series.length - 1) =
      List.range' 1 (m - 1) ++ List.range' m (series.length - m) := by
    have := List.range'_append (s := 1) (m := m - 1) (n := series.length - m) (step := 1)
    rw [show 1 + 1 * (m - 1) = m by omega, show m - 1 + (series.length - m) = series.length - 1 by omega]
      at this
    exact this.symm
  obtain ⟨late, e1, e2⟩ := hext (List.range' m (series.length - m))
    (posFold (fun j => series.getD j 0) (fun j => index.getD j 0) thr ⟨0, 0, []⟩ (List.range' 1 (m - 1)))
  refine ⟨(posFold (fun j => series.getD j 0) (fun j => index.getD j 0) thr ⟨0, 0, []⟩
      (List.range' 1 (m - 1))).events, late, ?_, ?_, ?_⟩
  · unfold filterCusum
    rw [tail_eq_range', List.length_take, hlen, Nat.min_eq_left hm', hcut, py_bind_ok, hsame]
    · rfl
    · intro j hj
      rw [List.mem_range'_1] at hj
      omega
  · unfold filterCusum
    rw [tail_eq_range', hlen, hfull, py_bind_ok, hsplit]
    unfold posFold at e1 ⊢
    rw [List.foldl_append, e1]
    rfl
  · intro t ht
    obtain ⟨j, hj, rfl⟩ := e2 t ht
    rw [List.mem_range'_1] at hj
    rw [List.mem_iff_getElem?]
    refine ⟨j - m, ?_⟩
    rw [List.getElem?_drop, show m + (j - m) = j by omega, List.getElem?_eq_getElem (by omega),
      List.getD_eq_getElem?_getD, List.getElem?_eq_getElem (by omega)]
    rfl

end FinML.Filters
