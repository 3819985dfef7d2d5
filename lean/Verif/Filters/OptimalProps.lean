import Verif.Filters.Props
import Mathlib.Tactic.FieldSimp
import Mathlib.Tactic.Ring
import Mathlib.Tactic.IntervalCases

/-! # The CUSUM filter as a segmentation (C223, C224) and the lag of the Hull average (C225) -/

namespace FinML.Filters

variable {K : Type} [Field K] [LinearOrder K] [IsStrictOrderedRing K]

set_option linter.unusedSectionVars false

/-- The cuts `cs` divide the positions from `r` up to `n` into stretches in each of which the series moves by
at most `thr`; each stretch starts at a cut. -/
def Stretches (x : ℕ → K) (thr : K) (n : ℕ) : ℕ → List ℕ → Prop
  | r, [] => Quiet x thr r n
  | r, c :: cs => Quiet x thr r c ∧ Stretches x thr n c cs

theorem segmented_stretches {x : ℕ → K} {thr thr' : K} (h : thr ≤ thr') {n : ℕ} (ps : List ℕ) :
    ∀ r, Segmented x thr n r ps → Stretches x thr' n r ps := by
  induction ps with
  | nil => exact fun r hs s t h1 h2 h3 => (hs s t h1 h2 h3).trans h
  | cons p ps ih =>
    rintro r ⟨-, -, h1, -, h2⟩
    exact ⟨fun s t a b c => (h1 s t a b c).trans h, ih p h2⟩

theorem segmented_optimal {x : ℕ → K} {thr : K} {n : ℕ} (ps : List ℕ) :
    ∀ (r r' : ℕ) (cs : List ℕ), r' ≤ r → Segmented x thr n r ps → Stretches x thr n r' cs →
      ps.length ≤ cs.length ∧ ∀ (k p c : ℕ), ps[k]? = some p → cs[k]? = some c → c ≤ p := by
  induction ps with
  | nil => simp
  | cons p ps ih =>
    rintro r r' cs hr ⟨h1, h2, h3, ⟨s, h4, h5, h6⟩, h7⟩ hc
    cases cs with
    | nil => exact absurd (hc s p (hr.trans h4) h5 h2) (not_le.2 h6)
    | cons c cs =>
      have hcp : c ≤ p := by
        by_contra hlt
        exact absurd (hc.1 s p (hr.trans h4) h5 (not_le.1 hlt)) (not_le.2 h6)
      obtain ⟨h8, h9⟩ := ih p c cs hcp h7 hc.2
      refine ⟨by simpa using h8, fun k q d hq hd => ?_⟩
      cases k with
      | zero =>
        simp only [List.getElem?_cons_zero, Option.some.injEq] at hq hd
        rw [← hq, ← hd]
        exact hcp
      | succ k => exact h9 k q d (by simpa using hq) (by simpa using hd)

/-- C223.  The events cut the series into stretches that move by at most the threshold, and no other cuts do
so with fewer of them, or with any cut later than the event of the same number. -/
theorem C223_fewest (index : List ℤ) (series : List K) (thr : K) (hthr : 0 ≤ thr)
    (hlen : index.length = series.length) (hn : index.Nodup) (hne : series ≠ []) :
    ∃ ps : List ℕ, filterCusum index series thr = .ok (ps.map fun p : ℕ => index.getD p 0) ∧
      Stretches (fun j => series.getD j 0) thr series.length 0 ps ∧
      ∀ cs, Stretches (fun j => series.getD j 0) thr series.length 0 cs →
        ps.length ≤ cs.length ∧ ∀ (k p c : ℕ), ps[k]? = some p → cs[k]? = some c → c ≤ p := by
  obtain ⟨ps, h1, h2⟩ := filterCusum_segmented index series thr hthr hlen hn hne
  exact ⟨ps, h1, segmented_stretches le_rfl ps 0 h2, fun cs hcs => segmented_optimal ps 0 0 cs le_rfl h2 hcs⟩

/-- C223.  A larger threshold gives no more events, and its event number `k` is not before that of the
smaller threshold. -/
theorem C223_threshold (index : List ℤ) (series : List K) (thr thr' : K) (hthr : 0 ≤ thr) (hle : thr ≤ thr')
    (hlen : index.length = series.length) (hs : index.Pairwise (· < ·)) (hne : series ≠ []) :
    ∃ ts ts', filterCusum index series thr = .ok ts ∧ filterCusum index series thr' = .ok ts' ∧
      ts'.length ≤ ts.length ∧ ∀ (k : ℕ) (t t' : ℤ), ts[k]? = some t → ts'[k]? = some t' → t ≤ t' := by
  have hn : index.Nodup := hs.imp fun h => h.ne
  obtain ⟨ps, h1, h2⟩ := filterCusum_segmented index series thr hthr hlen hn hne
  obtain ⟨ps', h3, h4⟩ := filterCusum_segmented index series thr' (hthr.trans hle) hlen hn hne
  obtain ⟨h5, h6⟩ := segmented_optimal ps' 0 0 ps le_rfl h4 (segmented_stretches hle ps 0 h2)
  refine ⟨_, _, h1, h3, by simpa using h5, fun k t t' ht ht' => ?_⟩
  rw [List.getElem?_map, Option.map_eq_some_iff] at ht ht'
  obtain ⟨p, hp, rfl⟩ := ht
  obtain ⟨p', hp', rfl⟩ := ht'
  have hpp := h6 k p' p hp' hp
  have hp'n : p' < index.length := by
    rw [hlen]
    exact (segmented_sorted _ _ _ _ _ h4).2 p' (List.mem_of_getElem? hp')
  rcases hpp.eq_or_lt with rfl | hlt
  · exact le_rfl
  · rw [List.getD_eq_getElem?_getD, List.getD_eq_getElem?_getD, List.getElem?_eq_getElem hp'n,
      List.getElem?_eq_getElem (hlt.trans hp'n)]
    exact (List.pairwise_iff_getElem.1 hs p p' _ _ hlt).le

/-- A saw-tooth series: thresholds 1 and 2 give three and two events. -/
example : filterCusum [0, 1, 2, 3, 4] [0, 2, 0, -1, 2] (1 : ℚ) = .ok [1, 2, 4] ∧
    filterCusum [0, 1, 2, 3, 4] [0, 2, 0, -1, 2] (2 : ℚ) = .ok [3, 4] := by
  decide +kernel

/-- C224, full claim: the events of a larger threshold are among those of a smaller one. -/
def EventsNested : Prop :=
  ∀ (index : List ℤ) (series : List ℚ) (thr thr' : ℚ) (ts ts' : List ℤ), index.Pairwise (· < ·) →
    index.length = series.length → 0 ≤ thr → thr ≤ thr' →
    filterCusum index series thr = .ok ts → filterCusum index series thr' = .ok ts' → ∀ t ∈ ts', t ∈ ts

/-- The rises 2, 1, 1: threshold 1 fires at the first and at the third, threshold 2 at the second. -/
theorem C224_nested_counterexample : ¬ EventsNested := by
  intro h
  have := h [0, 1, 2, 3] [0, 2, 3, 4] 1 2 [1, 3] [2] (by decide) rfl (by decide) (by decide) (by decide +kernel)
    (by decide +kernel) 2 (by decide)
  revert this
  decide

/-- C224, what holds: between two consecutive events of the larger threshold, or at the later one of them,
there is an event of the smaller one (missing: the same time). -/
theorem C224_between_partial (index : List ℤ) (series : List K) (thr thr' : K) (hthr : 0 ≤ thr) (hle : thr ≤ thr')
    (hlen : index.length = series.length) (hn : index.Nodup) (hne : series ≠ []) :
    ∃ ps ps' : List ℕ, filterCusum index series thr = .ok (ps.map fun p : ℕ => index.getD p 0) ∧
      filterCusum index series thr' = .ok (ps'.map fun p : ℕ => index.getD p 0) ∧
      ∀ (k : ℕ) a b, (0 :: ps')[k]? = some a → ps'[k]? = some b → ∃ p ∈ ps, a < p ∧ p ≤ b := by
  obtain ⟨ps, h1, h2⟩ := filterCusum_segmented index series thr hthr hlen hn hne
  obtain ⟨ps', h3, h4⟩ := filterCusum_segmented index series thr' (hthr.trans hle) hlen hn hne
  refine ⟨ps, ps', h1, h3, fun k a b ha hb => ?_⟩
  obtain ⟨-, s, hs1, hs2, hs3⟩ := (segmented_at _ _ _ _ _ h4 k a ha).1 b hb
  have hbn := (segmented_sorted _ _ _ _ _ h4).2 b (List.mem_of_getElem? hb)
  have key : ∀ (qs : List ℕ) r, r ≤ s → Segmented (fun j => series.getD j 0) thr series.length r qs →
      ∃ p ∈ qs, a < p ∧ p ≤ b := by
    intro qs
    induction qs with
    | nil =>
      intro r hr hq
      exact absurd (hq s b hr hs2 hbn) (not_le.2 (lt_of_le_of_lt hle hs3))
    | cons q qs ih =>
      rintro r hr ⟨-, -, h5, -, h6⟩
      rcases le_or_gt q s with hq | hq
      · obtain ⟨p, hp, hp2⟩ := ih q hq h6
        exact ⟨p, List.mem_cons_of_mem _ hp, hp2⟩
      · refine ⟨q, List.mem_cons_self, lt_of_le_of_lt hs1 hq, ?_⟩
        by_contra hlt
        exact absurd (h5 s b hr hs2 (not_le.1 hlt)) (not_le.2 (lt_of_le_of_lt hle hs3))
  exact key ps 0 (Nat.zero_le _) h2

/-- How far the two averages together lead before they are smoothed: half a bar for an even period, one for
an odd one. -/
def hullLead (n : ℕ) : K := if n % 2 = 0 then 1 / 2 else 1

theorem sum_ramp (w : ℕ) (a b : K) : ∑ j ∈ Finset.range w, (a + b * (j : K)) = w * (a + b * (((w : K) - 1) / 2)) := by
  induction w with
  | zero => simp
  | succ w ih =>
    rw [Finset.sum_range_succ, ih]
    push_cast
    ring

theorem meanW_ramp (w : ℕ) (hw : 1 ≤ w) (f : ℕ → K) (i : ℕ) (hi : w ≤ i + 1) (a b : K)
    (hf : ∀ j, i + 1 - w ≤ j → j ≤ i → f j = a + b * (j : K)) :
    meanW w ((List.range w).map fun j : ℕ => f (i + 1 - w + j)) = a + b * ((i : K) - ((w : K) - 1) / 2) := by
  have hw0 : (w : K) ≠ 0 := by exact_mod_cast (by omega : w ≠ 0)
  unfold meanW
  rw [list_range_map_sum]
  have h1 : ∀ j ∈ Finset.range w, f (i + 1 - w + j) = (a + b * ((i : K) + 1 - w)) + b * (j : K) := by
    intro j hj
    rw [Finset.mem_range] at hj
    rw [hf _ (by omega) (by omega)]
    push_cast [Nat.cast_sub hi]
    ring
  rw [Finset.sum_congr rfl h1, sum_ramp]
  field_simp
  ring

/-- C225.  On a linear trend the Hull average is the trend, behind by half the smoothing window less one
bar, and ahead by `hullLead`; the first `n + ⌊√n⌋ - 2` values are missing. -/
theorem C225_trend (a b : K) (m n : ℕ) (hn : 2 ≤ n) :
    ∃ res, hullMa ((List.range m).map fun i : ℕ => a + b * (i : K)) n = .ok res ∧ res.length = m ∧
      ∀ i < m, res[i]? = some (if i < n + Nat.sqrt n - 2 then none else
        some (a + b * ((i : K) - (((Nat.sqrt n : ℕ) : K) - 1) / 2 + hullLead n))) := by
  have hq : 1 ≤ Nat.sqrt n := Nat.le_sqrt.2 (by omega)
  have h0 : Has (((List.range m).map fun i : ℕ => a + b * (i : K)).map some) m 0 (fun i => a + b * (i : K)) := by
    refine ⟨by simp, fun i hi => ?_⟩
    simp [hi]
  have h1 := has_congr (g := fun i => a + b * ((i : K) - (((n / 2 : ℕ) : K) - 1) / 2))
    (has_rolling h0 (n / 2) (by omega) (meanW (n / 2)))
    fun i _ hi => meanW_ramp (n / 2) (by omega) _ i (by omega) a b fun j _ _ => rfl
  have h2 := has_congr (g := fun i => a + b * ((i : K) - ((n : K) - 1) / 2))
    (has_rolling h0 n (by omega) (meanW n))
    fun i _ hi => meanW_ramp n (by omega) _ i (by omega) a b fun j _ _ => rfl
  have h3 := has_zipO (fun s l => 2 * s - l) h1 h2
  have hlead : ∀ i : ℕ, 2 * (a + b * ((i : K) - (((n / 2 : ℕ) : K) - 1) / 2)) - (a + b * ((i : K) - ((n : K) - 1) / 2)) =
      (a + b * hullLead n) + b * (i : K) := by
    intro i
    unfold hullLead
    by_cases h : n % 2 = 0
    · obtain ⟨k, rfl⟩ : ∃ k, n = 2 * k := ⟨n / 2, by omega⟩
      rw [if_pos h, show 2 * k / 2 = k by omega]
      push_cast
      ring
    · obtain ⟨k, rfl⟩ : ∃ k, n = 2 * k + 1 := ⟨n / 2, by omega⟩
      rw [if_neg h, show (2 * k + 1) / 2 = k by omega]
      push_cast
      ring
  have h4 := has_congr h3 (g := fun i => (a + b * hullLead n) + b * (i : K)) fun i _ _ => hlead i
  have h5 := has_congr (g := fun i => (a + b * hullLead n) + b * ((i : K) - (((Nat.sqrt n : ℕ) : K) - 1) / 2))
    (has_rolling h4 (Nat.sqrt n) hq (meanW (Nat.sqrt n)))
    fun i _ hi => meanW_ramp (Nat.sqrt n) hq _ i (by omega) _ b fun j _ _ => rfl
  refine ⟨_, by unfold hullMa; rw [if_neg (by omega)], h5.1, fun i hi => ?_⟩
  rw [h5.2 i hi]
  have e1 : max (0 + n / 2 - 1) (0 + n - 1) + Nat.sqrt n - 1 = n + Nat.sqrt n - 2 := by omega
  rw [e1]
  congr 2
  congr 1
  ring

/-- C225.  The lag is less than that of the simple average of `n` values, and it is none exactly for
the periods 4, 6, 8, 9, 11, 13 and 15. -/
theorem C225_lag (n : ℕ) (hn : 2 ≤ n) :
    (((Nat.sqrt n : ℕ) : K) - 1) / 2 - hullLead n < ((n : K) - 1) / 2 ∧
    ((((Nat.sqrt n : ℕ) : K) - 1) / 2 - hullLead n = (0 : K) ↔ n ∈ [4, 6, 8, 9, 11, 13, 15]) := by
  have hq : Nat.sqrt n ≤ n := Nat.sqrt_le_self n
  have hq' : ((Nat.sqrt n : ℕ) : K) ≤ (n : K) := by exact_mod_cast hq
  have hl : (0 : K) < hullLead n := by
    unfold hullLead
    split_ifs <;> norm_num
  refine ⟨by linarith, ?_⟩
  have hiff : (((Nat.sqrt n : ℕ) : K) - 1) / 2 - hullLead n = (0 : K) ↔
      Nat.sqrt n = if n % 2 = 0 then 2 else 3 := by
    unfold hullLead
    by_cases h : n % 2 = 0
    · rw [if_pos h, if_pos h]
      constructor
      · intro h1
        have : ((Nat.sqrt n : ℕ) : K) = ((2 : ℕ) : K) := by push_cast; linarith
        exact_mod_cast this
      · intro h1
        rw [h1]
        push_cast
        norm_num
    · rw [if_neg h, if_neg h]
      constructor
      · intro h1
        have : ((Nat.sqrt n : ℕ) : K) = ((3 : ℕ) : K) := by push_cast; linarith
        exact_mod_cast this
      · intro h1
        rw [h1]
        push_cast
        norm_num
  rw [hiff]
  constructor
  · intro h1
    have h2 := Nat.sqrt_le' n
    have h3 := Nat.sqrt_lt' (m := n) (n := Nat.sqrt n + 1) |>.1 (Nat.lt_succ_self _)
    have hle : n < 16 := by
      rw [h1] at h3
      split_ifs at h3 <;> omega
    interval_cases n <;> revert h1 <;> decide +kernel
  · intro h1
    simp only [List.mem_cons, List.not_mem_nil, or_false] at h1
    rcases h1 with rfl | rfl | rfl | rfl | rfl | rfl | rfl <;> decide +kernel

/-- Period 4 on a ramp: after four missing values the trend itself. -/
example : (hullMa [0, 1, 2, 3, 4, (5 : ℚ)] 4) = .ok [none, none, none, none, some 4, some 5] := by
  decide +kernel

end FinML.Filters
