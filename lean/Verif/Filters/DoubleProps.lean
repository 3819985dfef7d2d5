import Verif.Filters.DoubleModel
import Verif.Filters.Props
import Verif.Alloc.DoubleProps
import Verif.Bars.DoubleProps

/-! # The CUSUM filter in doubles (C281, C282) -/

namespace FinML.Filters

open FinML.Alloc FinML.CV

/-- C281, full claim: in doubles the events are where the series of doubles has moved by more than the threshold since
the last event, and nowhere else. -/
def DoubleEvents : Prop := ∀ (index : List ℤ) (series : List ℚ) (thr : ℚ), 0 ≤ thr → signedDouble thr = thr →
  (∀ x ∈ series, signedDouble x = x) → index.length = series.length → index.Nodup → series ≠ [] →
  ∃ ps : List ℕ, filterCusumR signedDouble index series thr = .ok (ps.map fun p : ℕ => index.getD p 0) ∧
    Segmented (fun j => series.getD j 0) thr series.length 0 ps

/-- The doubles 0.1, 0.6 and 0.01. -/
def missedSeries : List ℚ := [signedDouble (1 / 10), signedDouble (6 / 10), signedDouble (1 / 100)]

/-- The doubles 0.73, 0.97 and 3.59. -/
def spuriousSeries : List ℚ := [signedDouble (73 / 100), signedDouble (97 / 100), signedDouble (359 / 100)]

theorem missed : filterCusumR signedDouble [0, 1, 2] missedSeries (signedDouble (59 / 100)) = .ok [] := by
  decide +kernel

/-- C281, counterexample, both ways: 0.1, 0.6, 0.01 falls by more than 0.59 from its second to its third value and no
event is found; 0.73, 0.97, 3.59 never moves by more than 2.86 and an event is found. -/
theorem C281_doubles_counterexample : ¬ DoubleEvents ∧
    filterCusumR signedDouble [0, 1, 2] missedSeries (signedDouble (59 / 100)) = .ok [] ∧
    filterCusum [0, 1, 2] missedSeries (signedDouble (59 / 100)) = .ok [2] ∧
    filterCusumR signedDouble [0, 1, 2] spuriousSeries (signedDouble (286 / 100)) = .ok [2] ∧
    filterCusum [0, 1, 2] spuriousSeries (signedDouble (286 / 100)) = .ok [] := by
  refine ⟨fun h => ?_, missed, by decide +kernel, by decide +kernel, by decide +kernel⟩
  obtain ⟨ps, h1, h2⟩ := h [0, 1, 2] missedSeries (signedDouble (59 / 100)) (by decide +kernel) (by decide +kernel)
    (by decide +kernel) rfl (by decide) (by simp [missedSeries])
  rw [missed] at h1
  have hps : ps = [] := by simpa using h1
  subst hps
  have := h2 1 2 (by omega) (by omega) (by simp [missedSeries])
  revert this
  decide +kernel

/-! ## The loop over positions -/

/-- The loop as a fold over positions. -/
def posFoldR (rd : ℚ → ℚ) (x : ℕ → ℚ) (lab : ℕ → ℤ) (thr : ℚ) (s : Cusum ℚ) (js : List ℕ) : Cusum ℚ :=
  js.foldl (fun s j => cusumStepR rd thr s (lab j) (rd (x j - x (j - 1)))) s

theorem diffsR_getElem (rd : ℚ → ℚ) (series : List ℚ) (j : ℕ) (hj : j + 1 < series.length) :
    (diffsR rd series)[j + 1]? = some (some (rd (series.getD (j + 1) 0 - series.getD j 0))) := by
  cases series with
  | nil => simp at hj
  | cons a l =>
    have h1 : j < l.length := by simpa using hj
    unfold diffsR
    rw [List.getElem?_cons_succ, List.getElem?_zipWith, List.getElem?_eq_getElem h1,
      List.getElem?_eq_getElem (by simp; omega)]
    simp only [List.getD_cons_succ]
    rw [List.getD_eq_getElem?_getD, List.getD_eq_getElem?_getD, List.getElem?_eq_getElem h1,
      List.getElem?_eq_getElem (by simp; omega)]
    simp

theorem locDiffR_eq (rd : ℚ → ℚ) (index : List ℤ) (series : List ℚ) (hlen : index.length = series.length)
    (hn : index.Nodup) (j : ℕ) (hj : j + 1 < series.length) :
    locDiff index (diffsR rd series) (index.getD (j + 1) 0) =
      .ok (rd (series.getD (j + 1) 0 - series.getD j 0)) := by
  unfold locDiff
  rw [filter_label index (diffsR rd series) hn (j + 1) (index.getD (j + 1) 0)
    (some (rd (series.getD (j + 1) 0 - series.getD j 0)))]
  · rw [List.getD_eq_getElem?_getD (l := index), List.getElem?_eq_getElem (by omega)]
    rfl
  · exact diffsR_getElem rd series j hj

theorem cusumLoopR_eq (rd : ℚ → ℚ) (index : List ℤ) (series : List ℚ) (thr : ℚ)
    (hlen : index.length = series.length) (hn : index.Nodup) (m : ℕ) :
    ∀ (i : ℕ) (s : Cusum ℚ), i + 1 + m = series.length →
      cusumLoopR rd index (diffsR rd series) thr
        ((List.range' (i + 1) m).map fun j : ℕ => index.getD j 0) s =
      .ok (posFoldR rd (fun j => series.getD j 0) (fun j => index.getD j 0) thr s (List.range' (i + 1) m)) := by
  induction m with
  | zero => intro i s _; simp [cusumLoopR, posFoldR]
  | succ m ih =>
    intro i s h
    rw [List.range'_succ, List.map_cons]
    unfold cusumLoopR
    rw [locDiffR_eq rd index series hlen hn i (by omega), py_bind_ok, ih (i + 1) _ (by omega)]
    unfold posFoldR
    rw [List.foldl_cons]
    have hii : i + 1 - 1 = i := by omega
    rw [hii]

theorem filterCusumR_eq (rd : ℚ → ℚ) (index : List ℤ) (series : List ℚ) (thr : ℚ)
    (hlen : index.length = series.length) (hn : index.Nodup) (hne : series ≠ []) :
    filterCusumR rd index series thr = .ok (posFoldR rd (fun j => series.getD j 0) (fun j => index.getD j 0) thr
      ⟨0, 0, []⟩ (List.range' 1 (series.length - 1))).events := by
  have hpos : 0 < series.length := List.length_pos_iff.2 hne
  have := cusumLoopR_eq rd index series thr hlen hn (series.length - 1) 0 ⟨0, 0, []⟩ (by omega)
  simp only [Nat.zero_add] at this
  unfold filterCusumR
  rw [tail_eq_range', hlen, this, py_bind_ok]
  rfl

theorem filterCusum_eq' (index : List ℤ) (series : List ℚ) (thr : ℚ)
    (hlen : index.length = series.length) (hn : index.Nodup) (hne : series ≠ []) :
    filterCusum index series thr = .ok (posFold (fun j => series.getD j 0) (fun j => index.getD j 0) thr
      ⟨0, 0, []⟩ (List.range' 1 (series.length - 1))).events := by
  have hpos : 0 < series.length := List.length_pos_iff.2 hne
  have := cusumLoop_eq index series thr hlen hn (series.length - 1) 0 ⟨0, 0, []⟩ (by omega)
  simp only [Nat.zero_add] at this
  unfold filterCusum
  rw [tail_eq_range', hlen, this, py_bind_ok]
  rfl

/-! ## Exact differences -/

theorem posFoldR_exact (rd : ℚ → ℚ) (x : ℕ → ℚ) (lab : ℕ → ℤ) (thr : ℚ) (n : ℕ)
    (hrd : ∀ i j, i < n → j < n → rd (x i - x j) = x i - x j) (m : ℕ) :
    ∀ (i : ℕ) (s : Cusum ℚ), i + 1 + m ≤ n → (∃ a ≤ i, s.pos = x i - x a) → (∃ a ≤ i, s.neg = x i - x a) →
      posFoldR rd x lab thr s (List.range' (i + 1) m) = posFold x lab thr s (List.range' (i + 1) m) := by
  induction m with
  | zero => intro i s _ _ _; rfl
  | succ m ih =>
    rintro i s h ⟨a, ha, hp⟩ ⟨b, hb, hq⟩
    unfold posFoldR posFold
    rw [List.range'_succ, List.foldl_cons, List.foldl_cons]
    have hii : i + 1 - 1 = i := by omega
    rw [hii, hrd (i + 1) i (by omega) (by omega)]
    have e1 : s.pos + (x (i + 1) - x i) = x (i + 1) - x a := by rw [hp]; ring
    have e2 : s.neg + (x (i + 1) - x i) = x (i + 1) - x b := by rw [hq]; ring
    have hst : cusumStepR rd thr s (lab (i + 1)) (x (i + 1) - x i) =
        cusumStep thr s (lab (i + 1)) (x (i + 1) - x i) := by
      unfold cusumStepR cusumStep
      rw [e1, e2, hrd _ _ (by omega) (by omega), hrd _ _ (by omega) (by omega)]
    rw [hst]
    refine ih (i + 1) _ (by omega) ?_ ?_
    · have hz : ∃ a ≤ i + 1, (0 : ℚ) = x (i + 1) - x a := ⟨i + 1, le_rfl, by simp⟩
      have hm : ∃ c ≤ i + 1, max 0 (x (i + 1) - x a) = x (i + 1) - x c := by
        rcases le_total 0 (x (i + 1) - x a) with h | h
        · exact ⟨a, by omega, max_eq_right h⟩
        · exact ⟨i + 1, le_rfl, by rw [max_eq_left h]; ring⟩
      unfold cusumStep
      simp only [e1, e2]
      split_ifs
      · exact hm
      · exact hz
      · exact hm
    · have hz : ∃ a ≤ i + 1, (0 : ℚ) = x (i + 1) - x a := ⟨i + 1, le_rfl, by simp⟩
      have hm : ∃ c ≤ i + 1, min 0 (x (i + 1) - x b) = x (i + 1) - x c := by
        rcases le_total 0 (x (i + 1) - x b) with h | h
        · exact ⟨i + 1, le_rfl, by rw [min_eq_left h]; ring⟩
        · exact ⟨b, by omega, min_eq_right h⟩
      unfold cusumStep
      simp only [e1, e2]
      split_ifs
      · exact hz
      · exact hm
      · exact hm

theorem signedDouble_int (k e : ℤ) (hk : |k| < 2 ^ 53) : signedDouble ((k : ℚ) * (2 : ℚ) ^ e) = k * (2 : ℚ) ^ e := by
  have hnn : ∀ n : ℕ, n < 2 ^ 53 → signedDouble ((n : ℚ) * (2 : ℚ) ^ e) = n * (2 : ℚ) ^ e := by
    intro n hn
    unfold signedDouble
    rw [if_neg (not_lt.2 (by positivity)), FinML.Bars.roundDouble_of_isDouble ⟨n, e, hn, rfl⟩]
  rcases abs_cases k with ⟨h1, h2⟩ | ⟨h1, h2⟩
  · obtain ⟨n, rfl⟩ := Int.eq_ofNat_of_zero_le h2
    have := hnn n (by omega)
    exact_mod_cast this
  · obtain ⟨n, hn⟩ := Int.eq_ofNat_of_zero_le (show 0 ≤ -k by omega)
    have hk' : k = -(n : ℤ) := by omega
    have := hnn n (by omega)
    rw [hk']
    push_cast
    rw [neg_mul, signedDouble_neg, this]

/-- C281, what holds, ticks: when the values are whole multiples of a power of two, at most `2^52` of them from zero, the events
are exactly those of exact arithmetic, for any threshold (missing: decimal fractions). -/
theorem C281_ticks_partial (index : List ℤ) (e : ℤ) (m : List ℤ) (thr : ℚ) (hm : ∀ k ∈ m, |k| < 2 ^ 52)
    (hlen : index.length = m.length) (hn : index.Nodup) :
    filterCusumR signedDouble index (m.map fun k : ℤ => (k : ℚ) * (2 : ℚ) ^ e) thr =
      filterCusum index (m.map fun k : ℤ => (k : ℚ) * (2 : ℚ) ^ e) thr := by
  by_cases hne : m = []
  · subst hne
    have : index = [] := List.length_eq_zero_iff.1 hlen
    subst this
    rfl
  rw [filterCusumR_eq _ _ _ _ (by simpa using hlen) hn (by simpa using hne),
    filterCusum_eq' _ _ _ (by simpa using hlen) hn (by simpa using hne)]
  have hpos : 0 < m.length := List.length_pos_iff.2 hne
  have := posFoldR_exact signedDouble (fun j => (m.map fun k : ℤ => (k : ℚ) * (2 : ℚ) ^ e).getD j 0)
    (fun j => index.getD j 0) thr m.length (by
      intro i j hi hj
      have hg : ∀ i, i < m.length → (m.map fun k : ℤ => (k : ℚ) * (2 : ℚ) ^ e).getD i 0 = (m.getD i 0 : ℤ) * (2 : ℚ) ^ e := by
        intro i hi
        simp [List.getD_eq_getElem?_getD, hi]
      have hb : ∀ i, i < m.length → |m.getD i 0| < 2 ^ 52 := by
        intro i hi
        apply hm
        simp [List.getD_eq_getElem?_getD, hi]
      simp only [hg i hi, hg j hj]
      rw [← sub_mul, ← Int.cast_sub]
      apply signedDouble_int
      have h1 := abs_lt.1 (hb i hi)
      have h2 := abs_lt.1 (hb j hj)
      rw [abs_lt]
      omega) (m.length - 1) 0 ⟨0, 0, []⟩ (by omega) ⟨0, le_rfl, by simp⟩ ⟨0, le_rfl, by simp⟩
  simp only [List.length_map]
  simp only [Nat.zero_add] at this
  rw [this]

/-! ## Rounding errors -/

/-- Events up to rounding: no move above `hi` between events, and more than `lo` since the last event at each. -/
def SegmentedW (x : ℕ → ℚ) (lo hi : ℚ) (n : ℕ) : ℕ → List ℕ → Prop
  | r, [] => Quiet x hi r n
  | r, p :: ps => r < p ∧ p < n ∧ Quiet x hi r p ∧ (∃ s, r ≤ s ∧ s < p ∧ lo < |x p - x s|) ∧
      SegmentedW x lo hi n p ps

/-- The sum `p` is the rise of `x` since `r` up to `e`, and never was above the threshold. -/
structure Track (x : ℕ → ℚ) (thr ε e : ℚ) (r i : ℕ) (p : ℚ) : Prop where
  le : r ≤ i
  nonneg : 0 ≤ p
  below : p ≤ thr
  dbl : signedDouble p = p
  attained : ∃ s, r ≤ s ∧ s ≤ i ∧ p - e ≤ x i - x s
  bound : ∀ s, r ≤ s → s ≤ i → x i - x s ≤ p + e
  quiet : ∀ s t, r ≤ s → s < t → t ≤ i → x t - x s ≤ thr + ε

theorem signedDouble_idem (q : ℚ) : signedDouble (signedDouble q) = signedDouble q := by
  have h0 : ∀ q : ℚ, 0 ≤ q → signedDouble (signedDouble q) = signedDouble q := by
    intro q hq
    have h1 : signedDouble q = roundDouble q := by unfold signedDouble; rw [if_neg (not_lt.2 hq)]
    have h2 : 0 ≤ roundDouble q := roundDouble_nonneg q
    rw [h1]
    unfold signedDouble
    rw [if_neg (not_lt.2 h2), FinML.Bars.roundDouble_of_isDouble (C45_rounding q hq).1]
  rcases le_total 0 q with h | h
  · exact h0 q h
  · have := h0 (-q) (by linarith)
    rw [signedDouble_neg, signedDouble_neg] at this
    linarith

theorem track_start (x : ℕ → ℚ) (thr ε e : ℚ) (hthr : 0 ≤ thr) (he : 0 ≤ e) (i : ℕ) : Track x thr ε e i i 0 where
  le := le_rfl
  nonneg := le_rfl
  below := hthr
  dbl := by simpa using signedDouble_nat 0 (by norm_num)
  attained := ⟨i, le_rfl, le_rfl, by simpa using he⟩
  bound := by
    intro s h1 h2
    have : s = i := by omega
    subst this
    simpa using he
  quiet := by intro s t h1 h2 h3; omega

/-- The sum after the next value. -/
def nextSum (x : ℕ → ℚ) (i : ℕ) (p : ℚ) : ℚ := max 0 (signedDouble (p + signedDouble (x (i + 1) - x i)))

theorem nextSum_dbl (x : ℕ → ℚ) (i : ℕ) (p : ℚ) : signedDouble (nextSum x i p) = nextSum x i p := by
  unfold nextSum
  rcases le_total 0 (signedDouble (p + signedDouble (x (i + 1) - x i))) with h | h
  · rw [max_eq_right h, signedDouble_idem]
  · rw [max_eq_left h]
    simpa using signedDouble_nat 0 (by norm_num)

theorem track_pre {x : ℕ → ℚ} {thr ε e D : ℚ} {r i : ℕ} {p : ℚ} (h : Track x thr ε e r i p) (he : 0 ≤ e)
    (hD : |x (i + 1) - x i| ≤ D) :
    (∃ s, r ≤ s ∧ s ≤ i + 1 ∧ nextSum x i p - (e + (thr + 3 * D) / 2 ^ 53) ≤ x (i + 1) - x s) ∧
      ∀ s, r ≤ s → s ≤ i + 1 → x (i + 1) - x s ≤ nextSum x i p + (e + (thr + 3 * D) / 2 ^ 53) := by
  have hD0 : 0 ≤ D := (abs_nonneg _).trans hD
  have hthr : 0 ≤ thr := h.nonneg.trans h.below
  have h1 := signedDouble_err (x (i + 1) - x i)
  have h2 := signedDouble_err (p + signedDouble (x (i + 1) - x i))
  have h3 : |x (i + 1) - x i| / 2 ^ 53 ≤ D / 2 ^ 53 := by gcongr
  have h4 : |p + signedDouble (x (i + 1) - x i)| ≤ thr + 2 * D := by
    have a := abs_le.1 h1
    have b := abs_le.1 hD
    have c := h.nonneg
    have d := h.below
    rw [abs_le]
    constructor <;> linarith [a.1, a.2, b.1, b.2]
  have h5 : |p + signedDouble (x (i + 1) - x i)| / 2 ^ 53 ≤ (thr + 2 * D) / 2 ^ 53 := by
    apply div_le_div_of_nonneg_right h4 (by norm_num)
  have h6 : |signedDouble (p + signedDouble (x (i + 1) - x i)) - (p + (x (i + 1) - x i))| ≤ (thr + 3 * D) / 2 ^ 53 := by
    have a := abs_le.1 (h1.trans h3)
    have b := abs_le.1 (h2.trans h5)
    rw [abs_le]
    constructor <;> linarith [a.1, a.2, b.1, b.2]
  have hδ : 0 ≤ (thr + 3 * D) / 2 ^ 53 := by positivity
  have h7 := abs_le.1 h6
  unfold nextSum
  generalize signedDouble (p + signedDouble (x (i + 1) - x i)) = y at h7 ⊢
  generalize (thr + 3 * D) / 2 ^ 53 = δ at h7 hδ ⊢
  obtain ⟨s, a1, a2, a3⟩ := h.attained
  constructor
  · rcases le_total 0 y with hy | hy
    · rw [max_eq_right hy]
      exact ⟨s, a1, by omega, by linarith [h7.2]⟩
    · rw [max_eq_left hy]
      exact ⟨i + 1, by have := h.le; omega, le_rfl, by linarith⟩
  · intro t b1 b2
    rcases Nat.lt_or_eq_of_le b2 with b3 | b3
    · have := h.bound t b1 (by omega)
      have := le_max_right 0 y
      linarith [h7.1]
    · subst b3
      have := le_max_left 0 y
      linarith

theorem track_next {x : ℕ → ℚ} {thr ε e D : ℚ} {r i : ℕ} {p : ℚ} (h : Track x thr ε e r i p) (he : 0 ≤ e)
    (hD : |x (i + 1) - x i| ≤ D) (hε : e + (thr + 3 * D) / 2 ^ 53 ≤ ε) (hb : nextSum x i p ≤ thr) :
    Track x thr ε (e + (thr + 3 * D) / 2 ^ 53) r (i + 1) (nextSum x i p) where
  le := by have := h.le; omega
  nonneg := le_max_left _ _
  below := hb
  dbl := nextSum_dbl x i p
  attained := (track_pre h he hD).1
  bound := (track_pre h he hD).2
  quiet := by
    intro s t h1 h2 h3
    rcases Nat.lt_or_eq_of_le h3 with h4 | h4
    · exact h.quiet s t h1 h2 (by omega)
    · subst h4
      have := (track_pre h he hD).2 s h1 (by omega)
      linarith

/-- One of the two sums cannot pass the threshold when the other one does. -/
theorem other_below {x : ℕ → ℚ} {thr ε e : ℚ} {r r' i : ℕ} {p q : ℚ} (h : Track x thr ε e r i p)
    (h' : Track (fun j => -x j) thr ε e r' i q) (hp : thr < nextSum x i p) : nextSum (fun j => -x j) i q ≤ thr := by
  have hthr : 0 ≤ thr := h.nonneg.trans h.below
  have h1 : p < signedDouble (p + signedDouble (x (i + 1) - x i)) := by
    unfold nextSum at hp
    rcases lt_max_iff.1 hp with h2 | h2
    · exact absurd h2 (not_lt.2 hthr)
    · exact lt_of_le_of_lt h.below h2
  have h2 : 0 < signedDouble (x (i + 1) - x i) := by
    by_contra hc
    have := signedDouble_mono (show p + signedDouble (x (i + 1) - x i) ≤ p by linarith)
    rw [h.dbl] at this
    linarith
  have h3 : signedDouble (-x (i + 1) - -x i) < 0 := by
    rw [show -x (i + 1) - -x i = -(x (i + 1) - x i) by ring, signedDouble_neg]
    linarith
  unfold nextSum
  have h4 := signedDouble_mono (show q + signedDouble (-x (i + 1) - -x i) ≤ q by linarith)
  rw [h'.dbl] at h4
  exact max_le hthr (h4.trans h'.below)

/-- An event of the rising sum: more than `thr - 3ε` from a position since the last event, and within `2ε` of the
lowest value seen by the other sum. -/
theorem event_step {x : ℕ → ℚ} {thr ε e D : ℚ} {a r r' i : ℕ} {p q : ℚ} (h : Track x thr ε e r i p)
    (h' : Track (fun j => -x j) thr ε e r' i q) (he : 0 ≤ e) (hD : |x (i + 1) - x i| ≤ D)
    (hε : e + (thr + 3 * D) / 2 ^ 53 ≤ ε) (hai : a ≤ i)
    (hl : ∀ s, r ≤ s → s ≤ a → x a - x s ≤ 2 * ε) (hp : thr < nextSum x i p) :
    (∃ s, a ≤ s ∧ s < i + 1 ∧ thr - 3 * ε < x (i + 1) - x s ∨ a ≤ s ∧ s < i + 1 ∧ thr - 3 * ε < 0) ∧
      ∀ s, r' ≤ s → s ≤ i + 1 → -x (i + 1) - -x s ≤ 2 * ε := by
  have hD0 : 0 ≤ D := (abs_nonneg _).trans hD
  have hthr : 0 ≤ thr := h.nonneg.trans h.below
  have hδ : 0 ≤ (thr + 3 * D) / 2 ^ 53 := by positivity
  have hε0 : 0 ≤ ε := by linarith
  obtain ⟨s, a1, a2, a3⟩ := (track_pre h he hD).1
  have hs : thr - ε < x (i + 1) - x s := by linarith
  have ho := other_below h h' hp
  have hD' : |(fun j => -x j) (i + 1) - (fun j => -x j) i| ≤ D := by
    simp only
    rw [show -x (i + 1) - -x i = -(x (i + 1) - x i) by ring, abs_neg]
    exact hD
  have hb := (track_pre h' he hD').2
  constructor
  · by_cases hneg : thr - 3 * ε < 0
    · exact ⟨a, Or.inr ⟨le_rfl, by omega, hneg⟩⟩
    · have hsi : s ≤ i := by
        by_contra hc
        have : s = i + 1 := by omega
        subst this
        linarith
      rcases le_total a s with h1 | h1
      · exact ⟨s, Or.inl ⟨h1, by omega, by linarith⟩⟩
      · have := hl s a1 h1
        exact ⟨a, Or.inl ⟨le_rfl, by omega, by linarith⟩⟩
  · intro t b1 b2
    rcases Nat.lt_or_eq_of_le b2 with b3 | b3
    · by_cases hsi : s ≤ i
      · rcases lt_trichotomy t s with h1 | h1 | h1
        · have := h'.quiet t s b1 h1 hsi
          linarith
        · subst h1; linarith
        · have := h.quiet s t a1 h1 (by omega)
          linarith
      · have : s = i + 1 := by omega
        subst this
        have := hb t b1 b2
        linarith
    · subst b3
      linarith

theorem posFoldR_segmented (x : ℕ → ℚ) (lab : ℕ → ℤ) (thr ε D : ℚ) (hthr : 0 ≤ thr) (n : ℕ)
    (hD : ∀ i, i + 1 < n → |x (i + 1) - x i| ≤ D) (hD0 : 0 ≤ D) (hε : (n : ℚ) * ((thr + 3 * D) / 2 ^ 53) = ε) (m : ℕ) :
    ∀ (a r r' i : ℕ) (s : Cusum ℚ), i + 1 + m = n → a ≤ i → r ≤ a → r' ≤ a →
      Track x thr ε (i * ((thr + 3 * D) / 2 ^ 53)) r i s.pos →
      Track (fun j => -x j) thr ε (i * ((thr + 3 * D) / 2 ^ 53)) r' i (-s.neg) →
      (∀ t, r ≤ t → t ≤ a → x a - x t ≤ 2 * ε) → (∀ t, r' ≤ t → t ≤ a → -x a - -x t ≤ 2 * ε) →
      ∃ ps, (posFoldR signedDouble x lab thr s (List.range' (i + 1) m)).events = s.events ++ ps.map lab ∧
        SegmentedW x (thr - 3 * ε) (thr + ε) n a ps := by
  have hδ : 0 ≤ (thr + 3 * D) / 2 ^ 53 := by positivity
  have hε0 : 0 ≤ ε := by rw [← hε]; positivity
  have hquiet : ∀ (a r r' i : ℕ) (e p q : ℚ), r ≤ a → r' ≤ a → Track x thr ε e r i p →
      Track (fun j => -x j) thr ε e r' i q → Quiet x (thr + ε) a (i + 1) := by
    intro a r r' i e p q h1 h2 h3 h4 s t b1 b2 b3
    have := h3.quiet s t (by omega) b2 (by omega)
    have := h4.quiet s t (by omega) b2 (by omega)
    rw [abs_le]
    constructor <;> linarith
  induction m with
  | zero =>
    intro a r r' i s hn hai hra hra' h h' hl hl'
    refine ⟨[], by simp [posFoldR], ?_⟩
    have := hquiet a r r' i _ _ _ hra hra' h h'
    rwa [show i + 1 = n by omega] at this
  | succ m ih =>
    intro a r r' i s hn hai hra hra' h h' hl hl'
    have he : 0 ≤ (i : ℚ) * ((thr + 3 * D) / 2 ^ 53) := by positivity
    have hDi := hD i (by omega)
    have hDi' : |(fun j => -x j) (i + 1) - (fun j => -x j) i| ≤ D := by
      simp only
      rw [show -x (i + 1) - -x i = -(x (i + 1) - x i) by ring, abs_neg]
      exact hDi
    have he' : (i : ℚ) * ((thr + 3 * D) / 2 ^ 53) + (thr + 3 * D) / 2 ^ 53 =
        ((i + 1 : ℕ) : ℚ) * ((thr + 3 * D) / 2 ^ 53) := by push_cast; ring
    have hεi : (i : ℚ) * ((thr + 3 * D) / 2 ^ 53) + (thr + 3 * D) / 2 ^ 53 ≤ ε := by
      rw [he', ← hε]
      have : ((i + 1 : ℕ) : ℚ) ≤ n := by exact_mod_cast (by omega : i + 1 ≤ n)
      gcongr
    have hq := hquiet a r r' i _ _ _ hra hra' h h'
    have hP : max 0 (signedDouble (s.pos + signedDouble (x (i + 1) - x i))) = nextSum x i s.pos := rfl
    have hN : min 0 (signedDouble (s.neg + signedDouble (x (i + 1) - x i))) = -nextSum (fun j => -x j) i (-s.neg) := by
      unfold nextSum
      simp only
      rw [show -x (i + 1) - -x i = -(x (i + 1) - x i) by ring, signedDouble_neg,
        show -s.neg + -signedDouble (x (i + 1) - x i) = -(s.neg + signedDouble (x (i + 1) - x i)) by ring,
        signedDouble_neg]
      generalize signedDouble (s.neg + signedDouble (x (i + 1) - x i)) = y
      rcases le_total 0 y with hy | hy
      · rw [min_eq_left hy, max_eq_left (by linarith)]; simp
      · rw [min_eq_right hy, max_eq_right (by linarith)]; simp
    have hstep : cusumStepR signedDouble thr s (lab (i + 1)) (signedDouble (x (i + 1) - x i)) =
        if -nextSum (fun j => -x j) i (-s.neg) < -thr then ⟨nextSum x i s.pos, 0, s.events ++ [lab (i + 1)]⟩
        else if nextSum x i s.pos > thr then
          ⟨0, -nextSum (fun j => -x j) i (-s.neg), s.events ++ [lab (i + 1)]⟩
        else ⟨nextSum x i s.pos, -nextSum (fun j => -x j) i (-s.neg), s.events⟩ := by
      unfold cusumStepR
      simp only [hP, hN]
    unfold posFoldR
    rw [List.range'_succ, List.foldl_cons, show i + 1 - 1 = i by omega, hstep]
    by_cases h1 : -nextSum (fun j => -x j) i (-s.neg) < -thr
    · rw [if_pos h1]
      have hmir : ∀ j, (fun j => -(fun j => -x j) j) j = x j := fun j => by simp
      have hxx : (fun j => -(fun j => -x j) j) = x := funext hmir
      have h'' : Track (fun j => -(fun j => -x j) j) thr ε (i * ((thr + 3 * D) / 2 ^ 53)) r i s.pos := by rw [hxx]; exact h
      obtain ⟨⟨t, ht⟩, hlow⟩ := event_step h' h'' he hDi' hεi hai hl' (by linarith)
      have hob := other_below h' h'' (by linarith)
      rw [hxx] at hob
      have h2 := track_next h he hDi hεi hob
      rw [he'] at h2
      obtain ⟨ps, e1, e2⟩ := ih (i + 1) r (i + 1) (i + 1) ⟨nextSum x i s.pos, 0, s.events ++ [lab (i + 1)]⟩ (by omega)
        le_rfl (by omega) le_rfl h2 (by rw [neg_zero]; exact track_start _ _ _ _ hthr (by positivity) _)
        (by
          intro u b1 b2
          have := hlow u b1 b2
          simpa using this)
        (by
          intro u b1 b2
          have : u = i + 1 := by omega
          subst this
          linarith)
      refine ⟨(i + 1) :: ps, ?_, by omega, by omega, hq, ?_, e2⟩
      · unfold posFoldR at e1
        rw [e1]
        simp
      · refine ⟨t, ?_⟩
        rcases ht with ⟨b1, b2, b3⟩ | ⟨b1, b2, b3⟩
        · refine ⟨b1, b2, ?_⟩
          rw [abs_sub_comm]
          refine lt_of_lt_of_le b3 (le_trans (le_of_eq ?_) (le_abs_self _))
          ring
        · exact ⟨b1, b2, lt_of_lt_of_le b3 (abs_nonneg _)⟩
    · rw [if_neg h1]
      by_cases h2 : nextSum x i s.pos > thr
      · rw [if_pos h2]
        obtain ⟨⟨t, ht⟩, hlow⟩ := event_step h h' he hDi hεi hai hl h2
        have hob := other_below h h' h2
        have h3 := track_next h' he hDi' hεi hob
        rw [he'] at h3
        obtain ⟨ps, e1, e2⟩ := ih (i + 1) (i + 1) r' (i + 1)
          ⟨0, -nextSum (fun j => -x j) i (-s.neg), s.events ++ [lab (i + 1)]⟩ (by omega)
          le_rfl le_rfl (by omega) (track_start _ _ _ _ hthr (by positivity) _) (by rw [neg_neg]; exact h3)
          (by
            intro u b1 b2
            have : u = i + 1 := by omega
            subst this
            linarith) hlow
        refine ⟨(i + 1) :: ps, ?_, by omega, by omega, hq, ?_, e2⟩
        · unfold posFoldR at e1
          rw [e1]
          simp
        · refine ⟨t, ?_⟩
          rcases ht with ⟨b1, b2, b3⟩ | ⟨b1, b2, b3⟩
          · exact ⟨b1, b2, lt_of_lt_of_le b3 (le_abs_self _)⟩
          · exact ⟨b1, b2, lt_of_lt_of_le b3 (abs_nonneg _)⟩
      · rw [if_neg h2]
        have h3 := track_next h he hDi hεi (not_lt.1 h2)
        have h4 := track_next h' he hDi' hεi (by linarith [not_lt.1 h1])
        rw [he'] at h3 h4
        obtain ⟨ps, e1, e2⟩ := ih a r r' (i + 1) ⟨nextSum x i s.pos, -nextSum (fun j => -x j) i (-s.neg), s.events⟩
          (by omega) (by omega) hra hra' h3 (by rw [neg_neg]; exact h4) hl hl'
        exact ⟨ps, e1, e2⟩

/-- C281, what holds: for any series whose single moves are at most `D`, up to an error `ε` of one part in `2^53` of `thr + 3D` per
value, each event is more than `thr - 3ε` away from a value since the last event, and between events the
series never moves by more than `thr + ε` (missing: the same with `ε = 0`). -/
theorem C281_close_partial (index : List ℤ) (series : List ℚ) (thr D : ℚ) (hthr : 0 ≤ thr)
    (hlen : index.length = series.length) (hn : index.Nodup) (hne : series ≠ []) (hD0 : 0 ≤ D)
    (hD : ∀ i, i + 1 < series.length → |series.getD (i + 1) 0 - series.getD i 0| ≤ D) :
    ∃ ps : List ℕ, filterCusumR signedDouble index series thr = .ok (ps.map fun p : ℕ => index.getD p 0) ∧
      SegmentedW (fun j => series.getD j 0) (thr - 3 * (series.length * ((thr + 3 * D) / 2 ^ 53)))
        (thr + series.length * ((thr + 3 * D) / 2 ^ 53)) series.length 0 ps := by
  have hpos : 0 < series.length := List.length_pos_iff.2 hne
  have hε : 0 ≤ (series.length : ℚ) * ((thr + 3 * D) / 2 ^ 53) := by positivity
  obtain ⟨ps, h1, h2⟩ := posFoldR_segmented (fun j => series.getD j 0) (fun j => index.getD j 0) thr _ D hthr
    series.length hD hD0 rfl (series.length - 1) 0 0 0 0 ⟨0, 0, []⟩ (by omega) le_rfl le_rfl le_rfl
    (track_start _ _ _ _ hthr (by simp) 0) (by rw [neg_zero]; exact track_start _ _ _ _ hthr (by simp) 0)
    (by intro t a b; have : t = 0 := by omega
        subst this; linarith)
    (by intro t a b; have : t = 0 := by omega
        subst this; linarith)
  refine ⟨ps, ?_, h2⟩
  rw [filterCusumR_eq _ _ _ _ hlen hn hne]
  simp only [Nat.zero_add] at h1
  rw [h1]
  rfl

theorem segmentedW_clear (x : ℕ → ℚ) (thr lo hi : ℚ) (n : ℕ) (hlo : lo ≤ thr)
    (hc : ∀ s t, s < t → t < n → |x t - x s| ≤ lo ∨ hi < |x t - x s|) (ht : thr ≤ hi) (ps : List ℕ) :
    ∀ r, SegmentedW x lo hi n r ps → Segmented x thr n r ps := by
  have hQ : ∀ a b, b ≤ n → Quiet x hi a b → Quiet x thr a b := by
    intro a b hb h s t h1 h2 h3
    rcases hc s t h2 (by omega) with h4 | h4
    · exact h4.trans hlo
    · exact absurd (h s t h1 h2 h3) (not_le.2 h4)
  induction ps with
  | nil => intro r h; exact hQ _ _ le_rfl h
  | cons p ps ih =>
    rintro r ⟨h1, h2, h3, ⟨s, h4, h5, h6⟩, h7⟩
    refine ⟨h1, h2, hQ _ _ h2.le h3, ⟨s, h4, h5, ?_⟩, ih p h7⟩
    rcases hc s p h5 h2 with h8 | h8
    · exact absurd h6 (not_lt.2 h8)
    · linarith

/-- C281, what holds, clear series: when no move between two values comes within the error of the threshold, the
events are exactly those of exact arithmetic (missing: moves of about the threshold). -/
theorem C281_clear_partial (index : List ℤ) (series : List ℚ) (thr D ε : ℚ) (hthr : 0 ≤ thr)
    (hlen : index.length = series.length) (hn : index.Nodup) (hne : series ≠ []) (hD0 : 0 ≤ D)
    (hD : ∀ i, i + 1 < series.length → |series.getD (i + 1) 0 - series.getD i 0| ≤ D)
    (hε : ε = series.length * ((thr + 3 * D) / 2 ^ 53))
    (hc : ∀ s t, s < t → t < series.length → |series.getD t 0 - series.getD s 0| ≤ thr - 3 * ε ∨
      thr + ε < |series.getD t 0 - series.getD s 0|) :
    filterCusumR signedDouble index series thr = filterCusum index series thr := by
  obtain ⟨ps, h1, h2⟩ := C281_close_partial index series thr D hthr hlen hn hne hD0 hD
  rw [← hε] at h2
  have hε0 : 0 ≤ ε := by rw [hε]; positivity
  obtain ⟨qs, g1, g2⟩ := filterCusum_segmented index series thr hthr hlen hn hne
  have h3 := segmentedW_clear (fun j => series.getD j 0) thr (thr - 3 * ε) (thr + ε) series.length (by linarith) hc
    (by linarith) ps 0 h2
  rw [h1, g1, segmented_unique _ _ _ _ _ _ h3 g2]

/-- The hypotheses of the last theorem are met: 0.1, 0.9, 0.2 in doubles and the threshold 0.75. -/
example : filterCusumR signedDouble [0, 1, 2] [signedDouble (1 / 10), signedDouble (9 / 10), signedDouble (2 / 10)] (3 / 4) =
    filterCusum [0, 1, 2] [signedDouble (1 / 10), signedDouble (9 / 10), signedDouble (2 / 10)] (3 / 4) := by
  refine C281_clear_partial _ _ (3 / 4) 1 _ (by norm_num) rfl (by decide) (by simp) (by norm_num) ?_ rfl ?_
  · intro i hi
    have : i = 0 ∨ i = 1 := by simp at hi; omega
    rcases this with rfl | rfl <;> decide +kernel
  · intro s t h1 h2
    have : (s = 0 ∧ t = 1) ∨ (s = 0 ∧ t = 2) ∨ (s = 1 ∧ t = 2) := by simp at h2; omega
    rcases this with ⟨rfl, rfl⟩ | ⟨rfl, rfl⟩ | ⟨rfl, rfl⟩ <;> decide +kernel

/-! ## C282: symmetry and scale -/

/-- The sums are doubles within the threshold. -/
structure Within (thr : ℚ) (s : Cusum ℚ) : Prop where
  pos0 : 0 ≤ s.pos
  pos1 : s.pos ≤ thr
  neg0 : s.neg ≤ 0
  neg1 : -thr ≤ s.neg
  dpos : signedDouble s.pos = s.pos
  dneg : signedDouble s.neg = s.neg

/-- The state for the negated series. -/
def mirror (s : Cusum ℚ) : Cusum ℚ := ⟨-s.neg, -s.pos, s.events⟩

theorem sd_zero' : signedDouble 0 = 0 := by simpa using signedDouble_nat 0 (by norm_num)

theorem mirror_step (thr : ℚ) (s : Cusum ℚ) (h : Within thr s) (t : ℤ) (d : ℚ) :
    cusumStepR signedDouble thr (mirror s) t (-d) = mirror (cusumStepR signedDouble thr s t d) ∧
      Within thr (cusumStepR signedDouble thr s t d) := by
  have hthr : 0 ≤ thr := h.pos0.trans h.pos1
  have e1 : max 0 (signedDouble (-s.neg + -d)) = -min 0 (signedDouble (s.neg + d)) := by
    rw [← neg_add, signedDouble_neg, ← max_neg_neg, neg_zero]
  have e2 : min 0 (signedDouble (-s.pos + -d)) = -max 0 (signedDouble (s.pos + d)) := by
    rw [← neg_add, signedDouble_neg, ← min_neg_neg, neg_zero]
  have hP0 : 0 ≤ max 0 (signedDouble (s.pos + d)) := le_max_left _ _
  have hN0 : min 0 (signedDouble (s.neg + d)) ≤ 0 := min_le_left _ _
  have hdP : signedDouble (max 0 (signedDouble (s.pos + d))) = max 0 (signedDouble (s.pos + d)) := by
    rcases max_choice 0 (signedDouble (s.pos + d)) with h1 | h1 <;> rw [h1]
    · exact sd_zero'
    · exact signedDouble_idem _
  have hdN : signedDouble (min 0 (signedDouble (s.neg + d))) = min 0 (signedDouble (s.neg + d)) := by
    rcases min_choice 0 (signedDouble (s.neg + d)) with h1 | h1 <;> rw [h1]
    · exact sd_zero'
    · exact signedDouble_idem _
  have hone : max 0 (signedDouble (s.pos + d)) ≤ thr ∨ -thr ≤ min 0 (signedDouble (s.neg + d)) := by
    rcases le_total d 0 with hd | hd
    · left
      have := signedDouble_mono (show s.pos + d ≤ s.pos by linarith)
      rw [h.dpos] at this
      exact max_le hthr (this.trans h.pos1)
    · right
      have := signedDouble_mono (show s.neg ≤ s.neg + d by linarith)
      rw [h.dneg] at this
      exact le_min (by linarith) (h.neg1.trans this)
  unfold cusumStepR mirror
  simp only [e1, e2]
  generalize max 0 (signedDouble (s.pos + d)) = P at *
  generalize min 0 (signedDouble (s.neg + d)) = N at *
  by_cases h1 : N < -thr
  · have h2 : P ≤ thr := hone.resolve_right (not_le.2 h1)
    rw [if_neg (by linarith), if_pos (by linarith), if_pos h1]
    exact ⟨by simp, ⟨hP0, h2, le_rfl, by simpa using hthr, hdP, sd_zero'⟩⟩
  · by_cases h2 : P > thr
    · rw [if_pos (by linarith), if_neg h1, if_pos h2]
      exact ⟨by simp, ⟨le_rfl, hthr, hN0, not_lt.1 h1, sd_zero', hdN⟩⟩
    · rw [if_neg (by linarith), if_neg (by linarith), if_neg h1, if_neg h2]
      exact ⟨rfl, ⟨hP0, not_lt.1 h2, hN0, not_lt.1 h1, hdP, hdN⟩⟩

/-- C282.  In doubles, too, negating the series does not change the events. -/
theorem C282_negation (index : List ℤ) (series : List ℚ) (thr : ℚ) (hthr : 0 ≤ thr)
    (hlen : index.length = series.length) (hn : index.Nodup) :
    filterCusumR signedDouble index (series.map fun v => -v) thr = filterCusumR signedDouble index series thr := by
  by_cases hne : series = []
  · subst hne; rfl
  rw [filterCusumR_eq _ _ _ _ (by simpa using hlen) hn (by simpa using hne), filterCusumR_eq _ _ _ _ hlen hn hne]
  have hg : ∀ i, (series.map fun v => -v).getD i 0 = -series.getD i 0 := by
    intro i
    rw [List.getD_eq_getElem?_getD, List.getD_eq_getElem?_getD, List.getElem?_map]
    cases series[i]? <;> simp
  have key : ∀ (js : List ℕ) (s : Cusum ℚ), Within thr s →
      posFoldR signedDouble (fun j => (series.map fun v => -v).getD j 0) (fun j => index.getD j 0) thr (mirror s) js =
        mirror (posFoldR signedDouble (fun j => series.getD j 0) (fun j => index.getD j 0) thr s js) := by
    intro js
    induction js with
    | nil => intro s _; rfl
    | cons j js ih =>
      intro s hs
      obtain ⟨h1, h2⟩ := mirror_step thr s hs (index.getD j 0)
        (signedDouble (series.getD j 0 - series.getD (j - 1) 0))
      have h3 := ih _ h2
      unfold posFoldR at h3 ⊢
      rw [List.foldl_cons, List.foldl_cons, ← h3, ← h1]
      simp only [hg]
      rw [← signedDouble_neg]
      congr 3
      ring_nf
  have := key (List.range' 1 (series.length - 1)) ⟨0, 0, []⟩
    ⟨le_rfl, hthr, le_rfl, by simpa using hthr, sd_zero', sd_zero'⟩
  rw [List.length_map]
  have h0 : mirror ⟨0, 0, []⟩ = ⟨0, 0, []⟩ := by simp [mirror]
  rw [h0] at this
  rw [this]
  rfl

theorem exponent_unique {q : ℚ} (hq : 0 < q) {e : ℤ} (h1 : (2 : ℚ) ^ 52 ≤ q / (2 : ℚ) ^ e) (h2 : q / (2 : ℚ) ^ e < (2 : ℚ) ^ 53) :
    exponent q = e := by
  obtain ⟨g1, g2⟩ := exponent_spec hq
  have hlt : ∀ a b : ℤ, (2 : ℚ) ^ 52 ≤ q / (2 : ℚ) ^ a → q / (2 : ℚ) ^ b < (2 : ℚ) ^ 53 → ¬ b < a := by
    intro a b ha hb hab
    have pa : (0 : ℚ) < (2 : ℚ) ^ a := by positivity
    have pb : (0 : ℚ) < (2 : ℚ) ^ b := by positivity
    rw [le_div_iff₀ pa] at ha
    rw [div_lt_iff₀ pb] at hb
    have h3 : (2 : ℚ) * (2 : ℚ) ^ b ≤ (2 : ℚ) ^ a := by
      rw [← zpow_one_add₀ (by norm_num : (2 : ℚ) ≠ 0)]
      exact zpow_le_zpow_right₀ (by norm_num) (by omega)
    have h4 : (2 : ℚ) ^ 53 = 2 ^ 52 * 2 := by norm_num
    rw [h4] at hb
    nlinarith [mul_le_mul_of_nonneg_left h3 (show (0 : ℚ) ≤ 2 ^ 52 by positivity)]
  have a1 := hlt _ _ g1 h2
  have a2 := hlt _ _ h1 g2
  omega

theorem roundDouble_scale (k : ℤ) (q : ℚ) : roundDouble ((2 : ℚ) ^ k * q) = (2 : ℚ) ^ k * roundDouble q := by
  have hk : (0 : ℚ) < (2 : ℚ) ^ k := by positivity
  have h2 : (2 : ℚ) ≠ 0 := by norm_num
  unfold roundDouble
  by_cases hq : q ≤ 0
  · rw [if_pos hq, if_pos (mul_nonpos_of_nonneg_of_nonpos hk.le hq), mul_zero]
  · have hq' : 0 < q := not_le.1 hq
    obtain ⟨g1, g2⟩ := exponent_spec hq'
    have hd : (2 : ℚ) ^ k * q / (2 : ℚ) ^ (k + exponent q) = q / (2 : ℚ) ^ exponent q := by
      rw [zpow_add₀ h2, mul_div_mul_left _ _ hk.ne']
    have he : exponent ((2 : ℚ) ^ k * q) = k + exponent q :=
      exponent_unique (mul_pos hk hq') (by rw [hd]; exact g1) (by rw [hd]; exact g2)
    rw [if_neg hq, if_neg (not_le.2 (mul_pos hk hq')), he, hd, zpow_add₀ h2]
    ring

theorem signedDouble_scale (k : ℤ) (q : ℚ) : signedDouble ((2 : ℚ) ^ k * q) = (2 : ℚ) ^ k * signedDouble q := by
  have hk : (0 : ℚ) < (2 : ℚ) ^ k := by positivity
  unfold signedDouble
  by_cases hq : q < 0
  · rw [if_pos hq, if_pos (mul_neg_of_pos_of_neg hk hq), ← mul_neg, roundDouble_scale]
    ring
  · rw [if_neg hq, if_neg (not_lt.2 (mul_nonneg hk.le (not_lt.1 hq))), roundDouble_scale]

theorem scale_step (k : ℤ) (thr : ℚ) (s : Cusum ℚ) (t : ℤ) (d : ℚ) :
    cusumStepR signedDouble ((2 : ℚ) ^ k * thr) ⟨(2 : ℚ) ^ k * s.pos, (2 : ℚ) ^ k * s.neg, s.events⟩ t ((2 : ℚ) ^ k * d) =
      ⟨(2 : ℚ) ^ k * (cusumStepR signedDouble thr s t d).pos, (2 : ℚ) ^ k * (cusumStepR signedDouble thr s t d).neg,
        (cusumStepR signedDouble thr s t d).events⟩ := by
  have hk : (0 : ℚ) < (2 : ℚ) ^ k := by positivity
  unfold cusumStepR
  simp only [← mul_add, signedDouble_scale]
  have e1 : max 0 ((2 : ℚ) ^ k * signedDouble (s.pos + d)) = (2 : ℚ) ^ k * max 0 (signedDouble (s.pos + d)) := by
    rw [mul_max_of_nonneg _ _ hk.le, mul_zero]
  have e2 : min 0 ((2 : ℚ) ^ k * signedDouble (s.neg + d)) = (2 : ℚ) ^ k * min 0 (signedDouble (s.neg + d)) := by
    rw [mul_min_of_nonneg _ _ hk.le, mul_zero]
  rw [e1, e2]
  generalize max 0 (signedDouble (s.pos + d)) = P
  generalize min 0 (signedDouble (s.neg + d)) = N
  have i1 : (2 : ℚ) ^ k * N < -((2 : ℚ) ^ k * thr) ↔ N < -thr := by
    rw [← mul_neg]
    exact mul_lt_mul_iff_right₀ hk
  have i2 : (2 : ℚ) ^ k * P > (2 : ℚ) ^ k * thr ↔ P > thr := mul_lt_mul_iff_right₀ hk
  simp only [i1, i2]
  split_ifs <;> simp

/-- C282.  In doubles, too, a change of scale by a power of two, of the series and the threshold, does not change the
events. -/
theorem C282_scale (index : List ℤ) (series : List ℚ) (thr : ℚ) (k : ℤ)
    (hlen : index.length = series.length) (hn : index.Nodup) :
    filterCusumR signedDouble index (series.map fun v => (2 : ℚ) ^ k * v) ((2 : ℚ) ^ k * thr) =
      filterCusumR signedDouble index series thr := by
  by_cases hne : series = []
  · subst hne
    have : index = [] := List.length_eq_zero_iff.1 (by simpa using hlen)
    subst this
    rfl
  rw [filterCusumR_eq _ _ _ _ (by simpa using hlen) hn (by simpa using hne), filterCusumR_eq _ _ _ _ hlen hn hne]
  have hg : ∀ i, (series.map fun v => (2 : ℚ) ^ k * v).getD i 0 = (2 : ℚ) ^ k * series.getD i 0 := by
    intro i
    rw [List.getD_eq_getElem?_getD, List.getD_eq_getElem?_getD, List.getElem?_map]
    cases series[i]? <;> simp
  have key : ∀ (js : List ℕ) (s : Cusum ℚ),
      posFoldR signedDouble (fun j => (series.map fun v => (2 : ℚ) ^ k * v).getD j 0) (fun j => index.getD j 0)
        ((2 : ℚ) ^ k * thr) ⟨(2 : ℚ) ^ k * s.pos, (2 : ℚ) ^ k * s.neg, s.events⟩ js =
      ⟨(2 : ℚ) ^ k * (posFoldR signedDouble (fun j => series.getD j 0) (fun j => index.getD j 0) thr s js).pos,
        (2 : ℚ) ^ k * (posFoldR signedDouble (fun j => series.getD j 0) (fun j => index.getD j 0) thr s js).neg,
        (posFoldR signedDouble (fun j => series.getD j 0) (fun j => index.getD j 0) thr s js).events⟩ := by
    intro js
    induction js with
    | nil => intro s; rfl
    | cons j js ih =>
      intro s
      have h3 := ih (cusumStepR signedDouble thr s (index.getD j 0)
        (signedDouble (series.getD j 0 - series.getD (j - 1) 0)))
      unfold posFoldR at h3 ⊢
      rw [List.foldl_cons, List.foldl_cons, ← h3, ← scale_step]
      simp only [hg, ← mul_sub, signedDouble_scale]
  have := key (List.range' 1 (series.length - 1)) ⟨0, 0, []⟩
  simp only [mul_zero] at this
  rw [List.length_map, this]

/-- Both hypotheses are met by the series of the counterexamples above: a missed event stays missed. -/
example : filterCusumR signedDouble [0, 1, 2] (missedSeries.map fun v => -v) (signedDouble (59 / 100)) = .ok [] := by
  rw [C282_negation _ _ _ (by decide +kernel) rfl (by decide), missed]

end FinML.Filters
