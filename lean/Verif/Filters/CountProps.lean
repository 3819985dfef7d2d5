import Verif.Filters.OptimalProps
import Mathlib.Algebra.Order.BigOperators.Group.Finset
import Mathlib.Algebra.BigOperators.Intervals

/-! # C235: how often the CUSUM filter fires -/

namespace FinML.Filters

variable {K : Type} [Field K] [LinearOrder K] [IsStrictOrderedRing K]

/-- The sum of the absolute changes from position `a` to position `b`. -/
def moved (x : ℕ → K) (a b : ℕ) : K := ∑ j ∈ Finset.Ico a b, |x (j + 1) - x j|

theorem moved_nonneg (x : ℕ → K) (a b : ℕ) : 0 ≤ moved x a b := Finset.sum_nonneg fun _ _ => abs_nonneg _

omit [IsStrictOrderedRing K] in
theorem moved_add (x : ℕ → K) {a b c : ℕ} (h1 : a ≤ b) (h2 : b ≤ c) : moved x a b + moved x b c = moved x a c :=
  Finset.sum_Ico_consecutive _ h1 h2

theorem abs_sub_le_moved (x : ℕ → K) {a b : ℕ} (h : a ≤ b) : |x b - x a| ≤ moved x a b := by
  induction b, h using Nat.le_induction with
  | base => simp [moved]
  | succ b hb ih =>
    unfold moved at *
    rw [Finset.sum_Ico_succ_top hb]
    have := abs_add_le (x b - x a) (x (b + 1) - x b)
    have e : x b - x a + (x (b + 1) - x b) = x (b + 1) - x a := by ring
    rw [e] at this
    linarith

theorem moved_mono (x : ℕ → K) {a s b : ℕ} (h1 : a ≤ s) (h2 : s ≤ b) : moved x s b ≤ moved x a b := by
  rw [← moved_add x h1 h2]
  linarith [moved_nonneg x a s]

theorem segmented_moved (x : ℕ → K) (thr : K) (n : ℕ) (ps : List ℕ) (r : ℕ) (hr : r < n)
    (h : Segmented x thr n r ps) :
    (ps.length : K) * thr ≤ moved x r (n - 1) ∧ (ps ≠ [] → (ps.length : K) * thr < moved x r (n - 1)) := by
  induction ps generalizing r with
  | nil => exact ⟨by simpa using moved_nonneg x r (n - 1), fun h => absurd rfl h⟩
  | cons p ps ih =>
    obtain ⟨h1, h2, -, ⟨s, hs1, hs2, hs3⟩, h5⟩ := h
    obtain ⟨i1, -⟩ := ih p h2 h5
    have a1 := (abs_sub_le_moved x hs2.le).trans (moved_mono x hs1 hs2.le)
    have a2 := moved_add x h1.le (show p ≤ n - 1 by omega)
    have : ((p :: ps).length : K) * thr < moved x r (n - 1) := by
      rw [List.length_cons]
      push_cast
      linarith
    exact ⟨this.le, fun _ => this⟩

/-- C235.  The number of events times the threshold is less than the sum of all absolute changes (if there is
an event at all). -/
theorem C235_count (index : List ℤ) (series : List K) (thr : K) (hthr : 0 ≤ thr)
    (hlen : index.length = series.length) (hn : index.Nodup) (hne : series ≠ []) :
    ∃ ts, filterCusum index series thr = .ok ts ∧
      (ts ≠ [] → (ts.length : K) * thr <
        ∑ j ∈ Finset.range (series.length - 1), |series.getD (j + 1) 0 - series.getD j 0|) := by
  obtain ⟨ps, h1, h2⟩ := filterCusum_segmented index series thr hthr hlen hn hne
  refine ⟨_, h1, fun h => ?_⟩
  have := (segmented_moved _ thr series.length ps 0 (List.length_pos_iff.2 hne) h2).2 (by
    rintro rfl
    exact h rfl)
  unfold moved at this
  rw [← Finset.range_eq_Ico] at this
  simpa using this

/-- C235.  If no change exceeds `d`, more than `thr/d` bars pass before the first event and between events. -/
theorem C235_gap (index : List ℤ) (series : List K) (thr d : K) (hthr : 0 ≤ thr)
    (hlen : index.length = series.length) (hn : index.Nodup) (hne : series ≠ [])
    (hd : ∀ j, j + 1 < series.length → |series.getD (j + 1) 0 - series.getD j 0| ≤ d) :
    ∃ ps : List ℕ, filterCusum index series thr = .ok (ps.map fun p : ℕ => index.getD p 0) ∧
      ∀ (k : ℕ) a b, (0 :: ps)[k]? = some a → ps[k]? = some b → thr < ((b : K) - (a : K)) * d := by
  obtain ⟨ps, h1, h2, h3, h4⟩ := C53_justified index series thr hthr hlen hn hne
  refine ⟨ps, h1, fun k a b ha hb => ?_⟩
  obtain ⟨s, hs1, hs2, hs3⟩ := h4 k a b ha hb
  have hbl := (h3 b (List.mem_of_getElem? hb)).2
  have a1 := (abs_sub_le_moved (fun j => series.getD j 0) hs2.le).trans (moved_mono _ hs1 hs2.le)
  have a2 : moved (fun j => series.getD j 0) a b ≤ ∑ _j ∈ Finset.Ico a b, d := by
    apply Finset.sum_le_sum
    intro j hj
    exact hd j (by have := (Finset.mem_Ico.1 hj).2; omega)
  rw [Finset.sum_const, Nat.card_Ico, nsmul_eq_mul, Nat.cast_sub (hs1.trans hs2.le)] at a2
  exact hs3.trans_le (a1.trans a2)

/-- Changes 1, 1, 1, -2, -2 and threshold 1: events at 2, 4 and 5; total movement 7. -/
example : filterCusum [0, 1, 2, 3, 4, 5] [0, 1, 2, 3, 1, (-1 : ℚ)] 1 = .ok [2, 4, 5] := by decide +kernel

end FinML.Filters
