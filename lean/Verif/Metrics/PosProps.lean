import Verif.Metrics.Model
import Verif.Py.Lemmas
import Mathlib.Tactic.Linarith
import Mathlib.Tactic.FieldSimp
import Mathlib.Tactic.Ring
import Mathlib.Tactic.LinearCombination
import Mathlib.Algebra.Order.BigOperators.Group.List
import Mathlib.Data.Rat.Floor

/-! # Position timings and holding period (C91, C92) -/

set_option linter.unusedSectionVars false

namespace FinML.Metrics

variable {K : Type} [Field K] [LinearOrder K] [IsStrictOrderedRing K]

/-- A bet ends at `t`: the position goes from non-zero to 0 or to the opposite sign. -/
def BetEnds (s : Ser K) (t : ℤ) : Prop :=
  ∃ (i : ℕ) (u : ℤ) (p q : K), s[i]? = some (u, p) ∧ s[i + 1]? = some (t, q) ∧
    ((p ≠ 0 ∧ q = 0) ∨ (p < 0 ∧ 0 < q) ∨ (0 < p ∧ q < 0))

/-- The full claim of C91. -/
def TimingsClaim : Prop := ∀ s : Ser ℚ, (s.map Prod.fst).Pairwise (· < ·) →
  (positionTimings s).Pairwise (· < ·) ∧ ∀ t : ℤ, t ∈ positionTimings s ↔ BetEnds s t

/-- A series that starts flat: its first time is reported. -/
theorem C91_timings_counterexample : ¬ TimingsClaim := by
  intro h
  have h1 := (h [(5, 0), (6, 1)] (by decide)).2 5
  have h2 : (5 : ℤ) ∈ positionTimings ([(5, 0), (6, 1)] : Ser ℚ) := by decide +kernel
  obtain ⟨i, u, p, q, -, hi, -⟩ := h1.1 h2
  rcases i with _ | i
  · simp at hi
  · rcases i with _ | i <;> simp at hi

/-- Two labels of the series agree only at the same place. -/
theorem time_inj {s : Ser K} (hs : (s.map Prod.fst).Pairwise (· < ·)) {i j : ℕ} {t : ℤ} {p q : K}
    (hi : s[i]? = some (t, p)) (hj : s[j]? = some (t, q)) : i = j := by
  have hn : (s.map Prod.fst).Nodup := hs.imp (fun h => ne_of_lt h)
  obtain ⟨hi', hi2⟩ := List.getElem?_eq_some_iff.1 hi
  obtain ⟨hj', hj2⟩ := List.getElem?_eq_some_iff.1 hj
  have := List.Nodup.getElem_inj_iff hn (i := i) (j := j) (hi := by simpa using hi') (hj := by simpa using hj')
  apply this.1
  simp [hi2, hj2]

theorem mem_shift (s : Ser K) (t : ℤ) (o : Option K) :
    (t, o) ∈ shift s ↔ ∃ (i : ℕ) (q : K), s[i]? = some (t, q) ∧
      ((i = 0 ∧ o = none) ∨ ∃ (j : ℕ) (u : ℤ) (p : K), i = j + 1 ∧ s[j]? = some (u, p) ∧ o = some p) := by
  rw [List.mem_iff_getElem?]
  unfold shift
  constructor
  · rintro ⟨i, hi⟩
    rw [List.getElem?_zip_eq_some] at hi
    obtain ⟨h1, h2⟩ := hi
    rw [List.getElem?_map] at h1
    obtain ⟨x, hx, rfl⟩ := Option.map_eq_some_iff.1 h1
    refine ⟨i, x.2, hx, ?_⟩
    rcases i with _ | j
    · left; simp at h2; exact ⟨rfl, h2.symm⟩
    · right
      simp only [List.getElem?_cons_succ, List.getElem?_map] at h2
      obtain ⟨y, hy, rfl⟩ := Option.map_eq_some_iff.1 h2
      exact ⟨j, y.1, y.2, rfl, hy, rfl⟩
  · rintro ⟨i, q, hi, h⟩
    refine ⟨i, ?_⟩
    rw [List.getElem?_zip_eq_some]
    refine ⟨by rw [List.getElem?_map, hi]; rfl, ?_⟩
    rcases h with ⟨rfl, rfl⟩ | ⟨j, u, p, rfl, hj, rfl⟩
    · simp
    · simp [hj]

theorem mem_flips (s : Ser K) (t : ℤ) (v : K) :
    (t, v) ∈ flips s ↔ ∃ (i : ℕ) (u : ℤ) (p q : K),
      s[i]? = some (u, p) ∧ s[i + 1]? = some (t, q) ∧ v = q * p := by
  rw [List.mem_iff_getElem?]
  unfold flips
  constructor
  · rintro ⟨i, hi⟩
    rw [List.getElem?_zipWith_eq_some] at hi
    obtain ⟨x, y, hx, hy, hv⟩ := hi
    rw [List.getElem?_tail] at hx
    rw [List.getElem?_map] at hy
    obtain ⟨z, hz, rfl⟩ := Option.map_eq_some_iff.1 hy
    have hz' : s[i]? = some z := by
      rw [List.getElem?_dropLast] at hz
      split_ifs at hz with h
      exact hz
    simp only [Prod.mk.injEq] at hv
    refine ⟨i, z.1, z.2, x.2, hz', ?_, hv.2.symm⟩
    rw [hx, ← hv.1]
  · rintro ⟨i, u, p, q, hi, hi1, rfl⟩
    refine ⟨i, ?_⟩
    rw [List.getElem?_zipWith_eq_some]
    refine ⟨(t, q), p, by rw [List.getElem?_tail]; exact hi1, ?_, rfl⟩
    rw [List.getElem?_map, List.getElem?_dropLast]
    have : i + 1 < s.length := (List.getElem?_eq_some_iff.1 hi1).1
    rw [if_pos (by omega), hi]; rfl

/-- C91 (partial): the reported times are the ends of bets, in order, and the first time if the series
starts flat.  Missing: the first time should not be reported; for a series that starts with a position
the claim holds as stated. -/
theorem C91_timings_partial (s : Ser K) (hs : (s.map Prod.fst).Pairwise (· < ·)) :
    (positionTimings s).Pairwise (· < ·) ∧
    (∀ t : ℤ, t ∈ positionTimings s ↔ BetEnds s t ∨ s.head? = some (t, 0)) ∧
    ((∀ t : ℤ, s.head? ≠ some (t, 0)) → ∀ t : ℤ, t ∈ positionTimings s ↔ BetEnds s t) := by
  have hmem : ∀ t : ℤ, t ∈ positionTimings s ↔ BetEnds s t ∨ s.head? = some (t, 0) := by
    intro t
    unfold positionTimings
    simp only [List.mem_insertionSort, List.mem_dedup, List.mem_append, List.mem_filter, List.mem_map,
      decide_eq_true_eq]
    constructor
    · rintro (⟨⟨⟨t', q⟩, ⟨hq, hq0⟩, rfl⟩, ⟨⟨t'', o⟩, ⟨ho, ho0⟩, h3⟩⟩ | ⟨⟨t', v⟩, ⟨hv, hv0⟩, rfl⟩)
      · simp only at h3 hq0 ho0
        subst h3
        subst hq0
        obtain ⟨i, q', hi, h⟩ := (mem_shift s _ _).1 ho
        obtain ⟨k, hk⟩ := List.mem_iff_getElem?.1 hq
        have := time_inj hs hi hk
        subst this
        rw [hi] at hk
        simp only [Option.some.injEq, Prod.mk.injEq, true_and] at hk
        subst hk
        rcases h with ⟨rfl, rfl⟩ | ⟨j, u, p, rfl, hj, rfl⟩
        · right; rw [List.head?_eq_getElem?]; exact hi
        · left; exact ⟨j, u, p, 0, hj, hi, Or.inl ⟨fun h => ho0 (by rw [h]), rfl⟩⟩
      · left
        obtain ⟨i, u, p, q, hi, hi1, rfl⟩ := (mem_flips s _ _).1 hv
        refine ⟨i, u, p, q, hi, hi1, Or.inr ?_⟩
        simp only at hv0
        rcases mul_neg_iff.1 hv0 with h | h
        · exact Or.inl ⟨h.2, h.1⟩
        · exact Or.inr ⟨h.2, h.1⟩
    · rintro (⟨i, u, p, q, hi, hi1, h⟩ | h)
      · rcases h with ⟨hp, rfl⟩ | h
        · left
          refine ⟨⟨(t, 0), ⟨List.mem_of_getElem? hi1, rfl⟩, rfl⟩, ⟨(t, some p), ⟨?_, ?_⟩, rfl⟩⟩
          · exact (mem_shift s _ _).2 ⟨i + 1, 0, hi1, Or.inr ⟨i, u, p, rfl, hi, rfl⟩⟩
          · simpa using hp
        · right
          refine ⟨(t, q * p), ⟨(mem_flips s _ _).2 ⟨i, u, p, q, hi, hi1, rfl⟩, ?_⟩, rfl⟩
          simp only
          rcases h with h | h
          · exact mul_neg_of_pos_of_neg h.2 h.1
          · exact mul_neg_of_neg_of_pos h.2 h.1
      · left
        rw [List.head?_eq_getElem?] at h
        refine ⟨⟨(t, 0), ⟨List.mem_of_getElem? h, rfl⟩, rfl⟩, ⟨(t, none), ⟨?_, by simp⟩, rfl⟩⟩
        exact (mem_shift s _ _).2 ⟨0, 0, h, Or.inl ⟨rfl, rfl⟩⟩
  refine ⟨?_, hmem, fun h t => by rw [hmem t]; exact or_iff_left (h t)⟩
  have h1 : (positionTimings s).Pairwise (· ≤ ·) := List.pairwise_insertionSort _ _
  have h2 : (positionTimings s).Nodup := by
    unfold positionTimings
    exact (List.perm_insertionSort _ _).nodup_iff.2 (List.nodup_dedup _)
  exact (h1.and h2).imp fun h => lt_of_le_of_ne h.1 h.2

example : positionTimings ([(0, 1), (1, 2), (2, 0), (3, 0), (5, -1), (6, 1), (7, 0)] : Ser ℚ) = [2, 6, 7] := by
  decide +kernel

/-! ## Holding period -/

/-- Days from `a` to `b`. -/
def days (a b : ℤ) : K := ((b - a : ℤ) : K) / ((24 * 60 * 60 * 10 ^ 9 : ℤ) : K)

/-- The size given up when going from position `p` to `q`: all of it if the sign changes, the
difference if it shrinks, nothing otherwise. -/
def reduced (p q : K) : K := if q * p < 0 then |p| else if |q| < |p| then |p| - |q| else 0

/-- Sum of a function of adjacent entries. -/
def sumAdjacent (f : ℤ × K → ℤ × K → K) : Ser K → K
  | a :: b :: rest => f a b + sumAdjacent f (b :: rest)
  | _ => 0

/-- Position-days: the area under the absolute position. -/
def positionDays (s : Ser K) : K := sumAdjacent (fun a b => |a.2| * days a.1 b.1) s

/-- The total size given up. -/
def totalReduced (s : Ser K) : K := sumAdjacent (fun a b => reduced a.2 b.2) s

/-- The position is reduced or reversed at some time. -/
def EverReduced (s : Ser K) : Prop :=
  ∃ (i : ℕ) (u t : ℤ) (p q : K), s[i]? = some (u, p) ∧ s[i + 1]? = some (t, q) ∧
    (|q| < |p| ∨ q * p < 0)

theorem dayNs_pos : (0 : K) < (dayNs : K) := by
  have : (0 : ℤ) < dayNs := by decide
  exact_mod_cast this

theorem days_nonneg {a b : ℤ} (h : a ≤ b) : (0 : K) ≤ days a b := by
  unfold days
  apply div_nonneg _ dayNs_pos.le
  exact_mod_cast sub_nonneg.2 h

theorem days_add (a b c : ℤ) : (days a b : K) + days b c = days a c := by
  unfold days
  rw [← add_div]
  congr 1
  push_cast
  ring

/-- The three cases of a step. -/
theorem holdStep_cases (p q t : K) (st : HoldState K) :
    (0 ≤ (q - p) * p ∧ |p| ≤ |q| ∧ 0 ≤ q * p ∧
      ((q ≠ 0 ∧ holdStep p q t st = ((st.1 * p + t * (q - p)) / q, st.2)) ∨
        (q = 0 ∧ p = 0 ∧ holdStep p q t st = st))) ∨
    (q * p < 0 ∧ holdStep p q t st = (t, st.2 ++ [(t - st.1, |p|)])) ∨
    (0 ≤ q * p ∧ |q| < |p| ∧ |q - p| = |p| - |q| ∧
      holdStep p q t st = (st.1, st.2 ++ [(t - st.1, |q - p|)])) := by
  unfold holdStep
  by_cases h : 0 ≤ (q - p) * p
  · left
    have hqp : p * p ≤ q * p := by linarith [sub_mul q p p]
    have h0 : 0 ≤ q * p := le_trans (mul_self_nonneg p) hqp
    have habs : |p| ≤ |q| := by
      rcases eq_or_ne p 0 with rfl | hp
      · simp
      · have : |p| * |p| ≤ |q| * |p| := by
          rw [← abs_mul, ← abs_mul, abs_of_nonneg h0, abs_of_nonneg (mul_self_nonneg p)]; exact hqp
        exact le_of_mul_le_mul_right this (abs_pos.2 hp)
    refine ⟨h, habs, h0, ?_⟩
    rw [if_pos h]
    by_cases hq : q = 0
    · right
      subst hq
      refine ⟨rfl, ?_, by simp⟩
      simpa using habs
    · left; exact ⟨hq, by rw [if_pos hq]⟩
  · right
    rw [if_neg h]
    by_cases h2 : q * p < 0
    · left; exact ⟨h2, by rw [if_pos h2]⟩
    · right
      rw [if_neg h2]
      push Not at h h2
      have hp : p ≠ 0 := by rintro rfl; simp at h
      refine ⟨h2, ?_, ?_, rfl⟩
      · rcases lt_or_gt_of_ne hp with hp' | hp'
        · have h3 : q ≤ 0 := by
            by_contra hc; push Not at hc
            linarith [mul_neg_of_pos_of_neg hc hp']
          have h4 : 0 < q - p := by
            by_contra hc; push Not at hc
            linarith [mul_nonneg_of_nonpos_of_nonpos hc hp'.le]
          rw [abs_of_nonpos h3, abs_of_neg hp']; linarith
        · have h3 : 0 ≤ q := by
            by_contra hc; push Not at hc
            linarith [mul_neg_of_neg_of_pos hc hp']
          have h4 : q - p < 0 := by
            by_contra hc; push Not at hc
            linarith [mul_nonneg hc hp'.le]
          rw [abs_of_nonneg h3, abs_of_pos hp']; linarith
      · rcases lt_or_gt_of_ne hp with hp' | hp'
        · have h3 : q ≤ 0 := by
            by_contra hc; push Not at hc
            linarith [mul_neg_of_pos_of_neg hc hp']
          have h4 : 0 < q - p := by
            by_contra hc; push Not at hc
            linarith [mul_nonneg_of_nonpos_of_nonpos hc hp'.le]
          rw [abs_of_nonpos h3, abs_of_neg hp', abs_of_pos h4]; ring
        · have h3 : 0 ≤ q := by
            by_contra hc; push Not at hc
            linarith [mul_neg_of_neg_of_pos hc hp']
          have h4 : q - p < 0 := by
            by_contra hc; push Not at hc
            linarith [mul_nonneg hc hp'.le]
          rw [abs_of_nonneg h3, abs_of_pos hp', abs_of_neg h4]; ring

/-- The weighted mean stays between its ends. -/
theorem entry_bounds {p q e t : K} (h : 0 ≤ (q - p) * p) (hq : q ≠ 0) (h0 : 0 ≤ q * p) (het : e ≤ t) :
    e ≤ (e * p + t * (q - p)) / q ∧ (e * p + t * (q - p)) / q ≤ t := by
  have e1 : (e * p + t * (q - p)) / q - e = (t - e) * ((q - p) / q) := by field_simp; ring
  have e2 : t - (e * p + t * (q - p)) / q = (t - e) * (p / q) := by field_simp; ring
  have h1 : 0 ≤ p / q := by
    have : p / q = q * p / (q * q) := by field_simp
    rw [this]; exact div_nonneg h0 (mul_self_nonneg q)
  have h2 : 0 ≤ (q - p) / q := by
    rcases lt_or_gt_of_ne hq with hq' | hq'
    · apply div_nonneg_of_nonpos _ hq'.le
      by_contra hc; push Not at hc
      have hp : p < 0 := by linarith
      linarith [mul_neg_of_pos_of_neg hc hp]
    · apply div_nonneg _ hq'.le
      by_contra hc; push Not at hc
      have hp : 0 < p := by linarith
      linarith [mul_neg_of_neg_of_pos hc hp]
  have h3 := mul_nonneg (sub_nonneg.2 het) h1
  have h4 := mul_nonneg (sub_nonneg.2 het) h2
  constructor <;> linarith

/-- What a step does to the closed positions. -/
theorem holdStep_spec (p q t T : K) (st : HoldState K) (h0 : 0 ≤ st.1) (ht : st.1 ≤ t) (hT : t ≤ T)
    (hcl : ∀ c ∈ st.2, 0 ≤ c.1 ∧ c.1 ≤ T ∧ 0 < c.2) :
    0 ≤ (holdStep p q t st).1 ∧ (holdStep p q t st).1 ≤ t ∧
    (∀ c ∈ (holdStep p q t st).2, 0 ≤ c.1 ∧ c.1 ≤ T ∧ 0 < c.2) ∧
    ((holdStep p q t st).2.map Prod.snd).sum = (st.2.map Prod.snd).sum + reduced p q ∧
    ((holdStep p q t st).2.map fun c => c.1 * c.2).sum + |q| * (t - (holdStep p q t st).1) =
      (st.2.map fun c => c.1 * c.2).sum + |p| * (t - st.1) := by
  rcases holdStep_cases p q t st with ⟨h, habs, hqp, ⟨hq, he⟩ | ⟨rfl, rfl, he⟩⟩ | ⟨h, he⟩ | ⟨h, habs, hd, he⟩
  · rw [he]
    obtain ⟨b1, b2⟩ := entry_bounds h hq hqp ht
    refine ⟨le_trans h0 b1, b2, hcl, ?_, ?_⟩
    · unfold reduced
      rw [if_neg (not_lt.2 hqp), if_neg (not_lt.2 habs)]; simp
    · simp only
      congr 1
      have e2 : t - (st.1 * p + t * (q - p)) / q = (t - st.1) * (p / q) := by field_simp; ring
      rw [e2]
      have h1 : 0 ≤ p / q := by
        have : p / q = q * p / (q * q) := by field_simp
        rw [this]; exact div_nonneg hqp (mul_self_nonneg q)
      have h2 : |q| * (p / q) = |p| := by
        rw [← abs_of_nonneg h1, abs_div]
        have : |q| ≠ 0 := abs_ne_zero.2 hq
        field_simp
      rw [← h2]; ring
  · rw [he]
    exact ⟨h0, ht, hcl, by simp [reduced], rfl⟩
  · rw [he]
    have hp : p ≠ 0 := by rintro rfl; simp at h
    refine ⟨le_trans h0 ht, le_refl _, ?_, ?_, ?_⟩
    · intro c hc
      simp only [List.mem_append, List.mem_singleton] at hc
      rcases hc with hc | rfl
      · exact hcl c hc
      · exact ⟨by simpa using ht, by simp only; linarith, abs_pos.2 hp⟩
    · unfold reduced
      rw [if_pos h]; simp
    · simp; ring
  · rw [he]
    refine ⟨h0, ht, ?_, ?_, ?_⟩
    · intro c hc
      simp only [List.mem_append, List.mem_singleton] at hc
      rcases hc with hc | rfl
      · exact hcl c hc
      · refine ⟨by simpa using ht, by simp only; linarith, ?_⟩
        simp only; rw [hd]; linarith
    · unfold reduced
      rw [if_neg (not_lt.2 h), if_pos habs, ← hd]; simp
    · simp only [List.map_append, List.sum_append, List.map_cons, List.map_nil, List.sum_cons,
        List.sum_nil, hd]
      ring

theorem reduced_nonneg (p q : K) : 0 ≤ reduced p q := by
  unfold reduced
  split_ifs with h1 h2
  · exact abs_nonneg _
  · linarith
  · exact le_refl _

theorem reduced_pos_iff (p q : K) : 0 < reduced p q ↔ (|q| < |p| ∨ q * p < 0) := by
  unfold reduced
  split_ifs with h1 h2
  · have hp : p ≠ 0 := by rintro rfl; simp at h1
    simp [h1, hp]
  · simp [h2]
  · simp [h1, h2]

/-- What the loop computes: entry and closed positions. -/
theorem holdLoop_spec (t0 : ℤ) (rest : Ser K) : ∀ (u : ℤ) (p : K) (st : HoldState K) (T : K),
    (((u, p) :: rest).map Prod.fst).Pairwise (· < ·) →
    (∀ x ∈ (u, p) :: rest, days t0 x.1 ≤ T) →
    0 ≤ st.1 → st.1 ≤ days t0 u → (∀ c ∈ st.2, 0 ≤ c.1 ∧ c.1 ≤ T ∧ 0 < c.2) →
    (∀ c ∈ (holdLoop t0 p st rest).2, 0 ≤ c.1 ∧ c.1 ≤ T ∧ 0 < c.2) ∧
    ((holdLoop t0 p st rest).2.map Prod.snd).sum
      = (st.2.map Prod.snd).sum + totalReduced ((u, p) :: rest) ∧
    (∀ x ∈ ((u, p) :: rest).getLast?,
      ((holdLoop t0 p st rest).2.map fun c => c.1 * c.2).sum
          + |x.2| * (days t0 x.1 - (holdLoop t0 p st rest).1)
        = (st.2.map fun c => c.1 * c.2).sum + |p| * (days t0 u - st.1) + positionDays ((u, p) :: rest)) := by
  induction rest with
  | nil =>
    intro u p st T _ _ _ _ hcl
    refine ⟨hcl, by simp [holdLoop, totalReduced, sumAdjacent], ?_⟩
    intro x hx
    simp at hx
    subst hx
    simp [holdLoop, positionDays, sumAdjacent]
  | cons y rest ih =>
    intro u p st T hs hT h0 hu hcl
    obtain ⟨t, q⟩ := y
    have hut : u < t := by
      have := (List.pairwise_cons.1 hs).1 t (by simp)
      exact this
    have hdt : st.1 ≤ days t0 t := by
      have h1 : (0 : K) ≤ days u t := days_nonneg hut.le
      have h2 : (days t0 u : K) + days u t = days t0 t := days_add _ _ _
      linarith
    obtain ⟨a1, a2, a3, a4, a5⟩ := holdStep_spec p q (days t0 t) T st h0 hdt
      (hT (t, q) (by simp)) hcl
    have hrec := ih t q (holdStep p q (days t0 t) st) T (List.pairwise_cons.1 hs).2
      (fun x hx => hT x (List.mem_cons_of_mem _ hx)) a1 a2 a3
    have hloop : holdLoop t0 p st ((t, q) :: rest) = holdLoop t0 q (holdStep p q (days t0 t) st) rest := rfl
    rw [hloop]
    refine ⟨hrec.1, ?_, ?_⟩
    · rw [hrec.2.1, a4]
      simp only [totalReduced, sumAdjacent]
      ring
    · intro x hx
      rw [List.getLast?_cons_cons] at hx
      rw [hrec.2.2 x hx, a5]
      have h2 : (days t0 u : K) + days u t = days t0 t := days_add _ _ _
      simp only [positionDays, sumAdjacent]
      rw [← h2]; ring

theorem sumAdjacent_nonneg (f : ℤ × K → ℤ × K → K) (s : Ser K) (h : ∀ a b, 0 ≤ f a b) :
    0 ≤ sumAdjacent f s := by
  induction s with
  | nil => simp [sumAdjacent]
  | cons a s ih =>
    cases s with
    | nil => simp [sumAdjacent]
    | cons b s => simp only [sumAdjacent]; exact add_nonneg (h _ _) ih

theorem totalReduced_pos_iff (s : Ser K) : 0 < totalReduced s ↔ EverReduced s := by
  induction s with
  | nil =>
    simp [totalReduced, sumAdjacent, EverReduced]
  | cons a s ih =>
    cases s with
    | nil => simp [totalReduced, sumAdjacent, EverReduced]
    | cons b s =>
      have h1 := reduced_nonneg a.2 b.2
      have h2 : 0 ≤ totalReduced (b :: s) := sumAdjacent_nonneg _ _ fun _ _ => reduced_nonneg _ _
      have e : totalReduced (a :: b :: s) = reduced a.2 b.2 + totalReduced (b :: s) := rfl
      rw [e]
      have e2 : 0 < reduced a.2 b.2 + totalReduced (b :: s) ↔
          0 < reduced a.2 b.2 ∨ 0 < totalReduced (b :: s) := by
        constructor
        · intro h
          by_contra hc
          push Not at hc
          linarith
        · rintro (h | h) <;> linarith
      rw [e2, ih, reduced_pos_iff]
      constructor
      · rintro (h | ⟨i, u, t, p, q, h1, h2, h3⟩)
        · exact ⟨0, a.1, b.1, a.2, b.2, by simp, by simp, h⟩
        · exact ⟨i + 1, u, t, p, q, by simpa using h1, by simpa using h2, h3⟩
      · rintro ⟨i, u, t, p, q, h1, h2, h3⟩
        rcases i with _ | i
        · left
          simp at h1 h2
          rw [h1, h2]; exact h3
        · right
          exact ⟨i, u, t, p, q, by simpa using h1, by simpa using h2, h3⟩

/-- C92: for increasing times the holding period is missing exactly if the position is never reduced;
it is between 0 and the length of the series; if the series ends flat it is the position-days held
divided by the total size given up, which for one round trip is the time from entry to exit. -/
theorem C92_holding_period (s : Ser K) (hne : s ≠ []) (hs : (s.map Prod.fst).Pairwise (· < ·)) :
    ∃ r : Option K, holdingPeriod s = .ok r ∧
      (r = none ↔ ¬ EverReduced s) ∧
      (∀ h : K, r = some h → ∀ a b : ℤ × K, s.head? = some a → s.getLast? = some b →
        0 ≤ h ∧ h ≤ days a.1 b.1 ∧ (b.2 = 0 → h = positionDays s / totalReduced s)) := by
  obtain ⟨⟨t0, p⟩, rest, rfl⟩ := List.exists_cons_of_ne_nil hne
  obtain ⟨b, hb⟩ : ∃ b, ((t0, p) :: rest).getLast? = some b := by
    rw [List.getLast?_eq_some_getLast (by simp)]; exact ⟨_, rfl⟩
  have hT : ∀ x ∈ (t0, p) :: rest, (days t0 x.1 : K) ≤ days t0 b.1 := by
    intro x hx
    have hle : x.1 ≤ b.1 := by
      obtain ⟨i, hi, rfl⟩ := List.getElem_of_mem hx
      rw [List.getLast?_eq_getElem?] at hb
      obtain ⟨hl, hb⟩ := List.getElem?_eq_some_iff.1 hb
      rw [← hb]
      rcases Nat.lt_or_ge i (((t0, p) :: rest).length - 1) with h | h
      · have := List.pairwise_iff_getElem.1 hs i (((t0, p) :: rest).length - 1) (by simpa using hi)
          (by simp) h
        rw [List.getElem_map, List.getElem_map] at this
        exact this.le
      · have : i = ((t0, p) :: rest).length - 1 := by omega
        simp [this]
    have h1 : (0 : K) ≤ days x.1 b.1 := days_nonneg hle
    have h2 : (days t0 x.1 : K) + days x.1 b.1 = days t0 b.1 := days_add _ _ _
    linarith
  have h00 : (days t0 t0 : K) = 0 := by simp [days]
  obtain ⟨c1, c2, c3⟩ := holdLoop_spec t0 rest t0 p (0, []) (days t0 b.1) hs hT (le_refl _)
    (by rw [h00]) (by simp)
  refine ⟨holdAverage (holdLoop t0 p (0, []) rest).2, rfl, ?_, ?_⟩
  · unfold holdAverage
    rw [c2]
    have e0 : (List.map Prod.snd ([] : List (Closed K))).sum = 0 := rfl
    change (if 0 < (List.map Prod.snd ([] : List (Closed K))).sum + _ then _ else _) = none ↔ _
    rw [e0, zero_add, ← totalReduced_pos_iff]
    split_ifs with h <;> simp [h]
  · intro h hr a b' ha hb'
    rw [hb] at hb'
    obtain rfl : b = b' := by simpa using hb'
    obtain rfl : (t0, p) = a := by simpa using ha
    set hp := (holdLoop t0 p (0, []) rest).2 with hhp
    unfold holdAverage at hr
    split_ifs at hr with hpos
    simp only [Option.some.injEq] at hr
    have hlo : ∀ l : List (Closed K), (∀ c ∈ l, 0 ≤ c.1 ∧ c.1 ≤ days t0 b.1 ∧ 0 < c.2) →
        0 ≤ (l.map fun c => c.1 * c.2).sum ∧
        (l.map fun c => c.1 * c.2).sum ≤ days t0 b.1 * (l.map Prod.snd).sum := by
      intro l
      induction l with
      | nil => intro _; simp
      | cons c l ih =>
        intro hl
        obtain ⟨i1, i2⟩ := ih fun c hc => hl c (List.mem_cons_of_mem _ hc)
        obtain ⟨j1, j2, j3⟩ := hl c (by simp)
        simp only [List.map_cons, List.sum_cons]
        have k1 := mul_nonneg j1 j3.le
        have k2 := mul_le_mul_of_nonneg_right j2 j3.le
        exact ⟨by linarith, by rw [mul_add]; linarith⟩
    obtain ⟨l1, l2⟩ := hlo hp c1
    refine ⟨?_, ?_, ?_⟩
    · rw [← hr]; exact div_nonneg l1 hpos.le
    · rw [← hr, div_le_iff₀ hpos]; exact l2
    · intro hflat
      have := c3 b (by rw [hb]; rfl)
      rw [hflat, h00] at this
      simp at this
      rw [← hr, this, c2]
      simp

/-- Number of position-days of one round trip. -/
theorem sumAdjacent_const (f : ℤ × K → ℤ × K → K) (a : ℤ × K) (l : Ser K) (r : Ser K) :
    sumAdjacent f ((a :: l) ++ r) = sumAdjacent f (a :: l)
      + sumAdjacent f ((a :: l).getLast (by simp) :: r) := by
  induction l generalizing a with
  | nil => simp [sumAdjacent]
  | cons b l ih =>
    have := ih b
    simp only [List.cons_append, sumAdjacent] at this ⊢
    have hg : (a :: b :: l).getLast (by simp) = (b :: l).getLast (by simp) := List.getLast_cons (by simp)
    rw [this, hg]
    ring

theorem positionDays_const (x : K) (t : ℤ) (l : List ℤ) :
    positionDays ((t :: l).map fun u : ℤ => (u, x)) = |x| * days t ((t :: l).getLast (by simp)) ∧
    totalReduced ((t :: l).map fun u : ℤ => (u, x)) = 0 := by
  induction l generalizing t with
  | nil => simp [positionDays, totalReduced, sumAdjacent, days]
  | cons b l ih =>
    obtain ⟨i1, i2⟩ := ih b
    simp only [positionDays, totalReduced, List.map_cons, sumAdjacent] at i1 i2 ⊢
    have hg : (t :: b :: l).getLast (by simp) = (b :: l).getLast (by simp) := List.getLast_cons (by simp)
    rw [i1, i2, hg]
    have h2 : (days t b : K) + days b ((b :: l).getLast (by simp)) = days t ((b :: l).getLast (by simp)) :=
      days_add _ _ _
    refine ⟨by rw [← h2]; ring, ?_⟩
    have : ¬ (x * x < 0) := not_lt.2 (mul_self_nonneg x)
    simp [reduced, this]

/-- C92: one round trip, a position `x` opened at `a`, held at the times `held` and closed at `b`, flat
before and after: the holding period is the time from `a` to `b`. -/
theorem C92_round_trip (x : K) (hx : x ≠ 0) (before held after : List ℤ) (a b : ℤ)
    (hs : (before ++ (a :: held) ++ (b :: after)).Pairwise (· < ·)) :
    holdingPeriod ((before.map fun u : ℤ => (u, (0 : K))) ++ ((a :: held).map fun u : ℤ => (u, x))
      ++ ((b :: after).map fun u : ℤ => (u, (0 : K)))) = .ok (some (days a b)) := by
  set s : Ser K := (before.map fun u : ℤ => (u, (0 : K))) ++ ((a :: held).map fun u : ℤ => (u, x))
      ++ ((b :: after).map fun u : ℤ => (u, (0 : K))) with hsdef
  have hfst : s.map Prod.fst = before ++ (a :: held) ++ (b :: after) := by
    rw [hsdef]
    simp [List.map_map, Function.comp_def]
  have hne : s ≠ [] := by rw [hsdef]; simp
  obtain ⟨r, hr, hnone, hsome⟩ := C92_holding_period s hne (by rw [hfst]; exact hs)
  -- position-days and size given up
  have hlastheld : ((a :: held).map fun u : ℤ => (u, x)).getLast (by simp) = ((a :: held).getLast (by simp), x) := by
    rw [List.getLast_map]
  have hmid : ∀ f : ℤ × K → ℤ × K → K,
      sumAdjacent f (((a :: held).map fun u : ℤ => (u, x)) ++ ((b :: after).map fun u : ℤ => (u, (0 : K))))
      = sumAdjacent f ((a :: held).map fun u : ℤ => (u, x)) + (f ((a :: held).getLast (by simp), x) (b, 0)
        + sumAdjacent f ((b :: after).map fun u : ℤ => (u, (0 : K)))) := by
    intro f
    have := sumAdjacent_const f (a, x) (held.map fun u : ℤ => (u, x)) ((b :: after).map fun u : ℤ => (u, (0 : K)))
    simp only [List.map_cons] at this hlastheld ⊢
    rw [this, hlastheld]
    rfl
  obtain ⟨d1, d2⟩ := positionDays_const x a held
  obtain ⟨e1, e2⟩ := positionDays_const (0 : K) b after
  have hm1 : positionDays (((a :: held).map fun u : ℤ => (u, x)) ++ ((b :: after).map fun u : ℤ => (u, (0 : K))))
      = |x| * days a b := by
    have := hmid fun a b => |a.2| * days a.1 b.1
    rw [positionDays, this]
    change positionDays _ + (_ + positionDays _) = _
    rw [d1, e1]
    simp only [abs_zero, zero_mul, add_zero]
    rw [← mul_add, days_add]
  have hm2 : totalReduced (((a :: held).map fun u : ℤ => (u, x)) ++ ((b :: after).map fun u : ℤ => (u, (0 : K))))
      = |x| := by
    have := hmid fun a b => reduced a.2 b.2
    rw [totalReduced, this]
    change totalReduced _ + (_ + totalReduced _) = _
    rw [d2, e2]
    simp [reduced, hx]
  have hall : positionDays s = |x| * days a b ∧ totalReduced s = |x| := by
    rw [hsdef, List.append_assoc]
    cases before with
    | nil => exact ⟨by simpa using hm1, by simpa using hm2⟩
    | cons c before =>
      obtain ⟨f1, f2⟩ := positionDays_const (0 : K) c before
      have hb : ∀ f : ℤ × K → ℤ × K → K,
          sumAdjacent f (((c :: before).map fun u : ℤ => (u, (0 : K))) ++ (((a :: held).map fun u : ℤ => (u, x)) ++ ((b :: after).map fun u : ℤ => (u, (0 : K)))))
          = sumAdjacent f ((c :: before).map fun u : ℤ => (u, (0 : K))) +
            (f ((c :: before).getLast (by simp), 0) (a, x) + sumAdjacent f (((a :: held).map fun u : ℤ => (u, x)) ++ ((b :: after).map fun u : ℤ => (u, (0 : K))))) := by
        intro f
        have := sumAdjacent_const f (c, (0 : K)) (before.map fun u : ℤ => (u, (0 : K))) (((a :: held).map fun u : ℤ => (u, x)) ++ ((b :: after).map fun u : ℤ => (u, (0 : K))))
        have hl : ((c :: before).map fun u : ℤ => (u, (0 : K))).getLast (by simp) = ((c :: before).getLast (by simp), 0) := by
          rw [List.getLast_map]
        simp only [List.map_cons] at this hl ⊢
        rw [this, hl]
        rfl
      constructor
      · rw [positionDays, hb]
        change positionDays _ + (_ + positionDays _) = _
        rw [f1, hm1]; simp
      · rw [totalReduced, hb]
        change totalReduced _ + (_ + totalReduced _) = _
        rw [f2, hm2]; simp [reduced]
  have hxpos : 0 < |x| := abs_pos.2 hx
  cases r with
  | none =>
    exfalso
    apply (hnone.1 rfl)
    rw [← totalReduced_pos_iff, hall.2]; exact hxpos
  | some h =>
    obtain ⟨y, hy⟩ : ∃ y, s.head? = some y := by
      cases hh : s with
      | nil => exact absurd hh hne
      | cons y ys => exact ⟨y, rfl⟩
    have hlast : s.getLast? = some ((b :: after).getLast (by simp), 0) := by
      rw [hsdef, List.getLast?_append, List.getLast?_map, List.getLast?_eq_some_getLast (by simp)]
      rfl
    have := (hsome h rfl y _ hy hlast).2.2 rfl
    rw [hr, this, hall.1, hall.2]
    rw [mul_div_cancel_left₀ _ hxpos.ne']

/-- C92: an empty series is an error. -/
theorem C92_empty : holdingPeriod ([] : Ser K) = .error .indexError := rfl

/-- Build up at days 0 and 2, close at day 4: 3 days on average. -/
example : holdingPeriod ([(0, 1), (2 * dayNs, 2), (4 * dayNs, 0)] : Ser ℚ) = .ok (some 3) := by
  decide +kernel

end FinML.Metrics
