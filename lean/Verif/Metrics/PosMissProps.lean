import Verif.Metrics.PosMissModel
import Verif.Metrics.PosProps
import Mathlib.Data.Rat.Floor

/-! # Bet timings and holding period with missing positions (C363) -/

namespace FinML.Metrics

set_option linter.unusedSectionVars false

variable {K : Type} [Field K] [LinearOrder K] [IsStrictOrderedRing K]

/-- Positions that agree with `s` where these are known. -/
def FillsPos (f : Ser K) (s : Ser (Option K)) : Prop :=
  List.Forall₂ (fun f r => f.1 = r.1 ∧ ∀ x, r.2 = some x → f.2 = x) f s

/-- C363, the full claim for the timings: they are those for some positions in the gaps. -/
def TimingsOfSomeFill (K : Type) [Field K] [LinearOrder K] [IsStrictOrderedRing K] : Prop :=
  ∀ s : Ser (Option K), (s.map Prod.fst).Pairwise (· < ·) → ∃ f, FillsPos f s ∧ positionTimingsM s = positionTimings f

/-- C363, the full claim for the holding period: one that is reported is that for some positions in the gaps. -/
def HoldingOfSomeFill (K : Type) [Field K] [LinearOrder K] [IsStrictOrderedRing K] : Prop :=
  ∀ (s : Ser (Option K)) (h : K), (s.map Prod.fst).Pairwise (· < ·) → holdingPeriodM s = .ok (some h) →
    ∃ f, FillsPos f s ∧ holdingPeriod f = .ok (some h)

/-- C363.  A position that goes from long to short over a gap ends at no time, though it does for every position in the gap. -/
theorem C363_timings_counterexample : ¬ TimingsOfSomeFill ℚ := by
  intro h
  obtain ⟨f, hf, he⟩ := h [(0, some 1), (1, none), (2, some (-1))] (by decide)
  have h0 : positionTimingsM ([(0, some 1), (1, none), (2, some (-1))] : Ser (Option ℚ)) = [] := by decide +kernel
  rw [h0] at he
  unfold FillsPos at hf
  match f, hf with
  | [(a, b), (c, x), (d, e)], hf =>
    simp only [List.forall₂_cons, List.forall₂_nil_left_iff, Option.some.injEq, forall_eq', and_true, reduceCtorEq,
      false_implies, implies_true] at hf
    obtain ⟨⟨rfl, rfl⟩, rfl, rfl, rfl⟩ := hf
    have hm := (C91_timings_partial ([(0, 1), (1, x), (2, -1)] : Ser ℚ) (by simp)).2.1
    rw [← he] at hm
    rcases lt_trichotomy x 0 with hx | hx | hx
    · exact absurd ((hm 1).2 (Or.inl ⟨0, 0, 1, x, rfl, rfl, Or.inr (Or.inr ⟨by norm_num, hx⟩)⟩)) (by simp)
    · exact absurd ((hm 1).2 (Or.inl ⟨0, 0, 1, x, rfl, rfl, Or.inl ⟨by norm_num, hx⟩⟩)) (by simp)
    · exact absurd ((hm 2).2 (Or.inl ⟨1, 1, x, -1, rfl, rfl, Or.inr (Or.inr ⟨hx, by norm_num⟩)⟩)) (by simp)

/-- A position that is opened in a gap on the second or third day and closed on the fourth. -/
def openedInGap : Ser (Option ℚ) := [(0, some 0), (dayNs, none), (2 * dayNs, some 1), (3 * dayNs, some 0)]

/-- C363.  It is reported to be held for three days, though for every position in the gap it is at most two. -/
theorem C363_holding_counterexample : ¬ HoldingOfSomeFill ℚ := by
  intro h
  obtain ⟨f, hf, he⟩ := h openedInGap 3 (by unfold openedInGap dayNs; decide) (by decide +kernel)
  unfold FillsPos openedInGap at hf
  match f, hf with
  | [(a, b), (c, x), (d, e), (g, i)], hf =>
    simp only [List.forall₂_cons, List.forall₂_nil_left_iff, Option.some.injEq, forall_eq', and_true, reduceCtorEq,
      false_implies, implies_true] at hf
    obtain ⟨⟨rfl, rfl⟩, rfl, ⟨rfl, rfl⟩, rfl, rfl⟩ := hf
    have d1 : (((dayNs - 0 : ℤ) : ℚ) / (dayNs : ℚ)) = 1 := by norm_num [dayNs]
    have d2 : (((2 * dayNs - 0 : ℤ) : ℚ) / (dayNs : ℚ)) = 2 := by norm_num [dayNs]
    have d3 : (((3 * dayNs - 0 : ℤ) : ℚ) / (dayNs : ℚ)) = 3 := by norm_num [dayNs]
    simp only [holdingPeriod, holdLoop, d1, d2, d3, py_pure, Except.ok.injEq] at he
    have s1 : holdStep 0 x 1 ((0, []) : HoldState ℚ) = (if x ≠ 0 then 1 else 0, []) := by
      unfold holdStep
      by_cases hx : x = 0 <;> simp [hx]
    rw [s1] at he
    rcases lt_trichotomy x 0 with hx | hx | hx
    · have s2 : holdStep x 1 2 ((if x ≠ 0 then 1 else 0, []) : HoldState ℚ) = (2, [(2 - 1, |x|)]) := by
        unfold holdStep
        rw [if_pos hx.ne, if_neg (by nlinarith), if_pos (by linarith)]
        rfl
      rw [s2] at he
      have s3 : holdStep 1 0 3 ((2, [(2 - 1, |x|)]) : HoldState ℚ) = (2, [(2 - 1, |x|), (3 - 2, 1)]) := by
        unfold holdStep
        norm_num
      rw [s3] at he
      unfold holdAverage at he
      have ha := abs_nonneg x
      simp only [List.map_cons, List.map_nil, List.sum_cons, List.sum_nil] at he
      rw [if_pos (by linarith), Option.some.injEq, div_eq_iff (by linarith)] at he
      linarith
    · subst hx
      simp [holdStep, holdAverage] at he
      norm_num at he
    · by_cases h1 : x ≤ 1
      · have s2 : holdStep x 1 2 ((if x ≠ 0 then 1 else 0, []) : HoldState ℚ) = (1 * x + 2 * (1 - x), []) := by
          unfold holdStep
          rw [if_pos hx.ne', if_pos (by nlinarith), if_pos (by norm_num), div_one]
        rw [s2] at he
        have s3 : holdStep 1 0 3 ((1 * x + 2 * (1 - x), []) : HoldState ℚ) =
            (1 * x + 2 * (1 - x), [(3 - (1 * x + 2 * (1 - x)), 1)]) := by
          unfold holdStep
          norm_num
        rw [s3] at he
        simp [holdAverage] at he
        linarith
      · have s2 : holdStep x 1 2 ((if x ≠ 0 then 1 else 0, []) : HoldState ℚ) = (1, [(2 - 1, |1 - x|)]) := by
          unfold holdStep
          rw [if_pos hx.ne', if_neg (by nlinarith), if_neg (by linarith)]
          rfl
        rw [s2] at he
        have s3 : holdStep 1 0 3 ((1, [(2 - 1, |1 - x|)]) : HoldState ℚ) = (1, [(2 - 1, |1 - x|), (3 - 1, 1)]) := by
          unfold holdStep
          norm_num
        rw [s3] at he
        unfold holdAverage at he
        have ha := abs_nonneg (1 - x)
        simp only [List.map_cons, List.map_nil, List.sum_cons, List.sum_nil] at he
        rw [if_pos (by linarith), Option.some.injEq, div_eq_iff (by linarith)] at he
        linarith

/-- The positions, all known. -/
def knownPos (s : Ser K) : Ser (Option K) := s.map fun p => (p.1, some p.2)

theorem holdLoopM_known (t0 : ℤ) (p : K) (st : HoldState K) (s : Ser K) :
    holdLoopM t0 (some p) st (knownPos s) = holdLoop t0 p st s := by
  induction s generalizing p st with
  | nil => rfl
  | cons a s ih =>
    obtain ⟨t, q⟩ := a
    exact ih q _

/-- C363.  With all positions known the holding period is that of C92. -/
theorem C363_holding_complete (s : Ser K) : holdingPeriodM (knownPos s) = holdingPeriod s := by
  cases s with
  | nil => rfl
  | cons a s =>
    obtain ⟨t, q⟩ := a
    change (pure (holdAverage (holdLoopM t (some q) (0, []) (knownPos s)).2) : Py (Option K)) = _
    rw [holdLoopM_known]
    rfl

theorem holdLoopM_append (t0 : ℤ) (p : Option K) (st : HoldState K) (a b : Ser (Option K)) :
    holdLoopM t0 p st (a ++ b) = holdLoopM t0 ((a.getLast?.map Prod.snd).getD p) (holdLoopM t0 p st a) b := by
  induction a generalizing p st with
  | nil => rfl
  | cons x a ih =>
    obtain ⟨t, q⟩ := x
    rw [List.cons_append, holdLoopM, ih, holdLoopM]
    congr 1
    cases a <;> simp [List.getLast?_cons_cons]
    rename_i y l
    rw [List.getLast?_eq_some_getLast (List.cons_ne_nil y l)]
    rfl

theorem holdLoop_append (t0 : ℤ) (p : K) (st : HoldState K) (a b : Ser K) :
    holdLoop t0 p st (a ++ b) = holdLoop t0 ((a.getLast?.map Prod.snd).getD p) (holdLoop t0 p st a) b := by
  induction a generalizing p st with
  | nil => rfl
  | cons x a ih =>
    obtain ⟨t, q⟩ := x
    rw [List.cons_append, holdLoop, ih, holdLoop]
    congr 1
    cases a <;> simp [List.getLast?_cons_cons]
    rename_i y l
    rw [List.getLast?_eq_some_getLast (List.cons_ne_nil y l)]
    rfl

theorem holdLoopM_gaps (t0 : ℤ) (p : Option K) (st : HoldState K) (ts : List ℤ) :
    holdLoopM t0 p st (ts.map fun t => (t, none)) = st := by
  induction ts generalizing p st with
  | nil => rfl
  | cons t ts ih =>
    rw [List.map_cons, holdLoopM, ih]
    cases p <;> rfl

theorem holdLoop_flat (t0 : ℤ) (p : K) (st : HoldState K) (ts : List ℤ) :
    holdLoop t0 p st (ts.map fun t => (t, p)) = st := by
  induction ts generalizing st with
  | nil => rfl
  | cons t ts ih =>
    rw [List.map_cons, holdLoop, ih]
    unfold holdStep
    by_cases hp : p = 0
    · simp [hp]
    · simp [hp]

/-- C363.  If positions are missing at the end only, the holding period is that for the last known position held to the end
(missing from the full claim: gaps between known positions). -/
theorem C363_trailing_partial (t0 : ℤ) (p : K) (s : Ser K) (ts : List ℤ) :
    holdingPeriodM (knownPos ((t0, p) :: s) ++ ts.map fun t => (t, none)) =
      holdingPeriod ((t0, p) :: s ++ ts.map fun t => (t, ((s.getLast?.map Prod.snd).getD p))) := by
  change (pure (holdAverage (holdLoopM t0 (some p) (0, []) (knownPos s ++ _)).2) : Py (Option K)) =
    pure (holdAverage (holdLoop t0 p (0, []) (s ++ _)).2)
  rw [holdLoopM_append, holdLoop_append, holdLoopM_gaps, holdLoop_flat, holdLoopM_known]

/-- C363.  The times reported: those of a zero that comes first, after a missing position or after another position than zero, and
those at which a known position has the other sign than a known position just before. -/
theorem C363_reported (s : Ser (Option K)) (hs : (s.map Prod.fst).Pairwise (· < ·)) (t : ℤ) :
    t ∈ positionTimingsM s ↔
      (∃ i : ℕ, s[i]? = some (t, some 0) ∧ ∀ j : ℕ, i = j + 1 → ∀ u, s[j]? ≠ some (u, some 0)) ∨
      ∃ (j : ℕ) (u : ℤ) (p q : K), s[j]? = some (u, some p) ∧ s[j + 1]? = some (t, some q) ∧ q * p < 0 := by
  have hinj : ∀ {i j : ℕ} {a b : Option K}, s[i]? = some (t, a) → s[j]? = some (t, b) → i = j := by
    intro i j a b hi hj
    have hn : (s.map Prod.fst).Nodup := hs.imp (fun h => ne_of_lt h)
    obtain ⟨hi', hi2⟩ := List.getElem?_eq_some_iff.1 hi
    obtain ⟨hj', hj2⟩ := List.getElem?_eq_some_iff.1 hj
    have := List.Nodup.getElem_inj_iff hn (i := i) (j := j) (hi := by simpa using hi') (hj := by simpa using hj')
    apply this.1
    simp [hi2, hj2]
  have hprev : ∀ o : Option K, (t, o) ∈ (s.map Prod.fst).zip (none :: s.map Prod.snd) ↔
      ∃ (i : ℕ) (q : Option K), s[i]? = some (t, q) ∧ (none :: s.map Prod.snd)[i]? = some o := by
    intro o
    rw [List.mem_iff_getElem?]
    constructor
    · rintro ⟨i, hi⟩
      rw [List.getElem?_zip_eq_some] at hi
      obtain ⟨h1, h2⟩ := hi
      rw [List.getElem?_map] at h1
      obtain ⟨⟨a, b⟩, hab, rfl⟩ := Option.map_eq_some_iff.1 h1
      exact ⟨i, b, hab, h2⟩
    · rintro ⟨i, q, h1, h2⟩
      exact ⟨i, List.getElem?_zip_eq_some.2 ⟨by rw [List.getElem?_map, h1]; rfl, h2⟩⟩
  have hflip : ∀ v : Option K, (t, v) ∈ List.zipWith (fun p (y : Option K) => (p.1, p.2.bind fun a => y.map fun b => a * b)) s.tail
      (s.dropLast.map Prod.snd) ↔
      ∃ (j : ℕ) (u : ℤ) (p q : Option K), s[j]? = some (u, p) ∧ s[j + 1]? = some (t, q) ∧
        v = q.bind fun a => p.map fun b => a * b := by
    intro v
    rw [List.mem_iff_getElem?]
    constructor
    · rintro ⟨i, hi⟩
      rw [List.getElem?_zipWith_eq_some] at hi
      obtain ⟨x, y, h1, h2, h3⟩ := hi
      rw [List.getElem?_tail] at h1
      rw [List.getElem?_map] at h2
      obtain ⟨⟨a, b⟩, hab, rfl⟩ := Option.map_eq_some_iff.1 h2
      rw [List.getElem?_dropLast] at hab
      split_ifs at hab
      obtain ⟨x1, x2⟩ := x
      simp only [Prod.mk.injEq] at h3
      exact ⟨i, a, b, x2, hab, by rw [h1, h3.1], h3.2.symm⟩
    · rintro ⟨i, u, p, q, h1, h2, rfl⟩
      have hlt : i + 1 < s.length := (List.getElem?_eq_some_iff.1 h2).1
      refine ⟨i, List.getElem?_zipWith_eq_some.2 ⟨(t, q), p, ?_, ?_, rfl⟩⟩
      · rw [List.getElem?_tail, h2]
      · rw [List.getElem?_map, List.getElem?_dropLast, if_pos (by omega), h1]
        rfl
  unfold positionTimingsM
  simp only [List.mem_insertionSort, List.mem_dedup, List.mem_append, List.mem_filter, List.mem_map, decide_eq_true_eq]
  constructor
  · rintro (⟨⟨⟨a, b⟩, ⟨hab, h0⟩, rfl⟩, ⟨c, d⟩, ⟨hcd, hd⟩, hc⟩ | ⟨⟨a, b⟩, ⟨hab, v, hv, hneg⟩, rfl⟩)
    · left
      simp only at h0 hd hc hprev hinj
      subst h0
      rw [hc] at hcd
      obtain ⟨i, q, h1, h2⟩ := (hprev d).1 hcd
      obtain ⟨i', h1'⟩ := List.mem_iff_getElem?.1 hab
      obtain rfl : i' = i := hinj h1' h1
      refine ⟨i', h1', ?_⟩
      rintro j rfl u hj
      rw [List.getElem?_cons_succ, List.getElem?_map, hj] at h2
      cases h2
      exact hd rfl
    · right
      simp only at hflip hv
      obtain ⟨j, u, p, q, h1, h2, h3⟩ := (hflip b).1 hab
      cases p with
      | none => cases q <;> simp [h3] at hv
      | some p => cases q with
        | none => simp [h3] at hv
        | some q =>
          have : q * p = v := by simpa [h3] using hv
          exact ⟨j, u, p, q, h1, h2, by rw [this]; exact hneg⟩
  · rintro (⟨i, hi, hprec⟩ | ⟨j, u, p, q, h1, h2, hneg⟩)
    · left
      refine ⟨⟨(t, some 0), ⟨List.mem_of_getElem? hi, rfl⟩, rfl⟩, ?_⟩
      cases i with
      | zero => exact ⟨(t, none), ⟨(hprev none).2 ⟨0, _, hi, rfl⟩, by simp⟩, rfl⟩
      | succ j =>
        have hlt : j < s.length := by have := (List.getElem?_eq_some_iff.1 hi).1; omega
        refine ⟨(t, s[j].2), ⟨(hprev _).2 ⟨j + 1, _, hi, ?_⟩, ?_⟩, rfl⟩
        · rw [List.getElem?_cons_succ, List.getElem?_map, List.getElem?_eq_getElem hlt]
          rfl
        · intro h0
          apply hprec j rfl s[j].1
          rw [List.getElem?_eq_getElem hlt, ← h0]
    · right
      exact ⟨(t, some (q * p)), ⟨(hflip _).2 ⟨j, u, some p, some q, h1, h2, rfl⟩, q * p, rfl, hneg⟩, rfl⟩

/-- C363.  With all positions known the timings are those of C91. -/
theorem C363_timings_complete (s : Ser K) : positionTimingsM (knownPos s) = positionTimings s := by
  have e1 : ((knownPos s).filter fun p => p.2 = some 0).map Prod.fst = (s.filter fun p => p.2 = 0).map Prod.fst := by
    unfold knownPos
    rw [List.filter_map, List.map_map]
    simp only [Function.comp_def, Option.some.injEq]
  have e2 : ((knownPos s).map Prod.fst).zip (none :: (knownPos s).map Prod.snd) = shift s := by
    unfold knownPos shift
    rw [List.map_map, List.map_map]
    rfl
  have e3 : List.zipWith (fun p (y : Option K) => (p.1, p.2.bind fun a => y.map fun b => a * b)) (knownPos s).tail
      ((knownPos s).dropLast.map Prod.snd) = (flips s).map fun p => (p.1, some p.2) := by
    unfold knownPos flips
    rw [← List.map_tail, ← List.map_dropLast, List.map_map, List.map_zipWith, List.zipWith_map, List.zipWith_map_right]
    rfl
  unfold positionTimingsM positionTimings
  simp only [e1, e2, e3]
  have e4 : (((flips s).map fun p => (p.1, some p.2)).filter fun p => ∃ v ∈ p.2, v < 0).map Prod.fst =
      ((flips s).filter fun p => p.2 < 0).map Prod.fst := by
    rw [List.filter_map, List.map_map]
    simp [Function.comp_def]
  rw [e4]

theorem reported_known (s : Ser (Option K)) (hs : (s.map Prod.fst).Pairwise (· < ·)) (j : ℕ)
    (u t : ℤ) (p q : K) (h1 : s[j]? = some (u, some p)) (h2 : s[j + 1]? = some (t, some q)) :
    t ∈ positionTimingsM s ↔ (q = 0 ∧ p ≠ 0) ∨ q * p < 0 := by
  have hinj : ∀ {i : ℕ} {b : Option K}, s[i]? = some (t, b) → i = j + 1 := by
    intro i b hi
    have hn : (s.map Prod.fst).Nodup := hs.imp (fun h => ne_of_lt h)
    obtain ⟨hi', hi2⟩ := List.getElem?_eq_some_iff.1 hi
    obtain ⟨hj', hj2⟩ := List.getElem?_eq_some_iff.1 h2
    have := List.Nodup.getElem_inj_iff hn (i := i) (j := j + 1) (hi := by simpa using hi') (hj := by simpa using hj')
    apply this.1
    simp [hi2, hj2]
  rw [C363_reported s hs]
  constructor
  · rintro (⟨i, hi, hprec⟩ | ⟨k, v, a, b, g1, g2, hneg⟩)
    · obtain rfl := hinj hi
      rw [h2] at hi
      cases hi
      refine Or.inl ⟨rfl, ?_⟩
      rintro rfl
      exact hprec j rfl u h1
    · have : k = j := by have := hinj g2; omega
      subst this
      rw [h1] at g1
      rw [h2] at g2
      cases g1
      cases g2
      exact Or.inr hneg
  · rintro (⟨rfl, hp⟩ | hneg)
    · refine Or.inl ⟨j + 1, h2, ?_⟩
      intro k hk v hv
      obtain rfl : j = k := by omega
      rw [h1] at hv
      cases hv
      exact hp rfl
    · exact Or.inr ⟨j, u, p, q, h1, h2, hneg⟩

theorem fillsPos_at {f : Ser K} {s : Ser (Option K)} (h : FillsPos f s) (i : ℕ) (t : ℤ) (x : K)
    (hb : s[i]? = some (t, some x)) : f[i]? = some (t, x) := by
  induction h generalizing i with
  | nil => simp at hb
  | @cons a c fs cs hf _ ih =>
    cases i with
    | zero =>
      simp only [List.getElem?_cons_zero, Option.some.injEq] at hb
      subst hb
      obtain ⟨a1, a2⟩ := a
      obtain rfl : a1 = t := hf.1
      obtain rfl : a2 = x := hf.2 x rfl
      rfl
    | succ i => simpa using ih i (by simpa using hb)

/-- C363.  At a known position after a known one a time is reported exactly if it is for any positions in the gaps (missing from
the full claim: times at and after gaps). -/
theorem C363_known_partial (f : Ser K) (s : Ser (Option K)) (hf : FillsPos f s) (hs : (s.map Prod.fst).Pairwise (· < ·)) (j : ℕ)
    (u t : ℤ) (p q : K) (h1 : s[j]? = some (u, some p)) (h2 : s[j + 1]? = some (t, some q)) :
    t ∈ positionTimingsM s ↔ t ∈ positionTimings f := by
  have hf' : ∀ {f : Ser K} {s : Ser (Option K)}, FillsPos f s → f.map Prod.fst = s.map Prod.fst := by
    intro f s h
    induction h with
    | nil => rfl
    | cons hab _ ih => rw [List.map_cons, List.map_cons, hab.1, ih]
  have g1 : (knownPos f)[j]? = some (u, some p) := by
    unfold knownPos
    rw [List.getElem?_map, fillsPos_at hf j u p h1]
    rfl
  have g2 : (knownPos f)[j + 1]? = some (t, some q) := by
    unfold knownPos
    rw [List.getElem?_map, fillsPos_at hf (j + 1) t q h2]
    rfl
  rw [← C363_timings_complete, reported_known s hs j u t p q h1 h2, reported_known _ ?_ j u t p q g1 g2]
  unfold knownPos
  rw [List.map_map]
  change (f.map Prod.fst).Pairwise (· < ·)
  rw [hf' hf]
  exact hs

/-- Gaps between, and at the end of, known positions. -/
example : positionTimingsM ([(0, some 1), (1, none), (2, some 0), (3, some 2), (4, some (-1)), (5, none)] : Ser (Option ℚ)) = [2, 4] ∧
    holdingPeriodM ([(0, some 1), (dayNs, some 0), (2 * dayNs, none)] : Ser (Option ℚ)) = .ok (some 1) := by
  decide +kernel

end FinML.Metrics
