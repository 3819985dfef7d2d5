import Verif.Filters.MmiMissModel
import Verif.Filters.MmiProps
import Mathlib.Data.Rat.Floor

/-! # C372: market meanness index of a series with missing values -/

set_option linter.unusedSectionVars false

namespace FinML.Filters

variable {K : Type} [Field K] [LinearOrder K] [IsStrictOrderedRing K]

/-- The number of neighbours both of which are known. -/
def knownNeighbours (l : List (Option K)) : ℕ :=
  ((l.tail.zip l).filter fun p => p.1.isSome && p.2.isSome).length

/-- The median is right for complete series, whatever it is for others. -/
def MedianOfComplete (median : List (Option K) → Option K) : Prop :=
  ∀ l : List K, l ≠ [] → median (l.map some) = some (npMedian l)

/-- The index is that of the known values. -/
def IndexOfKnown (K : Type) [Field K] [LinearOrder K] [IsStrictOrderedRing K] : Prop :=
  ∃ median : List (Option K) → Option K, MedianOfComplete median ∧
    ∀ l : List (Option K), 2 ≤ (l.filterMap id).length → mmiM median l = mmi (l.filterMap id)

/-- C372.  No treatment of NaN by the median makes the index that of the known values: with every second value missing it
is 0. -/
theorem C372_counterexample : ¬ IndexOfKnown ℚ := by
  rintro ⟨median, -, h⟩
  have h1 := h [some 1, none, some 3] (by decide)
  have h2 : mmi (([some 1, none, some 3] : List (Option ℚ)).filterMap id) = .ok 1 := by decide +kernel
  have h3 : mmiM median [some 1, none, some 3] = .ok 0 := by
    unfold mmiM nHiM nLoM
    simp only [List.length_cons, List.length_nil, List.tail_cons, List.zipWith_cons_cons, List.zipWith_nil_left]
    cases median [some 1, none, some 3] <;> simp [gtO, diffO]
  rw [h2, h3] at h1
  injection h1 with h1
  exact absurd h1 (by norm_num)

theorem hiloM_le (m : Option K) (l' l : List (Option K)) :
    (List.zipWith (fun b a => gtO b m && gtO (diffO b a) (some 0)) l' l).count true +
      (List.zipWith (fun b a => gtO m b && gtO (some 0) (diffO b a)) l' l).count true ≤
      ((l'.zip l).filter fun p => p.1.isSome && p.2.isSome).length := by
  induction l' generalizing l with
  | nil => simp
  | cons b l' ih =>
    cases l with
    | nil => simp
    | cons a l =>
      have := ih l
      rw [List.zipWith_cons_cons, List.zipWith_cons_cons, List.zip_cons_cons, List.count_cons, List.count_cons,
        List.filter_cons]
      cases b with
      | none => simpa [gtO, diffO] using this
      | some y =>
        cases a with
        | none => simpa [gtO, diffO] using this
        | some x =>
          cases m with
          | none => simp [gtO] at this ⊢; omega
          | some c =>
            have hx : (gtO (diffO (some y) (some x)) (some 0) && gtO (some 0) (diffO (some y) (some x))) = false := by
              by_cases h : 0 < y - x
              · have h' : ¬ y - x < 0 := not_lt.2 h.le
                simp only [gtO, diffO, Option.bind_some, Option.map_some, gt_iff_lt, h', decide_false, Bool.and_false]
              · simp only [gtO, diffO, Option.bind_some, Option.map_some, gt_iff_lt, h, decide_false, Bool.false_and]
            have hl : ((if ((some y, some x).1.isSome && (some y, some x).2.isSome) = true then
                (some y, some x) :: (l'.zip l).filter fun p => p.1.isSome && p.2.isSome
                else (l'.zip l).filter fun p => p.1.isSome && p.2.isSome)).length =
                ((l'.zip l).filter fun p => p.1.isSome && p.2.isSome).length + 1 := by simp
            rw [hl]
            revert hx
            generalize gtO (diffO (some y) (some x)) (some 0) = A
            generalize gtO (some 0) (diffO (some y) (some x)) = B
            generalize gtO (some y) (some c) = C
            generalize gtO (some c) (some y) = D
            intro hx
            cases A <;> cases B <;> cases C <;> cases D <;> simp at hx ⊢ <;> omega

/-- C372.  Whatever the median, the index is between 0 and the fraction of steps between two known values: the steps to and
from a missing value are never counted. -/
theorem C372_at_most (median : List (Option K) → Option K) (l : List (Option K)) (h : 2 ≤ l.length) :
    ∃ v, mmiM median l = .ok v ∧ 0 ≤ v ∧ v ≤ (knownNeighbours l : K) / ((l.length : K) - 1) := by
  have hc : ((l.length - 1 : ℕ) : K) = (l.length : K) - 1 := by
    rw [Nat.cast_sub (by omega), Nat.cast_one]
  have hpos : (0 : K) < ((l.length - 1 : ℕ) : K) := by
    have : 0 < l.length - 1 := by omega
    exact_mod_cast this
  refine ⟨_, by unfold mmiM; rw [if_neg (by omega), if_neg (by omega)], by positivity, ?_⟩
  rw [← hc]
  apply div_le_div_of_nonneg_right _ hpos.le
  exact_mod_cast hiloM_le (median l) l.tail l

/-- C372.  If the median of a series with missing values is missing, so that no value is above or below it, the index
is 0 and not missing. -/
theorem C372_missing_median (median : List (Option K) → Option K) (l : List (Option K)) (h : 2 ≤ l.length)
    (hm : median l = none) : mmiM median l = .ok 0 := by
  have h1 : ∀ l' l : List (Option K),
      (List.zipWith (fun b a => gtO b none && gtO (diffO b a) (some 0)) l' l).count true = 0 ∧
      (List.zipWith (fun b a => gtO none b && gtO (some 0) (diffO b a)) l' l).count true = 0 := by
    intro l'
    induction l' with
    | nil => simp
    | cons b l' ih =>
      intro l
      cases l with
      | nil => simp
      | cons a l =>
        rw [List.zipWith_cons_cons, List.zipWith_cons_cons, List.count_cons, List.count_cons, (ih l).1, (ih l).2]
        cases b <;> simp [gtO]
  unfold mmiM nHiM nLoM
  rw [if_neg (by omega), if_neg (by omega), hm, (h1 _ _).1, (h1 _ _).2]
  simp

/-- C372.  For complete series the index is that of C56.  Missing: series with missing values, C372_counterexample. -/
theorem C372_complete_partial (median : List (Option K) → Option K) (hm : MedianOfComplete median) (l : List K)
    (h : 2 ≤ l.length) : mmiM median (l.map some) = mmi l := by
  have hne : l ≠ [] := by rintro rfl; simp at h
  have hd : ∀ x y : K, diffO (some y) (some x) = some (y - x) := fun _ _ => rfl
  unfold mmiM mmi nHiM nLoM nHi nLo
  rw [hm l hne, List.length_map, ← List.map_tail, List.zipWith_map, List.zipWith_map]
  rfl

example : mmiM (fun _ => some 2) [some (1 : ℚ), none, some 3, some 1] = .ok (1 / 3) ∧
    knownNeighbours [some (1 : ℚ), none, some 3, some 1] = 1 := by decide +kernel

end FinML.Filters
