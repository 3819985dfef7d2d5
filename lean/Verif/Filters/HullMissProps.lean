import Verif.Filters.HullMissModel
import Verif.Filters.HullAggProps

/-! # Hull moving average of series with missing values (C360) -/

namespace FinML.Filters

set_option linter.unusedSectionVars false

variable {K : Type} [Field K] [LinearOrder K] [IsStrictOrderedRing K]

open Classical in
/-- A column of length `n` with the entry `f i` where `P i` and missing elsewhere. -/
def HasAt (l : List (Option K)) (n : ℕ) (P : ℕ → Prop) (f : ℕ → K) : Prop :=
  l.length = n ∧ ∀ i < n, l[i]? = some (if P i then some (f i) else none)

theorem hasAt_zipO (op : K → K → K) {a b : List (Option K)} {n : ℕ} {P Q : ℕ → Prop} {f g : ℕ → K} (ha : HasAt a n P f)
    (hb : HasAt b n Q g) : HasAt (zipO op a b) n (fun i => P i ∧ Q i) (fun i => op (f i) (g i)) := by
  refine ⟨by simp [zipO, ha.1, hb.1], ?_⟩
  intro i hi
  unfold zipO
  rw [List.getElem?_zipWith, ha.2 i hi, hb.2 i hi]
  simp only [Option.some.injEq]
  by_cases h1 : P i <;> by_cases h2 : Q i <;> simp [h1, h2]

theorem hasAt_rolling {l : List (Option K)} {n : ℕ} {P : ℕ → Prop} {f : ℕ → K} (h : HasAt l n P f) (w : ℕ) (agg : List K → K) :
    HasAt (rolling w agg l) n (fun i => w ≤ i + 1 ∧ ∀ j ≤ i, i + 1 ≤ j + w → P j) (fun i => agg (windowAt w f i)) := by
  refine ⟨by simp [rolling, h.1], ?_⟩
  intro i hi
  unfold rolling
  rw [List.getElem?_map, List.getElem?_range (by rw [h.1]; exact hi), Option.map_some]
  congr 1
  unfold rollAt
  by_cases h1 : i + 1 < w
  · rw [if_pos h1, if_neg (by omega)]
  rw [if_neg h1]
  have hlen : ((l.drop (i + 1 - w)).take w).length = w := by
    rw [List.length_take, List.length_drop, h.1]; omega
  have hget : ∀ j (hj : j < w), ((l.drop (i + 1 - w)).take w)[j]? = l[i + 1 - w + j]? := by
    intro j hj
    rw [List.getElem?_take_of_lt hj, List.getElem?_drop]
  by_cases h2 : ∀ j ≤ i, i + 1 ≤ j + w → P j
  · have hp : w ≤ i + 1 ∧ ∀ j ≤ i, i + 1 ≤ j + w → P j := ⟨by omega, h2⟩
    rw [if_pos (c := (fun i => w ≤ i + 1 ∧ ∀ j ≤ i, i + 1 ≤ j + w → P j) i) hp]
    have heq : (l.drop (i + 1 - w)).take w = (windowAt w f i).map some := by
      apply List.ext_getElem?
      intro j
      by_cases hj : j < w
      · rw [hget j hj, h.2 _ (by omega), if_pos (h2 _ (by omega) (by omega))]
        unfold windowAt
        rw [List.map_map, List.getElem?_map, List.getElem?_range hj, Option.map_some]
        rfl
      · rw [List.getElem?_eq_none (by rw [hlen]; omega), List.getElem?_eq_none (by simp [windowAt]; omega)]
    rw [heq, if_neg (by simp)]
    congr 2
    rw [List.filterMap_map]
    exact List.filterMap_some
  · have hp : ¬ (w ≤ i + 1 ∧ ∀ j ≤ i, i + 1 ≤ j + w → P j) := fun h => h2 h.2
    rw [if_neg (c := (fun i => w ≤ i + 1 ∧ ∀ j ≤ i, i + 1 ≤ j + w → P j) i) hp, if_pos]
    push Not at h2
    obtain ⟨j, hj1, hj2, hj3⟩ := h2
    rw [List.any_eq_true]
    refine ⟨none, ?_, rfl⟩
    have := hget (j - (i + 1 - w)) (by omega)
    rw [show i + 1 - w + (j - (i + 1 - w)) = j by omega, h.2 j (by omega), if_neg hj3] at this
    exact List.mem_of_getElem? this

/-- C360.  The average at position `i` is missing if one of the last `n + ⌊√n⌋ - 1` values is, and that of any complete series
with the same known values otherwise. -/
theorem C360_hull (agg : Agg K) (series : List (Option K)) (fill : List K)
    (hf : List.Forall₂ (fun f s => ∀ x, s = some x → f = x) fill series) (n : ℕ) (hn : 2 ≤ n) :
    ∃ h g, hullAggM agg series n = .ok h ∧ hullAgg agg fill n = .ok g ∧ h.length = series.length ∧
      ∀ i < series.length,
        ((∃ j ≤ i, i + 2 ≤ j + n + Nat.sqrt n ∧ series[j]? = some none) → h[i]? = some none) ∧
        ((∀ j ≤ i, i + 2 ≤ j + n + Nat.sqrt n → series[j]? ≠ some none) → h[i]? = g[i]?) := by
  have hsq : 1 ≤ Nat.sqrt n := Nat.sqrt_pos.2 (by omega)
  obtain ⟨g, e1, e2⟩ := C325_value agg fill n hn
  have h0 : HasAt series series.length (fun i => series[i]? ≠ some none) (fun i => fill.getD i 0) := by
    refine ⟨rfl, fun i hi => ?_⟩
    have hi' : i < fill.length := by rw [hf.length_eq]; exact hi
    have hfi := (List.forall₂_iff_get.1 hf).2 i hi' hi
    simp only [List.get_eq_getElem] at hfi
    have hg := List.getElem?_eq_getElem hi
    cases hs : series[i] with
    | none => simp [hg, hs]
    | some v => simp [hg, hs, hi', hfi v hs]
  have h1 := hasAt_rolling h0 (n / 2) (aggOf agg (n / 2))
  have h2 := hasAt_rolling h0 n (aggOf agg n)
  have h3 := hasAt_rolling (hasAt_zipO (fun s l => 2 * s - l) h1 h2) (Nat.sqrt n) (aggOf agg (Nat.sqrt n))
  refine ⟨_, g, by unfold hullAggM; rw [if_neg (by omega)], e1, h3.1, fun i hi => ⟨?_, ?_⟩⟩
  · rintro ⟨j, hj1, hj2, hj3⟩
    rw [h3.2 i hi, if_neg]
    rintro ⟨hw, hall⟩
    by_cases hk : j + Nat.sqrt n ≤ i + 1
    · exact (hall (i + 1 - Nat.sqrt n) (by omega) (by omega)).2.2 j (by omega) (by omega) hj3
    · exact (hall j hj1 (by omega)).2.2 j le_rfl (by omega) hj3
  · intro hall
    rw [h3.2 i hi, e2.2 i (by rw [hf.length_eq]; exact hi)]
    by_cases hlo : i < n + Nat.sqrt n - 2
    · rw [if_pos hlo, if_neg]
      rintro ⟨hw, h⟩
      have := (h (i + 1 - Nat.sqrt n) (by omega) (by omega)).2.1
      omega
    · rw [if_neg hlo, if_pos]
      refine ⟨by omega, fun k hk1 hk2 => ⟨⟨by omega, fun j hj1 hj2 => hall j (by omega) (by omega)⟩,
        ⟨by omega, fun j hj1 hj2 => hall j (by omega) (by omega)⟩⟩⟩

/-- A gap that has left the windows, and one that has not. -/
example : hullAggM .mean [none, some 1, some 2, some (4 : ℚ)] 2 = .ok [none, none, some (5 / 2), some 5] ∧
    hullAgg .mean [9, 1, 2, (4 : ℚ)] 2 = .ok [none, some (-3), some (5 / 2), some 5] := by
  decide +kernel

end FinML.Filters
