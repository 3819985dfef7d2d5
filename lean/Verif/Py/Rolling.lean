import Verif.Py.Basic
import Mathlib.Algebra.BigOperators.Group.Finset.Basic
import Mathlib.Algebra.BigOperators.Intervals

/-!
# Rolling windows

`Series.rolling(w).agg` on a column with missing values, `min_periods` at its default `w`.
-/

namespace FinML

variable {α β : Type}

/-- `rolling(w).agg(...)` at position `i`: missing unless the window of `w` values ending at `i`
exists and has no missing value; filters.py:50-52. -/
def rollAt (w : ℕ) (agg : List α → β) (l : List (Option α)) (i : ℕ) : Option β :=
  if i + 1 < w then none else
  if ((l.drop (i + 1 - w)).take w).any Option.isNone then none else
  some (agg (((l.drop (i + 1 - w)).take w).filterMap id))

/-- `Series.rolling(w).agg(...)` for `w ≥ 1`; filters.py:50-52, microstructure.py:61, 67-68. -/
def rolling (w : ℕ) (agg : List α → β) (l : List (Option α)) : List (Option β) :=
  (List.range l.length).map (rollAt w agg l)

/-- A column of length `n` whose first `lo` entries are missing and whose `i`-th entry is `f i` from
there on. -/
def Has (l : List (Option α)) (n lo : ℕ) (f : ℕ → α) : Prop :=
  l.length = n ∧ ∀ i < n, l[i]? = some (if i < lo then none else some (f i))

theorem has_map_some (l : List α) (d : α) : Has (l.map some) l.length 0 (fun i => l.getD i d) := by
  refine ⟨by simp, ?_⟩
  intro i hi
  simp [hi]

theorem has_unique {l l' : List (Option α)} {n lo : ℕ} {f : ℕ → α} (h : Has l n lo f)
    (h' : Has l' n lo f) : l = l' := by
  apply List.ext_getElem?
  intro i
  by_cases hi : i < n
  · rw [h.2 i hi, h'.2 i hi]
  · rw [List.getElem?_eq_none (by rw [h.1]; omega), List.getElem?_eq_none (by rw [h'.1]; omega)]

theorem has_congr {l : List (Option α)} {n lo : ℕ} {f g : ℕ → α} (h : Has l n lo f)
    (hfg : ∀ i < n, lo ≤ i → f i = g i) : Has l n lo g := by
  refine ⟨h.1, ?_⟩
  intro i hi
  rw [h.2 i hi]
  by_cases hl : i < lo
  · simp [hl]
  · simp [hl, hfg i hi (by omega)]

theorem has_map {γ : Type} {l : List (Option α)} {n lo : ℕ} {f : ℕ → α} (h : Has l n lo f)
    (g : α → γ) : Has (l.map (Option.map g)) n lo (fun i => g (f i)) := by
  refine ⟨by simpa using h.1, ?_⟩
  intro i hi
  rw [List.getElem?_map, h.2 i hi]
  by_cases hl : i < lo <;> simp [hl]

/-- An element-wise operation of two columns with missing values; filters.py:52. -/
def zipO {γ : Type} (op : α → β → γ) (a : List (Option α)) (b : List (Option β)) : List (Option γ) :=
  List.zipWith (fun x y => x.bind fun u => y.map fun v => op u v) a b

theorem has_zipO {γ : Type} (op : α → β → γ) {a : List (Option α)} {b : List (Option β)}
    {n lo lo' : ℕ} {f : ℕ → α} {g : ℕ → β} (ha : Has a n lo f) (hb : Has b n lo' g) :
    Has (zipO op a b) n (max lo lo') (fun i => op (f i) (g i)) := by
  refine ⟨by simp [zipO, ha.1, hb.1], ?_⟩
  intro i hi
  unfold zipO
  rw [List.getElem?_zipWith, ha.2 i hi, hb.2 i hi]
  simp only [Option.some.injEq]
  by_cases h1 : i < lo <;> by_cases h2 : i < lo' <;> simp [h1, h2]

theorem has_rolling {l : List (Option α)} {n lo : ℕ} {f : ℕ → α} (h : Has l n lo f) (w : ℕ)
    (hw : 1 ≤ w) (agg : List α → β) :
    Has (rolling w agg l) n (lo + w - 1)
      (fun i => agg ((List.range w).map fun j : ℕ => f (i + 1 - w + j))) := by
  refine ⟨by simp [rolling, h.1], ?_⟩
  intro i hi
  unfold rolling
  rw [List.getElem?_map, List.getElem?_range (by rw [h.1]; exact hi), Option.map_some]
  congr 1
  unfold rollAt
  by_cases h1 : i + 1 < w
  · rw [if_pos h1, if_pos (by omega)]
  rw [if_neg h1]
  have hlen : ((l.drop (i + 1 - w)).take w).length = w := by
    rw [List.length_take, List.length_drop, h.1]; omega
  have hget : ∀ j (hj : j < w), ((l.drop (i + 1 - w)).take w)[j]? =
      some (if i + 1 - w + j < lo then none else some (f (i + 1 - w + j))) := by
    intro j hj
    rw [List.getElem?_take_of_lt hj, List.getElem?_drop, h.2 _ (by omega)]
  by_cases h2 : i < lo + w - 1
  · rw [if_pos h2, if_pos]
    rw [List.any_eq_true]
    refine ⟨none, ?_, rfl⟩
    have := hget 0 (by omega)
    rw [if_pos (by omega)] at this
    exact List.mem_of_getElem? this
  · rw [if_neg h2]
    have heq : (l.drop (i + 1 - w)).take w =
        (List.range w).map fun j : ℕ => some (f (i + 1 - w + j)) := by
      apply List.ext_getElem?
      intro j
      by_cases hj : j < w
      · rw [hget j hj, if_neg (by omega), List.getElem?_map, List.getElem?_range hj, Option.map_some]
      · rw [List.getElem?_eq_none (by rw [hlen]; omega), List.getElem?_eq_none (by simp; omega)]
    rw [heq, if_neg]
    · congr 2
      rw [List.filterMap_map]
      simp only [Function.comp_def, id, List.filterMap_eq_map']
    · rw [List.any_eq_true]
      rintro ⟨x, hx, hn⟩
      obtain ⟨j, _, rfl⟩ := List.mem_map.1 hx
      cases hn

theorem has_getElem {l : List (Option α)} {n lo : ℕ} {f : ℕ → α} (h : Has l n lo f) (i : ℕ) (v : α) :
    l[i]? = some (some v) ↔ lo ≤ i ∧ i < n ∧ f i = v := by
  by_cases hi : i < n
  · rw [h.2 i hi]
    by_cases hl : i < lo
    · simp [hl]
    · simp [hl, hi, not_lt.1 hl]
  · rw [List.getElem?_eq_none (by rw [h.1]; omega)]
    simp [hi]

theorem list_range_map_sum {K : Type} [AddCommMonoid K] (w : ℕ) (f : ℕ → K) :
    ((List.range w).map f).sum = ∑ j ∈ Finset.range w, f j := by
  induction w with
  | zero => simp
  | succ w ih => rw [List.range_succ, List.map_append, List.sum_append, ih, Finset.sum_range_succ]; simp

end FinML
