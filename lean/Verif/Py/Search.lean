import Verif.Py.Lemmas

/-! # `searchsorted` on a sorted index -/

namespace FinML

variable {T : Type} [LinearOrder T]

theorem searchLeft_le (l : List T) (v : T) : searchLeft l v ≤ l.length :=
  (List.takeWhile_prefix _).length_le

theorem searchRight_le (l : List T) (v : T) : searchRight l v ≤ l.length :=
  (List.takeWhile_prefix _).length_le

@[simp] theorem searchLeft_nil (v : T) : searchLeft [] v = 0 := rfl
@[simp] theorem searchRight_nil (v : T) : searchRight [] v = 0 := rfl

theorem searchLeft_cons (a : T) (l : List T) (v : T) :
    searchLeft (a :: l) v = if a < v then searchLeft l v + 1 else 0 := by
  unfold searchLeft
  by_cases h : a < v
  · rw [List.takeWhile_cons_of_pos (by simpa using h), if_pos h, List.length_cons]
  · rw [List.takeWhile_cons_of_neg (by simpa using h), if_neg h]; rfl

theorem searchRight_cons (a : T) (l : List T) (v : T) :
    searchRight (a :: l) v = if a ≤ v then searchRight l v + 1 else 0 := by
  unfold searchRight
  by_cases h : a ≤ v
  · rw [List.takeWhile_cons_of_pos (by simpa using h), if_pos h, List.length_cons]
  · rw [List.takeWhile_cons_of_neg (by simpa using h), if_neg h]; rfl

/-- The entries before the insertion point are exactly those below `v`. -/
theorem lt_searchLeft_iff (l : List T) (hl : l.Pairwise (· ≤ ·)) (v : T) (i : ℕ) (x : T)
    (hx : l[i]? = some x) : i < searchLeft l v ↔ x < v := by
  induction l generalizing i with
  | nil => simp at hx
  | cons a l ih =>
    rw [List.pairwise_cons] at hl
    rw [searchLeft_cons]
    cases i with
    | zero =>
      simp only [List.getElem?_cons_zero, Option.some.injEq] at hx
      subst hx
      by_cases h : a < v
      · simp [h]
      · simp [h]
    | succ i =>
      rw [List.getElem?_cons_succ] at hx
      by_cases h : a < v
      · rw [if_pos h, Nat.succ_lt_succ_iff]
        exact ih hl.2 i hx
      · rw [if_neg h]
        have := hl.1 x (List.mem_of_getElem? hx)
        constructor
        · omega
        · intro hxv; exact absurd (lt_of_le_of_lt this hxv) h

/-- The entries before the right insertion point are exactly those at most `v`. -/
theorem lt_searchRight_iff (l : List T) (hl : l.Pairwise (· ≤ ·)) (v : T) (i : ℕ) (x : T)
    (hx : l[i]? = some x) : i < searchRight l v ↔ x ≤ v := by
  induction l generalizing i with
  | nil => simp at hx
  | cons a l ih =>
    rw [List.pairwise_cons] at hl
    rw [searchRight_cons]
    cases i with
    | zero =>
      simp only [List.getElem?_cons_zero, Option.some.injEq] at hx
      subst hx
      by_cases h : a ≤ v
      · simp [h]
      · simp [h]
    | succ i =>
      rw [List.getElem?_cons_succ] at hx
      by_cases h : a ≤ v
      · rw [if_pos h, Nat.succ_lt_succ_iff]
        exact ih hl.2 i hx
      · rw [if_neg h]
        have := hl.1 x (List.mem_of_getElem? hx)
        constructor
        · omega
        · intro hxv; exact absurd (le_trans this hxv) h

theorem searchLeft_eq_length_iff (l : List T) (hl : l.Pairwise (· ≤ ·)) (v : T) :
    searchLeft l v = l.length ↔ ∀ x ∈ l, x < v := by
  constructor
  · intro h x hx
    obtain ⟨i, hi, rfl⟩ := List.getElem_of_mem hx
    exact (lt_searchLeft_iff l hl v i _ (List.getElem?_eq_getElem hi)).1 (h ▸ hi)
  · intro h
    by_contra hne
    have hlt : searchLeft l v < l.length := lt_of_le_of_ne (searchLeft_le l v) hne
    have := (lt_searchLeft_iff l hl v _ _ (List.getElem?_eq_getElem hlt)).2 (h _ (List.getElem_mem hlt))
    exact lt_irrefl _ this

theorem searchLeft_lt_length_iff (l : List T) (hl : l.Pairwise (· ≤ ·)) (v : T) :
    searchLeft l v < l.length ↔ ∃ x ∈ l, v ≤ x := by
  rw [lt_iff_le_and_ne]
  simp only [searchLeft_le, true_and, ne_eq, searchLeft_eq_length_iff l hl]
  push Not
  rfl

/-- `index[searchsorted(v)]` is the first entry at or after `v`. -/
theorem getElem?_searchLeft (l : List T) (hl : l.Pairwise (· ≤ ·)) (v x : T) :
    l[searchLeft l v]? = some x ↔ IsLeast {t | t ∈ l ∧ v ≤ t} x := by
  have key : ∀ y, l[searchLeft l v]? = some y → IsLeast {t | t ∈ l ∧ v ≤ t} y := by
    intro y hy
    refine ⟨⟨List.mem_of_getElem? hy, ?_⟩, ?_⟩
    · by_contra h
      exact lt_irrefl _ ((lt_searchLeft_iff l hl v _ y hy).2 (not_le.1 h))
    · rintro t ⟨ht, hvt⟩
      obtain ⟨i, hi, rfl⟩ := List.getElem_of_mem ht
      have h1 : ¬ i < searchLeft l v := fun h =>
        absurd ((lt_searchLeft_iff l hl v i _ (List.getElem?_eq_getElem hi)).1 h) (not_lt.2 hvt)
      obtain ⟨hs, hy'⟩ := List.getElem?_eq_some_iff.1 hy
      rcases Nat.lt_or_eq_of_le (not_lt.1 h1) with h2 | h2
      · rw [← hy']; exact List.pairwise_iff_getElem.1 hl _ _ hs hi h2
      · subst hy'; simp [h2]
  refine ⟨key x, fun hx => ?_⟩
  have : searchLeft l v < l.length := (searchLeft_lt_length_iff l hl v).2 ⟨x, hx.1.1, hx.1.2⟩
  have h2 := key _ (List.getElem?_eq_getElem this)
  rw [List.getElem?_eq_getElem this, h2.unique hx]

/-- The entry just before the insertion point is the last one below `v`. -/
theorem getElem?_searchLeft_pred (l : List T) (hl : l.Pairwise (· ≤ ·)) (v x : T)
    (h0 : 0 < searchLeft l v) :
    l[searchLeft l v - 1]? = some x ↔ IsGreatest {t | t ∈ l ∧ t < v} x := by
  have hlt : searchLeft l v - 1 < l.length := by have := searchLeft_le l v; omega
  have key : IsGreatest {t | t ∈ l ∧ t < v} l[searchLeft l v - 1] := by
    refine ⟨⟨List.getElem_mem hlt, ?_⟩, ?_⟩
    · exact (lt_searchLeft_iff l hl v _ _ (List.getElem?_eq_getElem hlt)).1 (by omega)
    · rintro t ⟨ht, hvt⟩
      obtain ⟨i, hi, rfl⟩ := List.getElem_of_mem ht
      have h1 := (lt_searchLeft_iff l hl v i _ (List.getElem?_eq_getElem hi)).2 hvt
      rcases Nat.lt_or_eq_of_le (show i ≤ searchLeft l v - 1 by omega) with h2 | h2
      · exact List.pairwise_iff_getElem.1 hl _ _ hi hlt h2
      · simp [h2]
  rw [List.getElem?_eq_getElem hlt, Option.some.injEq]
  exact ⟨fun h => h ▸ key, fun h => key.unique h⟩

theorem searchLeft_pos_iff (l : List T) (hl : l.Pairwise (· ≤ ·)) (v : T) :
    0 < searchLeft l v ↔ ∃ x ∈ l, x < v := by
  constructor
  · intro h
    have hlt : 0 < l.length := lt_of_lt_of_le h (searchLeft_le l v)
    exact ⟨_, List.getElem_mem hlt,
      (lt_searchLeft_iff l hl v 0 _ (List.getElem?_eq_getElem hlt)).1 h⟩
  · rintro ⟨x, hx, hv⟩
    obtain ⟨i, hi, rfl⟩ := List.getElem_of_mem hx
    exact lt_of_le_of_lt (Nat.zero_le i)
      ((lt_searchLeft_iff l hl v i _ (List.getElem?_eq_getElem hi)).2 hv)

theorem searchLeft_mono (l : List T) {v w : T} (h : v ≤ w) : searchLeft l v ≤ searchLeft l w := by
  induction l with
  | nil => simp
  | cons a l ih =>
    rw [searchLeft_cons, searchLeft_cons]
    by_cases h1 : a < v
    · rw [if_pos h1, if_pos (lt_of_lt_of_le h1 h)]; omega
    · rw [if_neg h1]; omega

end FinML
