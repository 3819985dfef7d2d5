import Verif.Py.Basic
import Mathlib.Order.Bounds.Basic

/-! # Facts about the Python primitives -/

namespace FinML

section Except

variable {α β : Type}

@[simp] theorem py_bind_ok (a : α) (f : α → Py β) : (Except.ok a >>= f) = f a := rfl
@[simp] theorem py_bind_error (e : PyErr) (f : α → Py β) :
    ((Except.error e : Py α) >>= f) = Except.error e := rfl
@[simp] theorem py_pure (a : α) : (pure a : Py α) = Except.ok a := rfl
@[simp] theorem py_throw (e : PyErr) : (throw e : Py α) = Except.error e := rfl

theorem py_bind_eq_ok {x : Py α} {f : α → Py β} {b : β} :
    (x >>= f) = Except.ok b ↔ ∃ a, x = Except.ok a ∧ f a = Except.ok b := by
  cases x <;> simp

theorem mapM_cons_py (f : α → Py β) (a : α) (l : List α) :
    (a :: l).mapM f = (do let b ← f a; let bs ← l.mapM f; pure (b :: bs)) := by
  rw [List.mapM_cons]

/-- A successful `mapM` is the pointwise success. -/
theorem mapM_eq_ok_iff (f : α → Py β) (l : List α) (bs : List β) :
    l.mapM f = Except.ok bs ↔ List.Forall₂ (fun a b => f a = Except.ok b) l bs := by
  induction l generalizing bs with
  | nil =>
    simp only [List.mapM_nil, py_pure, List.forall₂_nil_left_iff]
    constructor
    · intro h; cases h; rfl
    · intro h; rw [h]
  | cons a l ih =>
    rw [mapM_cons_py, py_bind_eq_ok]
    constructor
    · rintro ⟨b, hb, h⟩
      rw [py_bind_eq_ok] at h
      obtain ⟨bs', hbs, h⟩ := h
      cases h
      exact List.Forall₂.cons hb ((ih bs').1 hbs)
    · intro h
      cases h with
      | cons h1 h2 =>
        exact ⟨_, h1, by rw [(ih _).2 h2]; rfl⟩

theorem mapM_ok_of_forall (f : α → Py β) (h : α → β) (l : List α)
    (hf : ∀ a ∈ l, f a = Except.ok (h a)) : l.mapM f = Except.ok (l.map h) := by
  rw [mapM_eq_ok_iff, List.forall₂_map_right_iff, List.forall₂_same]
  exact hf

/-- A loop that records each result next to its input. -/
theorem mapM_pair_ok (f : α → Py β) (l : List α) (rs : List (α × β))
    (h : (l.mapM fun a => do
      let b ← f a
      return (a, b)) = Except.ok rs) :
    rs.map Prod.fst = l ∧ ∀ r ∈ rs, f r.1 = Except.ok r.2 := by
  rw [mapM_eq_ok_iff] at h
  induction h with
  | nil => simp
  | cons hab _ ih =>
    rw [py_bind_eq_ok] at hab
    obtain ⟨b, hb, hab⟩ := hab
    cases hab
    refine ⟨by simp [ih.1], ?_⟩
    intro r hr
    rcases List.mem_cons.1 hr with rfl | hr
    · exact hb
    · exact ih.2 r hr

theorem mapM_error_of_mem (f : α → Py β) (l : List α) (e : PyErr) (a : α) (ha : a ∈ l)
    (he : f a = Except.error e) : ∃ e', l.mapM f = Except.error e' := by
  induction l with
  | nil => simp at ha
  | cons b l ih =>
    rw [mapM_cons_py]
    cases hb : f b with
    | error e' => exact ⟨e', rfl⟩
    | ok v =>
      rcases List.mem_cons.1 ha with rfl | h
      · rw [he] at hb; cases hb
      · obtain ⟨e', h'⟩ := ih h
        exact ⟨e', by rw [h']; rfl⟩

/-- If the only exception the body can raise is `e`, and some item raises, the loop raises `e`. -/
theorem mapM_error_eq (f : α → Py β) (l : List α) (e : PyErr) (a : α) (ha : a ∈ l)
    (h : f a = .error e) (hall : ∀ b ∈ l, ∀ e', f b = .error e' → e' = e) : l.mapM f = .error e := by
  induction l with
  | nil => simp at ha
  | cons b l ih =>
    rw [mapM_cons_py]
    cases hb : f b with
    | error e' => rw [hall b (by simp) e' hb]; rfl
    | ok v =>
      rcases List.mem_cons.1 ha with rfl | ha
      · rw [hb] at h; cases h
      · rw [py_bind_ok, ih ha (fun c hc => hall c (by simp [hc]))]; rfl

theorem exists_ok_of_ne_error {x : Py α} (h : ∀ e, x ≠ Except.error e) : ∃ a, x = Except.ok a := by
  cases x with
  | ok a => exact ⟨a, rfl⟩
  | error e => exact absurd rfl (h e)

end Except

section Extrema

variable {K : Type} [LinearOrder K]

theorem foldl_max_isGreatest (x : K) (xs : List K) :
    IsGreatest {y | y ∈ x :: xs} (xs.foldl max x) := by
  induction xs generalizing x with
  | nil => simp [IsGreatest, upperBounds]
  | cons a l ih =>
    have := ih (max x a)
    refine ⟨?_, ?_⟩
    · have h := this.1
      simp only [Set.mem_ofPred_eq, List.mem_cons, List.foldl_cons] at h ⊢
      rcases h with h | h
      · rw [h]; rcases max_choice x a with e | e <;> simp [e]
      · simp [h]
    · intro y hy
      simp only [Set.mem_ofPred_eq, List.mem_cons] at hy
      have hb := this.2
      rw [List.foldl_cons]
      rcases hy with rfl | rfl | hy
      · exact (le_max_left _ a).trans (hb (by simp))
      · exact (le_max_right x _).trans (hb (by simp))
      · exact hb (by simp [hy])

theorem foldl_min_isLeast (x : K) (xs : List K) :
    IsLeast {y | y ∈ x :: xs} (xs.foldl min x) := by
  induction xs generalizing x with
  | nil => simp [IsLeast, lowerBounds]
  | cons a l ih =>
    have := ih (min x a)
    refine ⟨?_, ?_⟩
    · have h := this.1
      simp only [Set.mem_ofPred_eq, List.mem_cons, List.foldl_cons] at h ⊢
      rcases h with h | h
      · rw [h]; rcases min_choice x a with e | e <;> simp [e]
      · simp [h]
    · intro y hy
      simp only [Set.mem_ofPred_eq, List.mem_cons] at hy
      have hb := this.2
      rw [List.foldl_cons]
      rcases hy with rfl | rfl | hy
      · exact (hb (by simp)).trans (min_le_left _ a)
      · exact (hb (by simp)).trans (min_le_right x _)
      · exact hb (by simp [hy])

theorem npMax_eq_ok_iff (l : List K) (m : K) : npMax l = .ok m ↔ IsGreatest {y | y ∈ l} m := by
  cases l with
  | nil => simp [npMax, IsGreatest]
  | cons x xs =>
    simp only [npMax, Except.ok.injEq]
    constructor
    · rintro rfl; exact foldl_max_isGreatest x xs
    · intro h; exact (foldl_max_isGreatest x xs).unique h

theorem npMin_eq_ok_iff (l : List K) (m : K) : npMin l = .ok m ↔ IsLeast {y | y ∈ l} m := by
  cases l with
  | nil => simp [npMin, IsLeast]
  | cons x xs =>
    simp only [npMin, Except.ok.injEq]
    constructor
    · rintro rfl; exact foldl_min_isLeast x xs
    · intro h; exact (foldl_min_isLeast x xs).unique h

end Extrema

theorem pyLast_eq_ok_iff {α : Type} (l : List α) (x : α) : pyLast l = .ok x ↔ l.getLast? = some x := by
  unfold pyLast
  cases l.getLast? <;> simp

theorem pyGet_eq_ok_iff {α : Type} (l : List α) (i : ℕ) (x : α) : pyGet l i = .ok x ↔ l[i]? = some x := by
  unfold pyGet
  cases l[i]? <;> simp

section Cumsum

variable {K : Type}

@[simp] theorem cumsumFrom_length [Add K] (s : K) (l : List K) :
    (cumsumFrom s l).length = l.length := by
  induction l generalizing s with
  | nil => rfl
  | cons a l ih => simp [cumsumFrom, ih]

@[simp] theorem cumsum_length [Add K] [Zero K] (l : List K) : (cumsum l).length = l.length :=
  cumsumFrom_length _ _

theorem cumsumFrom_append [AddCommMonoid K] (s : K) (l m : List K) :
    cumsumFrom s (l ++ m) = cumsumFrom s l ++ cumsumFrom (s + l.sum) m := by
  induction l generalizing s with
  | nil => simp [cumsumFrom]
  | cons a l ih => simp [cumsumFrom, ih, add_assoc]

theorem getElem?_cumsumFrom [AddCommMonoid K] (s : K) (l : List K) (i : ℕ) (h : i < l.length) :
    (cumsumFrom s l)[i]? = some (s + (l.take (i + 1)).sum) := by
  induction l generalizing s i with
  | nil => simp at h
  | cons a l ih =>
    cases i with
    | zero => simp [cumsumFrom]
    | succ i =>
      simp only [cumsumFrom, List.getElem?_cons_succ, List.take_succ_cons, List.sum_cons]
      rw [ih (s + a) i (by simpa using h), add_assoc]

theorem getElem?_cumsum [AddCommMonoid K] (l : List K) (i : ℕ) (h : i < l.length) :
    (cumsum l)[i]? = some (l.take (i + 1)).sum := by
  rw [cumsum, getElem?_cumsumFrom _ _ _ h, zero_add]

theorem cumsumFrom_ge [AddCommMonoid K] [PartialOrder K] [IsOrderedAddMonoid K] (s : K) (l : List K)
    (h : ∀ x ∈ l, 0 ≤ x) : ∀ y ∈ cumsumFrom s l, s ≤ y := by
  induction l generalizing s with
  | nil => simp [cumsumFrom]
  | cons a l ih =>
    intro y hy
    have ha : 0 ≤ a := h a (by simp)
    have hsa : s ≤ s + a := by simpa using add_le_add_right ha s
    rcases List.mem_cons.1 hy with rfl | hy
    · exact hsa
    · exact hsa.trans (ih (s + a) (fun x hx => h x (by simp [hx])) y hy)

theorem cumsumFrom_pairwise [AddCommMonoid K] [PartialOrder K] [IsOrderedAddMonoid K] (s : K)
    (l : List K) (h : ∀ x ∈ l, 0 ≤ x) : (cumsumFrom s l).Pairwise (· ≤ ·) := by
  induction l generalizing s with
  | nil => simp [cumsumFrom]
  | cons a l ih =>
    rw [cumsumFrom, List.pairwise_cons]
    exact ⟨cumsumFrom_ge _ _ fun x hx => h x (by simp [hx]),
      ih _ fun x hx => h x (by simp [hx])⟩

end Cumsum

section WeightedMean

variable {K : Type} [Field K] [LinearOrder K] [IsStrictOrderedRing K]

/-- A weighted sum with non-negative weights lies between `lo * W` and `hi * W`. -/
theorem weighted_sum_bounds {α : Type} (l : List α) (x w : α → K) (lo hi : K)
    (hw : ∀ a ∈ l, 0 ≤ w a) (hlo : ∀ a ∈ l, lo ≤ x a) (hhi : ∀ a ∈ l, x a ≤ hi) :
    lo * (l.map w).sum ≤ (l.map fun a => x a * w a).sum ∧
      (l.map fun a => x a * w a).sum ≤ hi * (l.map w).sum := by
  induction l with
  | nil => simp
  | cons a l ih =>
    obtain ⟨h1, h2⟩ := ih (fun b hb => hw b (by simp [hb])) (fun b hb => hlo b (by simp [hb]))
      (fun b hb => hhi b (by simp [hb]))
    have hwa := hw a (by simp)
    have := mul_le_mul_of_nonneg_right (hlo a (by simp)) hwa
    have := mul_le_mul_of_nonneg_right (hhi a (by simp)) hwa
    simp only [List.map_cons, List.sum_cons, mul_add]
    constructor <;> linarith

end WeightedMean

end FinML
