import Verif.Metrics.RetProps

/-!
# C242: chaining time-weighted returns
-/

namespace FinML.Metrics

variable {K : Type} [Field K] [LinearOrder K] [IsStrictOrderedRing K]

omit [IsStrictOrderedRing K] in
/-- `1 +` the time-weighted return is the product of the ratios of each value to the balance before it. -/
theorem twr_ratio (row : K × K) (rest : List (K × K)) (x : K)
    (h : timeWeightedReturn (row :: rest) = .ok x) :
    (∀ q ∈ rest.zip (row :: rest), q.2.1 + q.2.2 ≠ 0) ∧
      1 + x = ((rest.zip (row :: rest)).map fun q => q.1.1 / (q.2.1 + q.2.2)).prod := by
  obtain ⟨v, c⟩ := row
  unfold timeWeightedReturn twrReturns at h
  simp only [py_bind_eq_ok, py_pure] at h
  obtain ⟨rs, ⟨rs', h1, h2⟩, h3⟩ := h
  cases h2
  cases h3
  rw [mapM_eq_ok_iff] at h1
  generalize rest.zip ((v, c) :: rest) = l at h1
  simp only [List.filterMap_cons, id]
  induction h1 with
  | nil => simp
  | @cons q r l' rs'' hqr _ ih =>
    obtain ⟨ih1, ih2⟩ := ih
    split_ifs at hqr with h0
    cases hqr
    refine ⟨?_, ?_⟩
    · intro q' hq'
      rcases List.mem_cons.1 hq' with rfl | hq'
      · exact h0
      · exact ih1 q' hq'
    · simp only [List.filterMap_cons, List.map_cons, List.prod_cons]
      rw [← ih2]
      have : 1 + (q.1.1 - (q.2.1 + q.2.2)) / (q.2.1 + q.2.2) = q.1.1 / (q.2.1 + q.2.2) := by
        field_simp
        ring
      rw [this]
      ring

omit [IsStrictOrderedRing K] in
theorem twr_of_ne (row : K × K) (rest : List (K × K))
    (h : ∀ q ∈ rest.zip (row :: rest), q.2.1 + q.2.2 ≠ 0) :
    ∃ x, timeWeightedReturn (row :: rest) = .ok x := by
  obtain ⟨v, c⟩ := row
  unfold timeWeightedReturn twrReturns
  have : ((rest.zip ((v, c) :: rest)).mapM fun x =>
      if x.2.1 + x.2.2 = 0 then (throw .unmodelled : Py (Option K))
      else return some ((x.1.1 - (x.2.1 + x.2.2)) / (x.2.1 + x.2.2))) =
      .ok ((rest.zip ((v, c) :: rest)).map fun x => some ((x.1.1 - (x.2.1 + x.2.2)) / (x.2.1 + x.2.2))) := by
    apply mapM_ok_of_forall
    intro q hq
    rw [if_neg (h q hq)]
    rfl
  simp only [py_pure] at this ⊢
  rw [this]
  exact ⟨_, rfl⟩

theorem zip_split {α : Type} (a b : List α) (r x : α) :
    (a ++ x :: b).zip (r :: (a ++ x :: b)) = (a ++ [x]).zip (r :: (a ++ [x])) ++ b.zip (x :: b) := by
  induction a generalizing r with
  | nil => simp
  | cons y a ih => simp [ih]

omit [IsStrictOrderedRing K] in
/-- C242.  A period cut in two at one of its rows: the growth of the whole is the growth of the first part times
that of the second. -/
theorem C242_chain (first x : K × K) (a b : List (K × K)) (r1 r2 : K)
    (h1 : timeWeightedReturn (first :: (a ++ [x])) = .ok r1) (h2 : timeWeightedReturn (x :: b) = .ok r2) :
    timeWeightedReturn (first :: (a ++ x :: b)) = .ok ((1 + r1) * (1 + r2) - 1) := by
  obtain ⟨n1, e1⟩ := twr_ratio _ _ _ h1
  obtain ⟨n2, e2⟩ := twr_ratio _ _ _ h2
  obtain ⟨r, hr⟩ := twr_of_ne first (a ++ x :: b) (by
    rw [zip_split]
    intro q hq
    rcases List.mem_append.1 hq with hq | hq
    · exact n1 q hq
    · exact n2 q hq)
  rw [hr]
  obtain ⟨-, e3⟩ := twr_ratio _ _ _ hr
  rw [zip_split, List.map_append, List.prod_append, ← e1, ← e2] at e3
  rw [← e3]
  congr 1
  ring

omit [IsStrictOrderedRing K] in
theorem no_flow (pre : List (K × K)) (x y z : K × K) (b : List (K × K)) (hx : x.2 = 0) (r : K)
    (h : timeWeightedReturn (pre ++ y :: x :: z :: b) = .ok r) :
    timeWeightedReturn (pre ++ y :: z :: b) = .ok r := by
  have tail : ∀ s, timeWeightedReturn (y :: x :: z :: b) = .ok s → timeWeightedReturn (y :: z :: b) = .ok s := by
    intro s hs
    obtain ⟨n1, e1⟩ := twr_ratio _ _ _ hs
    have hzx : (x :: z :: b).zip (y :: x :: z :: b) = (x, y) :: (z, x) :: b.zip (z :: b) := rfl
    have hzy : (z :: b).zip (y :: z :: b) = (z, y) :: b.zip (z :: b) := rfl
    rw [hzx] at n1 e1
    have hy : y.1 + y.2 ≠ 0 := n1 (x, y) (by simp)
    have hx1 : x.1 ≠ 0 := by
      have := n1 (z, x) (by simp)
      simpa [hx] using this
    obtain ⟨r', hr'⟩ := twr_of_ne y (z :: b) (by
      rw [hzy]
      intro q hq
      rcases List.mem_cons.1 hq with rfl | hq
      · exact hy
      · exact n1 q (by simp [hq]))
    rw [hr']
    obtain ⟨-, e2⟩ := twr_ratio _ _ _ hr'
    rw [hzy] at e2
    simp only [List.map_cons, List.prod_cons] at e1 e2
    rw [hx, add_zero] at e1
    have : 1 + s = 1 + r' := by
      rw [e1, e2]
      field_simp
    congr 1
    exact (add_left_cancel this).symm
  cases pre with
  | nil => exact tail r h
  | cons first a =>
    rw [List.cons_append] at h ⊢
    obtain ⟨n1, e1⟩ := twr_ratio _ _ _ h
    rw [zip_split] at n1 e1
    obtain ⟨r1, h1⟩ := twr_of_ne first (a ++ [y]) fun q hq => n1 q (List.mem_append_left _ hq)
    obtain ⟨r2, h2⟩ := twr_of_ne y (x :: z :: b) fun q hq => n1 q (List.mem_append_right _ hq)
    have := C242_chain first y a (x :: z :: b) r1 r2 h1 h2
    rw [h] at this
    rw [this]
    exact C242_chain first y a (z :: b) r1 r2 h1 (tail r2 h2)

omit [IsStrictOrderedRing K] in
/-- C242.  A row without a cash flow, other than the first and the last, can be left out. -/
theorem C242_no_flow (a b : List (K × K)) (x : K × K) (hx : x.2 = 0) (r : K) (ha : a ≠ []) (hb : b ≠ [])
    (h : timeWeightedReturn (a ++ x :: b) = .ok r) : timeWeightedReturn (a ++ b) = .ok r := by
  obtain ⟨z, b', rfl⟩ := List.exists_cons_of_ne_nil hb
  obtain ⟨pre, y, rfl⟩ : ∃ pre y, a = pre ++ [y] := ⟨a.dropLast, a.getLast ha, (List.dropLast_append_getLast ha).symm⟩
  rw [List.append_assoc, List.singleton_append] at h ⊢
  exact no_flow pre x y z b' hx r h

example : timeWeightedReturn ([(100, 50), (300, -100)] : List (ℚ × ℚ)) = .ok 1 ∧
    timeWeightedReturn ([(300, -100), (100, 0), (50, 7)] : List (ℚ × ℚ)) = .ok (-3 / 4) ∧
    timeWeightedReturn ([(100, 50), (300, -100), (100, 0), (50, 7)] : List (ℚ × ℚ)) = .ok (-1 / 2) := by
  refine ⟨?_, ?_, ?_⟩ <;> decide +kernel

end FinML.Metrics
