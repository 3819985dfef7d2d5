import Verif.Metrics.TwrMissModel
import Verif.Metrics.ChainProps

/-! # Time-weighted return with missing values (C362) -/

namespace FinML.Metrics

set_option linter.unusedSectionVars false

variable {K : Type} [Field K] [LinearOrder K] [IsStrictOrderedRing K]

/-- Rows that agree with `rows` where these are known. -/
def FillsFlows (fill : List (K × K)) (rows : List (Option K × Option K)) : Prop :=
  List.Forall₂ (fun f r => (∀ x, r.1 = some x → f.1 = x) ∧ ∀ x, r.2 = some x → f.2 = x) fill rows

/-- C362, the full claim: the time-weighted return of a portfolio with missing values is that for some values in their place. -/
def TwrOfSomeFill (K : Type) [Field K] [LinearOrder K] [IsStrictOrderedRing K] : Prop :=
  ∀ (rows : List (Option K × Option K)) (r : K), timeWeightedReturnM rows = .ok r →
    ∃ fill, FillsFlows fill rows ∧ timeWeightedReturn fill = .ok r

/-- C362.  A portfolio that doubles over a missing value is reported to return 0. -/
theorem C362_counterexample : ¬ TwrOfSomeFill ℚ := by
  intro h
  obtain ⟨fill, hf, he⟩ := h [(some 1, some 0), (none, some 0), (some 2, some 0)] 0 (by decide +kernel)
  unfold FillsFlows at hf
  match fill, hf with
  | [(a, b), (c, d), (e, f)], hf =>
    simp only [List.forall₂_cons, List.forall₂_nil_left_iff, Option.some.injEq, forall_eq', and_true, reduceCtorEq,
      false_implies, implies_true, true_and] at hf
    obtain ⟨⟨rfl, rfl⟩, rfl, rfl, rfl⟩ := hf
    obtain ⟨h1, h2⟩ := twr_ratio _ _ _ he
    have hc : c + 0 ≠ 0 := h1 ((2, 0), (c, 0)) (by simp)
    simp only [List.zip_cons_cons, List.zip_nil_left, List.map_cons, List.map_nil, List.prod_cons, List.prod_nil] at h2
    rw [add_zero] at hc
    rw [add_zero, add_zero, div_one, mul_one, mul_div_cancel₀ _ hc] at h2
    norm_num at h2

theorem twrReturnsM_split (a b : List (Option K × Option K)) (x : Option K × Option K) (hx : x.1 = none ∨ x.2 = none) :
    twrReturnsM (a ++ x :: b) = do
      let r1 ← twrReturnsM (a ++ [x])
      let r2 ← twrReturnsM b
      return r1 ++ r2 := by
  have hb : ∀ l : List (Option K × Option K), (l.zip (x :: l)).mapM (fun y => twrReturnM y.1.1 y.2) = twrReturnsM l := by
    intro l
    cases l with
    | nil => rfl
    | cons y l =>
      have : twrReturnM y.1 x = .ok none := by
        unfold twrReturnM
        rcases hx with h | h
        · rw [h]; cases y.1 <;> rfl
        · rw [h]; cases y.1 <;> cases x.1 <;> rfl
      rw [List.zip_cons_cons, mapM_cons_py, this]
      rfl
  cases a with
  | nil =>
    rw [List.nil_append, List.nil_append, twrReturnsM, twrReturnsM, hb]
    cases twrReturnsM b <;> rfl
  | cons r a =>
    rw [List.cons_append, List.cons_append, twrReturnsM, twrReturnsM, zip_split, List.mapM_append, hb]
    cases ((a ++ [x]).zip (r :: (a ++ [x]))).mapM fun y => twrReturnM y.1.1 y.2 with
    | error e => rfl
    | ok v => cases twrReturnsM b <;> rfl

/-- C362.  A row without value or cash flow cuts the portfolio in two: the growth reported is that until there times that of the
rows after it, as if the period between did not exist. -/
theorem C362_split (a b : List (Option K × Option K)) (x : Option K × Option K) (hx : x.1 = none ∨ x.2 = none) (r1 r2 : K)
    (h1 : timeWeightedReturnM (a ++ [x]) = .ok r1) (h2 : timeWeightedReturnM b = .ok r2) :
    timeWeightedReturnM (a ++ x :: b) = .ok ((1 + r1) * (1 + r2) - 1) := by
  unfold timeWeightedReturnM at h1 h2 ⊢
  rw [twrReturnsM_split a b x hx]
  simp only [py_bind_eq_ok, py_pure] at h1 h2
  obtain ⟨u, hu, hu'⟩ := h1
  obtain ⟨v, hv, hv'⟩ := h2
  cases hu'
  cases hv'
  rw [hu, hv]
  simp only [py_bind_ok, py_pure, List.filterMap_append, List.map_append, List.prod_append]
  congr 1
  ring

/-- C362.  A last row without value changes nothing. -/
theorem C362_last (a : List (Option K × Option K)) (c : Option K) :
    timeWeightedReturnM (a ++ [(none, c)]) = timeWeightedReturnM a := by
  cases a with
  | nil => rfl
  | cons r a =>
    have hz : ∀ (r : Option K × Option K) (l : List (Option K × Option K)) (y : Option K × Option K),
        (l ++ [y]).zip (r :: (l ++ [y])) = l.zip (r :: l) ++ [(y, (r :: l).getLast (by simp))] := by
      intro r l y
      induction l generalizing r with
      | nil => rfl
      | cons z l ih => simp [ih]
    unfold timeWeightedReturnM
    rw [List.cons_append, twrReturnsM, twrReturnsM, hz, List.mapM_append]
    cases (a.zip (r :: a)).mapM fun y => twrReturnM y.1.1 y.2 with
    | error e => rfl
    | ok v =>
      simp [twrReturnM, py_bind_ok, py_pure]

/-- The rows with all values known. -/
def knownFlows (rows : List (K × K)) : List (Option K × Option K) := rows.map fun r => (some r.1, some r.2)

/-- C362.  With all values known this is the return of C93. -/
theorem C362_complete (rows : List (K × K)) : timeWeightedReturnM (knownFlows rows) = timeWeightedReturn rows := by
  unfold timeWeightedReturnM timeWeightedReturn
  congr 1
  cases rows with
  | nil => rfl
  | cons r rows =>
    obtain ⟨v, c⟩ := r
    unfold knownFlows
    rw [List.map_cons, twrReturnsM, twrReturns]
    congr 1
    have hz : (rows.map fun r => (some r.1, some r.2)).zip ((some v, some c) :: rows.map fun r => (some r.1, some r.2)) =
        (rows.zip ((v, c) :: rows)).map (Prod.map (fun r : K × K => (some r.1, some r.2)) fun r => (some r.1, some r.2)) :=
      List.zip_map (f := fun r : K × K => (some r.1, some r.2)) (g := fun r : K × K => (some r.1, some r.2)) (l₁ := rows)
        (l₂ := (v, c) :: rows)
    rw [hz, List.mapM_map]
    rfl

/-- C362.  If only the value of the first row is missing, the return is that for the value that makes the first period return
nothing (missing from the full claim: gaps between known values). -/
theorem C362_first_partial (c : K) (r : K × K) (rows : List (K × K)) (hr : r.1 ≠ 0) (x : K)
    (h : timeWeightedReturnM ((none, some c) :: knownFlows (r :: rows)) = .ok x) :
    timeWeightedReturn ((r.1 - c, c) :: r :: rows) = .ok x := by
  have h0 : timeWeightedReturn [(r.1 - c, c), r] = .ok 0 := by
    have : r.1 - c + c ≠ 0 := by rwa [sub_add_cancel]
    simp [timeWeightedReturn, twrReturns, py_bind_ok, py_pure, hr]
  have h1 : timeWeightedReturn (r :: rows) = .ok x := by
    rw [← C362_complete]
    unfold timeWeightedReturnM at h ⊢
    have hs := twrReturnsM_split [] (knownFlows (r :: rows)) ((none, some c) : Option K × Option K) (Or.inl rfl)
    rw [List.nil_append] at hs
    rw [hs] at h
    cases ht : twrReturnsM (knownFlows (r :: rows)) with
    | error e => rw [ht] at h; cases h
    | ok v => rw [ht] at h; exact h
  have := C242_chain (r.1 - c, c) r [] rows 0 x h0 h1
  simpa using this

example : timeWeightedReturnM ([(none, some 10), (some 110, some 0), (none, some 0), (some 50, some 50), (some 200, none)] :
    List (Option ℚ × Option ℚ)) = .ok 1 := by decide +kernel

/-- The same with the gap between the parts. -/
example : timeWeightedReturnM ([(some 1, some 0), (some 2, some 0), (none, some 0), (some 1, some 0), (some 3, some 0)] :
    List (Option ℚ × Option ℚ)) = .ok 5 :=
  (C362_split [(some 1, some 0), (some 2, some 0)] [(some 1, some 0), (some 3, some 0)] (none, some 0) (Or.inl rfl) 1 2
    (by decide +kernel) (by decide +kernel)).trans (by norm_num)

end FinML.Metrics
