import Verif.Basket.FloatModel
import Verif.Basket.Props

/-! # Returns of a rolled series after a close of zero (C291) -/

namespace FinML.Basket

variable {K : Type} [Field K] [LinearOrder K] [IsStrictOrderedRing K]

/-- A float that is a number. -/
def IsNum (x : FinML.Flt K) : Prop := ∃ y, x = .fin y

omit [IsStrictOrderedRing K] in
private theorem mul_not_num (s x : FinML.Flt K) (h : ¬ IsNum s ∨ ¬ IsNum x) : ¬ IsNum (FinML.Flt.mul s x) := by
  rintro ⟨y, hy⟩
  have infOf_ne (z y : K) : FinML.Flt.infOf z ≠ .fin y := by
    unfold FinML.Flt.infOf
    split_ifs <;> simp
  cases s <;> cases x <;> simp [FinML.Flt.mul, infOf_ne] at hy
  rcases h with h | h <;> exact h ⟨_, rfl⟩

omit [IsStrictOrderedRing K] in
private theorem stays (s : FinML.Flt K) (l : List (FinML.Flt K)) (h : ¬ IsNum s) :
    ∀ x ∈ cumprodFromF s l, ¬ IsNum x := by
  induction l generalizing s with
  | nil => intro x hx; cases hx
  | cons a l ih =>
    intro x hx
    unfold cumprodFromF at hx
    split_ifs at hx
    · rcases List.mem_cons.1 hx with rfl | hx
      · rintro ⟨y, hy⟩
        cases hy
      · exact ih s h x hx
    · rcases List.mem_cons.1 hx with rfl | hx
      · exact mul_not_num _ _ (.inl h)
      · exact ih _ (mul_not_num _ _ (.inl h)) x hx

omit [IsStrictOrderedRing K] in
private theorem ruined (s : FinML.Flt K) (l : List (FinML.Flt K)) (j k : ℕ) (hjk : j ≤ k) (x : FinML.Flt K)
    (hj : l[j]? = some .posInf ∨ l[j]? = some .negInf) (hx : (cumprodFromF s l)[k]? = some x) : ¬ IsNum x := by
  induction l generalizing s j k with
  | nil => simp at hj
  | cons a l ih =>
    unfold cumprodFromF at hx
    cases j with
    | zero =>
      have ha : ¬ IsNum a ∧ a.isNan = false := by
        rcases hj with hj | hj <;> simp only [List.getElem?_cons_zero, Option.some.injEq] at hj <;> subst hj <;>
          exact ⟨(by rintro ⟨y, hy⟩; cases hy), rfl⟩
      rw [ha.2] at hx
      simp only [Bool.false_eq_true, if_false] at hx
      have hm := mul_not_num s a (.inr ha.1)
      rcases List.mem_cons.1 (List.mem_of_getElem? hx) with rfl | hx
      · exact hm
      · exact stays _ _ hm x hx
    | succ j =>
      cases k with
      | zero => omega
      | succ k =>
        split_ifs at hx
        · exact ih _ j k (by omega) (by simpa using hj) (by simpa using hx)
        · exact ih _ j k (by omega) (by simpa using hj) (by simpa using hx)

omit [IsStrictOrderedRing K] in
private theorem factor_get (adj raw : List K) (i : ℕ) (h : i + 1 < adj.length) :
    ((FinML.Flt.fin 0 :: rollReturnsF adj raw).map fun r => FinML.Flt.add (.fin 1) r)[i + 1]? =
      some (FinML.Flt.add (.fin 1) (FinML.Flt.div (.fin (adj.getD (i + 1) 0 - adj.getD i 0)) (.fin (raw.getD i 0)))) := by
  rw [List.map_cons, List.getElem?_cons_succ, rollReturnsF, List.map_map, List.getElem?_map,
    List.getElem?_range (by omega)]
  rfl

/-- C291. A close of zero after which the adjusted price moves: from then on no value of RET_PRICES is a number, however
prices recover. -/
theorem C291_ruined (adj raw : List K) (i : ℕ) (hi : i + 1 < adj.length) (hz : raw[i]? = some 0)
    (hm : adj.getD (i + 1) 0 ≠ adj.getD i 0) :
    ∃ l, retPricesF adj raw = .ok l ∧ ∀ k x, i < k → l[k]? = some x → ¬ IsNum x := by
  have hne : adj ≠ [] := by
    rintro rfl
    simp at hi
  refine ⟨_, by rw [retPricesF, if_neg hne], fun k x hk hx => ruined _ _ (i + 1) k (by omega) x ?_ hx⟩
  rw [factor_get adj raw i hi]
  have hz' : raw.getD i 0 = 0 := by rw [List.getD_eq_getElem?_getD, hz]; rfl
  rcases lt_or_gt_of_ne hm with h | h
  · right
    have h' : adj.getD (i + 1) 0 - adj.getD i 0 < 0 := by linarith
    simp only [FinML.Flt.div, hz', if_true, FinML.Flt.infOf, if_neg (not_lt.2 h'.le), if_pos h', FinML.Flt.add]
  · left
    have h' : 0 < adj.getD (i + 1) 0 - adj.getD i 0 := by linarith
    simp only [FinML.Flt.div, hz', if_true, FinML.Flt.infOf, if_pos h', FinML.Flt.add]

/-- The factors `1 + change / close` of the bars before bar `k` whose close is not zero. -/
def factorsBefore (adj raw : List K) (k : ℕ) : List K :=
  ((List.range k).filter fun i => raw.getD i 0 ≠ 0).map fun i =>
    1 + (adj.getD (i + 1) 0 - adj.getD i 0) / raw.getD i 0

omit [IsStrictOrderedRing K] in
private theorem cumprod_get (f : ℕ → FinML.Flt K) (n : ℕ) (g : ℕ → K) (z : ℕ → Prop) [DecidablePred z]
    (N : ℕ) (hz : ∀ i < N, z i → f i = .nan) (hf : ∀ i < N, ¬ z i → f i = .fin (g i)) (a : K) (o : ℕ) (ho : o + n ≤ N)
    (k : ℕ) (hk : k < n) :
    (cumprodFromF (.fin a) ((List.range' o n).map f))[k]? =
      some (if z (o + k) then .nan else
        .fin (a * (((List.range' o (k + 1)).filter fun i => ¬ z i).map g).prod)) := by
  induction n generalizing a o k with
  | zero => omega
  | succ n ih =>
    rw [List.range'_succ, List.map_cons, cumprodFromF]
    by_cases h0 : z o
    · rw [hz o (by omega) h0]
      simp only [FinML.Flt.isNan, if_true]
      cases k with
      | zero => simp [h0]
      | succ k =>
        rw [List.getElem?_cons_succ, ih a (o + 1) (by omega) k (by omega), show o + 1 + k = o + (k + 1) by omega,
          List.range'_succ (n := k + 1), List.filter_cons_of_neg (by simpa using h0)]
    · rw [hf o (by omega) h0]
      simp only [FinML.Flt.isNan, Bool.false_eq_true, if_false, FinML.Flt.mul]
      cases k with
      | zero => simp [h0]
      | succ k =>
        rw [List.getElem?_cons_succ, ih (a * g o) (o + 1) (by omega) k (by omega), show o + 1 + k = o + (k + 1) by omega,
          List.range'_succ (n := k + 1), List.filter_cons_of_pos (by simpa using h0), List.map_cons, List.prod_cons,
          mul_assoc]

omit [IsStrictOrderedRing K] in
/-- C291. If the adjusted price does not move after a close of zero: the value after such a close is NaN, every other
value is the product of the factors of the bars before it whose close is not zero. -/
theorem C291_values_partial (adj raw : List K) (hne : adj ≠ [])
    (h : ∀ i, i + 1 < adj.length → raw.getD i 0 = 0 → adj.getD (i + 1) 0 = adj.getD i 0) :
    ∃ l, retPricesF adj raw = .ok l ∧ l.length = adj.length ∧ l[0]? = some (.fin 1) ∧
      ∀ k, k + 1 < adj.length →
        l[k + 1]? = some (if raw.getD k 0 = 0 then .nan else .fin (factorsBefore adj raw (k + 1)).prod) := by
  have hlen (s : FinML.Flt K) (l : List (FinML.Flt K)) : (cumprodFromF s l).length = l.length := by
    induction l generalizing s with
    | nil => rfl
    | cons x xs ih =>
      unfold cumprodFromF
      split_ifs <;> simp [ih]
  have hpos := List.length_pos_of_ne_nil hne
  refine ⟨_, by rw [retPricesF, if_neg hne], ?_, ?_, ?_⟩
  · rw [hlen, List.length_map, List.length_cons, rollReturnsF, List.length_map, List.length_range]
    omega
  · simp [cumprodFromF, FinML.Flt.add, FinML.Flt.isNan, FinML.Flt.mul]
  · intro k hk
    rw [List.map_cons, cumprodFromF]
    simp only [FinML.Flt.add, FinML.Flt.isNan, Bool.false_eq_true, if_false, FinML.Flt.mul, add_zero, mul_one]
    rw [List.getElem?_cons_succ, rollReturnsF, List.map_map, List.range_eq_range']
    rw [cumprod_get _ (adj.length - 1) (fun i => 1 + (adj.getD (i + 1) 0 - adj.getD i 0) / raw.getD i 0)
      (fun i => raw.getD i 0 = 0) (adj.length - 1) ?_ ?_ 1 0 (by omega) k (by omega)]
    · rw [zero_add, one_mul, factorsBefore, List.range_eq_range']
    · intro i hi hz
      dsimp only [Function.comp]
      rw [hz, h i (by omega) hz, sub_self]
      simp [FinML.Flt.div, FinML.Flt.infOf]
    · intro i hi hz
      dsimp only [Function.comp]
      rw [FinML.Flt.div, if_neg hz]

/-- C291, full claim: every value of the RET_PRICES column is a number when the prices are numbers and none is
negative. -/
def FiniteRetPrices (K : Type) [Field K] [LinearOrder K] [IsStrictOrderedRing K] : Prop :=
  ∀ (bars : Frame K) (contracts : List ℕ) (r : List (FinML.Flt K)), FrameOk bars contracts →
    (∀ c, ∀ x ∈ bars c, 0 ≤ x) → rolledRetPricesF bars contracts [.open, .close] true = .ok r → ∀ x ∈ r, IsNum x

/-- A price that closes at zero once and recovers. -/
def zeroClose : Frame ℚ
  | .open => [10, 5, 1, 10, 10]
  | .close => [10, 0, 10, 10, 20]
  | _ => [1, 1, 1, 1, 1]

/-- C291, counterexample: one close of zero, and from the next bar the column is NaN to the end of the series. -/
theorem C291_finite_counterexample : ¬ FiniteRetPrices ℚ ∧
    rolledRetPricesF zeroClose [7, 7, 7, 7, 7] [.open, .close] true =
      .ok [.fin 1, .fin 0, .nan, .nan, .nan] := by
  have h1 : rolledRetPricesF zeroClose [7, 7, 7, 7, 7] [.open, .close] true =
      .ok [.fin 1, .fin 0, .nan, .nan, .nan] := by decide +kernel
  refine ⟨fun h => ?_, h1⟩
  obtain ⟨y, hy⟩ := h zeroClose [7, 7, 7, 7, 7] _ (fun c => by cases c <;> rfl)
    (by intro c; cases c <;> decide +kernel) h1 .nan (by simp)
  cases hy

omit [IsStrictOrderedRing K] in
/-- C291. Where the exact model gives the column, so do floats. -/
theorem C291_agree (adj raw : List K) (hl : raw.length = adj.length) (r : List K) (h : retPrices adj raw = .ok r) :
    retPricesF adj raw = .ok (r.map .fin) := by
  unfold retPrices at h
  unfold retPricesF
  by_cases hne : adj = []
  · rw [if_pos hne] at h
    cases h
  rw [if_neg hne] at h ⊢
  by_cases h0 : (0 : K) ∈ raw.dropLast
  · rw [if_pos h0] at h
    cases h
  rw [if_neg h0] at h
  cases h
  have cp (s : K) (l : List K) : cumprodFromF (.fin s) (l.map .fin) = (cumprodFrom s l).map FinML.Flt.fin := by
    induction l generalizing s with
    | nil => rfl
    | cons x xs ih =>
      rw [List.map_cons, cumprodFromF, cumprodFrom, List.map_cons, ← ih]
      rfl
  rw [← cp]
  congr 2
  rw [List.map_cons, List.map_cons, List.map_cons]
  congr 1
  rw [List.map_map]
  unfold rollReturnsF rollReturns
  rw [List.map_map, List.map_map]
  refine List.map_congr_left fun i hi => ?_
  rw [List.mem_range] at hi
  have hz : raw.getD i 0 ≠ 0 := by
    intro e
    refine h0 ?_
    rw [List.getD_eq_getElem _ _ (by omega)] at e
    rw [← e, List.dropLast_eq_take]
    exact List.mem_take_iff_getElem.2 ⟨i, by omega, rfl⟩
  dsimp only [Function.comp]
  rw [FinML.Flt.div, if_neg hz]
  rfl

/-- A price that is quoted at zero for a while: the hypotheses of the theorems are met. -/
example : retPricesF ([10, 0, 0, 0, 5] : List ℚ) [10, 0, 0, 0, 5] = .ok [.fin 1, .fin 0, .nan, .nan, .nan] ∧
    retPricesF ([10, 12, 12, 6] : List ℚ) [10, 0, 12, 6] = .ok [.fin 1, .fin (6 / 5), .nan, .fin (3 / 5)] := by
  refine ⟨by decide +kernel, by decide +kernel⟩

end FinML.Basket
