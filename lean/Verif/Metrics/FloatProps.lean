import Verif.Metrics.FloatModel
import Verif.Metrics.ChainProps
import Mathlib.Algebra.Order.Ring.Rat
import Mathlib.Algebra.Order.BigOperators.Group.List
import Mathlib.Tactic.Ring
import Mathlib.Tactic.Linarith
import Mathlib.Tactic.FieldSimp

/-! # Time-weighted return of a portfolio that is empty for a while (C288) -/

namespace FinML.Metrics

variable {K : Type} [Field K] [LinearOrder K] [IsStrictOrderedRing K]

/-- The periods between rows: the balance a period begins with (value and cash flow of its row), and the value it ends
with. -/
def periods (rows : List (K × K)) : List (K × K) := rows.zipWith (fun r s => (r.1 + r.2, s.1)) rows.tail

/-- Growth of one unit of money over the periods that begin with a balance. -/
def growthOf (rows : List (K × K)) : K := (((periods rows).filter fun p => p.1 ≠ 0).map fun p => p.2 / p.1).prod

/-- No period begins with a debt or ends with one. -/
def Solvent (rows : List (K × K)) : Prop := ∀ p ∈ periods rows, 0 ≤ p.1 ∧ 0 ≤ p.2

/-- Some period begins with nothing and ends with something. -/
def FromNothing (rows : List (K × K)) : Prop := ∃ p ∈ periods rows, p.1 = 0 ∧ 0 < p.2

/-- Some period begins with a balance and ends with nothing. -/
def TotalLoss (rows : List (K × K)) : Prop := ∃ p ∈ periods rows, p.1 ≠ 0 ∧ p.2 = 0

/-- Growth factor of a period in floats. -/
private def factor (p : K × K) : Flt K := if p.1 = 0 then Flt.infOf p.2 else .fin (p.2 / p.1)

omit [IsStrictOrderedRing K] in
private theorem one_add_infOf (x : K) : Flt.add (.fin 1) (Flt.infOf x) = Flt.infOf x := by
  unfold Flt.infOf
  by_cases h : 0 < x
  · rw [if_pos h]; rfl
  · rw [if_neg h]
    by_cases h' : x < 0
    · rw [if_pos h']; rfl
    · rw [if_neg h']; rfl

omit [IsStrictOrderedRing K] in
private theorem factors_eq (rows : List (K × K)) :
    ((twrReturnsF rows).map fun r => Flt.add (.fin 1) r).filter (fun x => !x.isNan) =
      ((periods rows).map factor).filter fun x => !x.isNan := by
  cases rows with
  | nil => rfl
  | cons a rest =>
    obtain ⟨v, c⟩ := a
    have e : (rest.zip ((v, c) :: rest)).map (fun x => Flt.add (.fin 1)
        (Flt.div (.fin (x.1.1 - (x.2.1 + x.2.2))) (.fin (x.2.1 + x.2.2)))) = (periods ((v, c) :: rest)).map factor := by
      unfold periods
      rw [List.tail_cons, List.map_zipWith, List.zip, List.map_zipWith, List.zipWith_comm]
      congr 1
      funext r s
      unfold Flt.div factor
      dsimp only
      by_cases h : r.1 + r.2 = 0
      · rw [if_pos h, if_pos h, h, sub_zero, one_add_infOf]
      · rw [if_neg h, if_neg h]
        unfold Flt.add
        dsimp only
        congr 1
        rw [sub_div, div_self h]
        ring
    unfold twrReturnsF
    rw [List.map_cons, List.map_map]
    rw [show Flt.add (.fin 1) (.nan : Flt K) = .nan from rfl, List.filter_cons_of_neg (by simp [Flt.isNan])]
    rw [← e]
    rfl

omit [IsStrictOrderedRing K] in
private theorem twr_eq (rows : List (K × K)) :
    timeWeightedReturnF rows =
      Flt.sub ((((periods rows).map factor).filter fun x => !x.isNan).foldl Flt.mul (.fin 1)) (.fin 1) := by
  unfold timeWeightedReturnF prodF
  rw [factors_eq]

omit [IsStrictOrderedRing K] in
private theorem fold_fin (l : List K) (a : K) : (l.map Flt.fin).foldl Flt.mul (.fin a) = .fin (a * l.prod) := by
  induction l generalizing a with
  | nil => simp
  | cons x xs ih => rw [List.map_cons, List.foldl_cons, Flt.mul, ih, List.prod_cons, mul_assoc]

omit [IsStrictOrderedRing K] in
private theorem fold_nan (l : List (Flt K)) : l.foldl Flt.mul .nan = .nan := by
  induction l with
  | nil => rfl
  | cons x xs ih => rw [List.foldl_cons, show Flt.mul .nan x = .nan by cases x <;> rfl, ih]

private theorem fold_inf (l : List (Flt K)) (acc : Flt K) (h : ∀ x ∈ acc :: l, x = .posInf ∨ ∃ q, 0 < q ∧ x = .fin q)
    (hi : .posInf ∈ acc :: l) : l.foldl Flt.mul acc = .posInf := by
  induction l generalizing acc with
  | nil => exact (List.mem_singleton.1 hi).symm
  | cons x xs ih =>
    rw [List.foldl_cons]
    have ha := h acc List.mem_cons_self
    have hx := h x (List.mem_cons_of_mem _ List.mem_cons_self)
    have key : (Flt.mul acc x = .posInf ∨ ∃ q, 0 < q ∧ Flt.mul acc x = .fin q) ∧
        (acc = .posInf ∨ x = .posInf → Flt.mul acc x = .posInf) := by
      rcases ha with rfl | ⟨a, ha, rfl⟩ <;> rcases hx with rfl | ⟨b, hb, rfl⟩
      · exact ⟨.inl rfl, fun _ => rfl⟩
      · have e : Flt.mul .posInf (.fin b) = .posInf := by simp [Flt.mul, Flt.infOf, hb]
        exact ⟨.inl e, fun _ => e⟩
      · have e : Flt.mul (.fin a) .posInf = .posInf := by simp [Flt.mul, Flt.infOf, ha]
        exact ⟨.inl e, fun _ => e⟩
      · exact ⟨.inr ⟨a * b, mul_pos ha hb, rfl⟩, fun h => by rcases h with h | h <;> cases h⟩
    refine ih _ ?_ ?_
    · intro y hy
      rcases List.mem_cons.1 hy with rfl | hy
      · exact key.1
      · exact h y (List.mem_cons_of_mem _ (List.mem_cons_of_mem _ hy))
    · rcases List.mem_cons.1 hi with hi | hi
      · rw [key.2 (.inl hi.symm)]
        exact List.mem_cons_self
      · rcases List.mem_cons.1 hi with hi | hi
        · rw [key.2 (.inr hi.symm)]
          exact List.mem_cons_self
        · exact List.mem_cons_of_mem _ hi

private theorem fold_lost (l : List (Flt K)) (acc : Flt K) (h : ∀ x ∈ acc :: l, x = .posInf ∨ ∃ q, 0 ≤ q ∧ x = .fin q)
    (hi : .posInf ∈ acc :: l) (h0 : .fin 0 ∈ acc :: l) : l.foldl Flt.mul acc = .nan := by
  induction l generalizing acc with
  | nil =>
    rw [List.mem_singleton] at hi h0
    rw [← hi] at h0
    cases h0
  | cons x xs ih =>
    rw [List.foldl_cons]
    have ha := h acc List.mem_cons_self
    have hx := h x (List.mem_cons_of_mem _ List.mem_cons_self)
    have key : Flt.mul acc x = .nan ∨ (Flt.mul acc x = .posInf ∨ ∃ q, 0 ≤ q ∧ Flt.mul acc x = .fin q) ∧
        (acc = .posInf ∨ x = .posInf → Flt.mul acc x = .posInf) ∧ (acc = .fin 0 ∨ x = .fin 0 → Flt.mul acc x = .fin 0) := by
      rcases ha with rfl | ⟨a, ha, rfl⟩ <;> rcases hx with rfl | ⟨b, hb, rfl⟩
      · exact .inr ⟨.inl rfl, fun _ => rfl, fun h => by rcases h with h | h <;> cases h⟩
      · rcases hb.lt_or_eq with hb | rfl
        · have e : Flt.mul .posInf (.fin b) = .posInf := by simp [Flt.mul, Flt.infOf, hb]
          refine .inr ⟨.inl e, fun _ => e, fun h => ?_⟩
          rcases h with h | h
          · cases h
          · cases h
            exact absurd hb (lt_irrefl _)
        · left
          simp [Flt.mul, Flt.infOf]
      · rcases ha.lt_or_eq with ha | rfl
        · have e : Flt.mul (.fin a) .posInf = .posInf := by simp [Flt.mul, Flt.infOf, ha]
          refine .inr ⟨.inl e, fun _ => e, fun h => ?_⟩
          rcases h with h | h
          · cases h
            exact absurd ha (lt_irrefl _)
          · cases h
        · left
          simp [Flt.mul, Flt.infOf]
      · refine .inr ⟨.inr ⟨a * b, mul_nonneg ha hb, rfl⟩, (fun h => by rcases h with h | h <;> cases h), fun h => ?_⟩
        rcases h with h | h <;> cases h <;> simp [Flt.mul]
    rcases key with e | ⟨k1, k2, k3⟩
    · rw [e, fold_nan]
    · refine ih _ ?_ ?_ ?_
      · intro y hy
        rcases List.mem_cons.1 hy with rfl | hy
        · exact k1
        · exact h y (List.mem_cons_of_mem _ (List.mem_cons_of_mem _ hy))
      · rcases List.mem_cons.1 hi with hi | hi
        · rw [k2 (.inl hi.symm)]
          exact List.mem_cons_self
        · rcases List.mem_cons.1 hi with hi | hi
          · rw [k2 (.inr hi.symm)]
            exact List.mem_cons_self
          · exact List.mem_cons_of_mem _ hi
      · rcases List.mem_cons.1 h0 with hi | hi
        · rw [k3 (.inl hi.symm)]
          exact List.mem_cons_self
        · rcases List.mem_cons.1 hi with hi | hi
          · rw [k3 (.inr hi.symm)]
            exact List.mem_cons_self
          · exact List.mem_cons_of_mem _ hi

/-- C288, full claim: without debts the time-weighted return is that of the periods that begin with a balance. -/
def EmptyPeriods (K : Type) [Field K] [LinearOrder K] : Prop :=
  ∀ rows : List (K × K), Solvent rows → timeWeightedReturnF rows = .fin (growthOf rows - 1)

/-- C288, counterexample: a period that begins with nothing and ends with one dollar makes the return infinite; after a
total loss it makes it NaN, so that the loss is not reported. -/
theorem C288_empty_counterexample : ¬ EmptyPeriods ℚ ∧
    timeWeightedReturnF ([(100, -100), (1, 0)] : List (ℚ × ℚ)) = .posInf ∧
    timeWeightedReturnF ([(100, 0), (0, 0), (1, 0)] : List (ℚ × ℚ)) = .nan := by
  have h1 : timeWeightedReturnF ([(100, -100), (1, 0)] : List (ℚ × ℚ)) = .posInf := by decide +kernel
  refine ⟨fun h => ?_, h1, by decide +kernel⟩
  have := h [(100, -100), (1, 0)] (by unfold Solvent; decide +kernel)
  rw [h1] at this
  cases this

omit [IsStrictOrderedRing K] in
/-- C288. If a period that begins with nothing ends with nothing, the time-weighted return is that of
the periods that begin with a balance: empty periods do not count, a total loss is -1 whatever follows. -/
theorem C288_empty_partial (rows : List (K × K)) (h : ∀ p ∈ periods rows, p.1 = 0 → p.2 = 0) :
    timeWeightedReturnF rows = .fin (growthOf rows - 1) := by
  rw [twr_eq]
  have e : ((periods rows).map factor).filter (fun x => !x.isNan) =
      (((periods rows).filter fun p => p.1 ≠ 0).map fun p => p.2 / p.1).map Flt.fin := by
    generalize periods rows = ps at h
    induction ps with
    | nil => rfl
    | cons p ps ih =>
      have ih := ih fun q hq => h q (List.mem_cons_of_mem _ hq)
      rw [List.map_cons]
      by_cases h0 : p.1 = 0
      · rw [List.filter_cons_of_neg (by simp [factor, h0, h p List.mem_cons_self h0, Flt.infOf, Flt.isNan]),
          List.filter_cons_of_neg (by simp [h0]), ih]
      · rw [List.filter_cons_of_pos (by simp [factor, h0, Flt.isNan]), List.filter_cons_of_pos (by simp [h0]), ih]
        simp [factor, h0]
  rw [e, fold_fin, one_mul]
  simp [Flt.sub, Flt.neg, Flt.add, growthOf, sub_eq_add_neg]

/-- C288. Without debts these are all the cases: when some period begins with nothing and ends with something, the
return is NaN if some period is a total loss and infinite if none is. -/
theorem C288_cases (rows : List (K × K)) (hs : Solvent rows) :
    (¬ FromNothing rows → timeWeightedReturnF rows = .fin (growthOf rows - 1)) ∧
    (FromNothing rows → ¬ TotalLoss rows → timeWeightedReturnF rows = .posInf) ∧
    (FromNothing rows → TotalLoss rows → timeWeightedReturnF rows = .nan) := by
  refine ⟨fun h => ?_, fun h h' => ?_, fun h h' => ?_⟩
  · refine C288_empty_partial rows fun p hp h0 => ?_
    by_contra hne
    exact h ⟨p, hp, h0, lt_of_le_of_ne (hs p hp).2 (Ne.symm hne)⟩
  · rw [twr_eq, fold_inf]
    · rfl
    · intro x hx
      rcases List.mem_cons.1 hx with rfl | hx
      · exact .inr ⟨1, one_pos, rfl⟩
      · rw [List.mem_filter, List.mem_map] at hx
        obtain ⟨⟨p, hp, rfl⟩, hn⟩ := hx
        unfold factor at hn ⊢
        by_cases h0 : p.1 = 0
        · rw [if_pos h0] at hn ⊢
          unfold Flt.infOf at hn ⊢
          by_cases h1 : 0 < p.2
          · rw [if_pos h1]
            exact .inl rfl
          · rw [if_neg h1, if_neg (not_lt.2 (hs p hp).2)] at hn
            cases hn
        · rw [if_neg h0]
          right
          refine ⟨_, div_pos ?_ ?_, rfl⟩
          · exact lt_of_le_of_ne (hs p hp).2 fun h1 => h' ⟨p, hp, h0, h1.symm⟩
          · exact lt_of_le_of_ne (hs p hp).1 (Ne.symm h0)
    · obtain ⟨p, hp, h0, h1⟩ := h
      refine List.mem_cons_of_mem _ (List.mem_filter.2 ⟨List.mem_map.2 ⟨p, hp, ?_⟩, rfl⟩)
      rw [factor, if_pos h0, Flt.infOf, if_pos h1]
  · rw [twr_eq, fold_lost]
    · rfl
    · intro x hx
      rcases List.mem_cons.1 hx with rfl | hx
      · exact .inr ⟨1, zero_le_one, rfl⟩
      · rw [List.mem_filter, List.mem_map] at hx
        obtain ⟨⟨p, hp, rfl⟩, hn⟩ := hx
        unfold factor at hn ⊢
        by_cases h0 : p.1 = 0
        · rw [if_pos h0] at hn ⊢
          unfold Flt.infOf at hn ⊢
          by_cases h1 : 0 < p.2
          · rw [if_pos h1]
            exact .inl rfl
          · rw [if_neg h1, if_neg (not_lt.2 (hs p hp).2)] at hn
            cases hn
        · rw [if_neg h0]
          exact .inr ⟨_, div_nonneg (hs p hp).2 (hs p hp).1, rfl⟩
    · obtain ⟨p, hp, h0, h1⟩ := h
      refine List.mem_cons_of_mem _ (List.mem_filter.2 ⟨List.mem_map.2 ⟨p, hp, ?_⟩, rfl⟩)
      rw [factor, if_pos h0, Flt.infOf, if_pos h1]
    · obtain ⟨p, hp, h0, h1⟩ := h'
      refine List.mem_cons_of_mem _ (List.mem_filter.2 ⟨List.mem_map.2 ⟨p, hp, ?_⟩, rfl⟩)
      rw [factor, if_neg h0, h1, zero_div]

omit [IsStrictOrderedRing K] in
/-- C288. Where every period begins with a balance the float model and the exact model give the same return. -/
theorem C288_agree (rows : List (K × K)) (x : K) (h : timeWeightedReturn rows = .ok x) :
    timeWeightedReturnF rows = .fin x := by
  cases rows with
  | nil =>
    have e : timeWeightedReturn ([] : List (K × K)) = .ok (1 - 1) := rfl
    rw [e] at h
    cases h
    simp [C288_empty_partial [] (by simp [periods]), growthOf, periods]
  | cons row rest =>
    obtain ⟨h1, h2⟩ := twr_ratio row rest x h
    have e : periods (row :: rest) = (rest.zip (row :: rest)).map fun q => (q.2.1 + q.2.2, q.1.1) := by
      unfold periods
      rw [List.tail_cons, List.zip, List.map_zipWith, List.zipWith_comm]
    have hne : ∀ p ∈ periods (row :: rest), p.1 ≠ 0 := by
      intro p hp
      rw [e, List.mem_map] at hp
      obtain ⟨q, hq, rfl⟩ := hp
      exact h1 q hq
    rw [C288_empty_partial _ fun p hp h0 => absurd h0 (hne p hp), growthOf,
      List.filter_eq_self.2 (by simpa using fun a b hp => hne (a, b) hp), e, List.map_map]
    congr 1
    rw [show ((fun p : K × K => p.2 / p.1) ∘ fun q : (K × K) × (K × K) => (q.2.1 + q.2.2, q.1.1)) =
      fun q => q.1.1 / (q.2.1 + q.2.2) from rfl, ← h2]
    ring

/-- Emptied, refilled and lost: the hypotheses of the theorems are met. -/
example : (∀ p ∈ periods ([(100, -50), (60, -60), (0, 30), (0, 0), (0, 5), (5, 0)] : List (ℚ × ℚ)), p.1 = 0 → p.2 = 0) ∧
    timeWeightedReturnF ([(100, -50), (60, -60), (0, 30), (45, 0)] : List (ℚ × ℚ)) = .fin (4 / 5) ∧
    timeWeightedReturnF ([(100, -50), (60, -60), (0, 30), (0, 0), (0, 5), (5, 0)] : List (ℚ × ℚ)) = .fin (-1) := by
  refine ⟨by decide +kernel, by decide +kernel, by decide +kernel⟩

end FinML.Metrics
