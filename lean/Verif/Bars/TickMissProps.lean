import Verif.Bars.MissFlowModel
import Verif.Py.Lemmas
import Mathlib.Data.List.ReduceOption
import Mathlib.Tactic.Linarith

/-!
# The tick rule with missing prices (C348)

A missing price makes two changes unknown, and every unchanged price after them inherits the unknown flag.
-/

namespace FinML.Bars

set_option linter.unusedSectionVars false

variable {K : Type} [Field K] [LinearOrder K] [IsStrictOrderedRing K]

/-- The entries of `xs` at the known prices. -/
def atKnown {α : Type} (prices : List (Option K)) (xs : List α) : List α :=
  (prices.zip xs).filterMap fun p => p.1.map fun _ => p.2

/-- C348, the full claim: the flags of the ticks with a price are those of the stream of these ticks. -/
def FlagsOfKnown (K : Type) [Field K] [LinearOrder K] [IsStrictOrderedRing K] : Prop :=
  ∀ (b0 : K) (prices : List (Option K)),
    atKnown prices (tickRuleM b0 prices) = (tickRule b0 prices.reduceOption).map some

/-- C348.  After a fall across a missing price no flag is known until the price moves again. -/
theorem C348_counterexample : ¬ FlagsOfKnown ℚ := by
  intro h
  have := h 1 [some 10, none, some 9, some 9, some 9]
  revert this
  decide +kernel

theorem known_from (prices : List (Option K)) (f p : Option K) (t a : K) (hf : f = none ∨ f = some t)
    (hp : ∀ x, p = some x → x = a) :
    List.Forall₂ (fun x y => x = none ∨ x = some y) (atKnown prices (tickRuleMFrom f p prices))
      (tickRuleFrom t a prices.reduceOption) := by
  induction prices generalizing f p t a with
  | nil => exact .nil
  | cons q qs ih =>
    cases q with
    | none =>
      have := ih none none t a (.inl rfl) (by simp)
      have e : flagM f (changeM p none) = none := by cases p <;> rfl
      rw [List.reduceOption_cons_of_none, tickRuleMFrom, e]
      exact this
    | some b =>
      rw [List.reduceOption_cons_of_some, tickRuleMFrom, tickRuleFrom]
      have key : flagM f (changeM p (some b)) = none ∨
          flagM f (changeM p (some b)) = some (if b - a = 0 then t else |b - a| / (b - a)) := by
        cases hpc : p with
        | none => exact .inl rfl
        | some x =>
          obtain rfl := hp x hpc
          by_cases hd : b - x = 0
          · rw [if_pos hd]
            simpa [flagM, changeM, hd] using hf
          · right
            simp [flagM, changeM, hd]
      exact .cons key (ih _ (some b) _ b key (by simp))

theorem known_start (prices : List (Option K)) (f : Option K) (b0 : K) :
    List.Forall₂ (fun x y => x = none ∨ x = some y) (atKnown prices (tickRuleMFrom f none prices))
      (tickRule b0 prices.reduceOption) := by
  induction prices generalizing f with
  | nil => exact .nil
  | cons q qs ih =>
    cases q with
    | none =>
      rw [List.reduceOption_cons_of_none, tickRuleMFrom]
      exact ih _
    | some b =>
      rw [List.reduceOption_cons_of_some, tickRuleMFrom, tickRule]
      exact .cons (.inl rfl) (known_from qs _ (some b) b0 b (.inl rfl) (by simp))

/-- C348.  A known flag is the right one (missing from the full claim: flags that are unknown, `C348_unknown`). -/
theorem C348_known_partial (b0 : K) (prices : List (Option K)) :
    List.Forall₂ (fun x y => x = none ∨ x = some y) (atKnown prices (tickRuleM b0 prices))
      (tickRule b0 prices.reduceOption) ∧
    (tickRuleM b0 prices).length = prices.length := by
  constructor
  · cases prices with
    | nil => exact .nil
    | cons p ps =>
      cases p with
      | none =>
        rw [List.reduceOption_cons_of_none, tickRuleM]
        exact known_start ps _ b0
      | some a =>
        rw [List.reduceOption_cons_of_some, tickRuleM, tickRule]
        exact .cons (.inr rfl) (known_from ps _ _ b0 a (.inr rfl) (by simp))
  · have : ∀ (f p : Option K) (l : List (Option K)), (tickRuleMFrom f p l).length = l.length := by
      intro f p l
      induction l generalizing f p with
      | nil => rfl
      | cons q qs ih => simp [tickRuleMFrom, ih]
    cases prices with
    | nil => rfl
    | cons p ps => simp [tickRuleM, this]

theorem tickRuleMFrom_succ (f p : Option K) (l : List (Option K)) (i : ℕ) (q r g : Option K) (hq : l[i]? = some q)
    (hr : l[i + 1]? = some r) (hg : (tickRuleMFrom f p l)[i]? = some g) :
    (tickRuleMFrom f p l)[i + 1]? = some (flagM g (changeM q r)) := by
  induction l generalizing f p i with
  | nil => simp at hq
  | cons x xs ih =>
    cases i with
    | zero =>
      cases xs with
      | nil => simp at hr
      | cons y ys =>
        simp only [List.getElem?_cons_zero, Option.some.injEq, tickRuleMFrom, List.getElem?_cons_succ, zero_add] at *
        rw [hg, hq, hr]
    | succ i =>
      simp only [List.getElem?_cons_succ, tickRuleMFrom] at *
      exact ih _ _ i hq hr hg

theorem tickRuleM_succ (b0 : K) (l : List (Option K)) (i : ℕ) (q r g : Option K) (hq : l[i]? = some q)
    (hr : l[i + 1]? = some r) (hg : (tickRuleM b0 l)[i]? = some g) :
    (tickRuleM b0 l)[i + 1]? = some (flagM g (changeM q r)) := by
  cases l with
  | nil => simp at hq
  | cons x xs =>
    cases i with
    | zero =>
      cases xs with
      | nil => simp at hr
      | cons y ys =>
        simp only [List.getElem?_cons_zero, Option.some.injEq, tickRuleM, tickRuleMFrom, List.getElem?_cons_succ,
          zero_add] at *
        rw [hq, hr, hg]
    | succ i =>
      simp only [List.getElem?_cons_succ, tickRuleM] at *
      exact tickRuleMFrom_succ _ _ xs i q r g hq hr hg

/-- The price of tick `j` or the one before is missing. -/
def UnknownChange (prices : List (Option K)) (j : ℕ) : Prop :=
  1 ≤ j ∧ (prices[j]? = some none ∨ prices[j - 1]? = some none)

/-- The prices of tick `j` and of the one before are known and equal. -/
def Unchanged (prices : List (Option K)) (j : ℕ) : Prop :=
  ∃ a, prices[j]? = some (some a) ∧ prices[j - 1]? = some (some a)

/-- C348.  A flag is unknown exactly if there is an unknown change at or before it with no known, non-zero change since. -/
theorem C348_unknown (b0 : K) (prices : List (Option K)) (i : ℕ) (hi : i < prices.length) :
    (tickRuleM b0 prices)[i]? = some none ↔
      ∃ j ≤ i, UnknownChange prices j ∧ ∀ k, j < k → k ≤ i → Unchanged prices k := by
  induction i with
  | zero =>
    have h0 : (tickRuleM b0 prices)[0]? = some (some b0) := by
      cases prices with
      | nil => simp at hi
      | cons p ps => rfl
    rw [h0]
    constructor
    · intro h
      cases h
    · rintro ⟨j, hj, hu, -⟩
      have := hu.1
      omega
  | succ i ih =>
    have ih := ih (by omega)
    obtain ⟨q, hq⟩ : ∃ q, prices[i]? = some q := ⟨_, List.getElem?_eq_getElem (by omega)⟩
    obtain ⟨r, hr⟩ : ∃ r, prices[i + 1]? = some r := ⟨_, List.getElem?_eq_getElem hi⟩
    obtain ⟨g, hg⟩ : ∃ g, (tickRuleM b0 prices)[i]? = some g :=
      ⟨_, List.getElem?_eq_getElem (by rw [(C348_known_partial b0 prices).2]; omega)⟩
    rw [tickRuleM_succ b0 prices i q r g hq hr hg]
    rw [hg] at ih
    by_cases hqr : q = none ∨ r = none
    · have hc : changeM q r = none := by
        rcases hqr with h | h
        · rw [h]; rfl
        · rw [h]; cases q <;> rfl
      rw [hc]
      refine ⟨fun _ => ⟨i + 1, le_rfl, ⟨by omega, ?_⟩, fun k h1 h2 => by omega⟩, fun _ => rfl⟩
      rcases hqr with h | h
      · right
        rw [Nat.add_sub_cancel, hq, h]
      · left
        rw [hr, h]
    · push Not at hqr
      obtain ⟨a, ha⟩ := Option.ne_none_iff_exists'.1 hqr.1
      obtain ⟨b, hb⟩ := Option.ne_none_iff_exists'.1 hqr.2
      subst ha hb
      have hno : ¬ UnknownChange prices (i + 1) := by
        rintro ⟨-, h | h⟩
        · rw [hr] at h; cases h
        · rw [Nat.add_sub_cancel, hq] at h; cases h
      have hun : Unchanged prices (i + 1) ↔ b - a = 0 := by
        unfold Unchanged
        rw [Nat.add_sub_cancel, hq, hr]
        constructor
        · rintro ⟨c, h1, h2⟩
          cases h1
          cases h2
          exact sub_self _
        · intro h
          exact ⟨b, rfl, by rw [sub_eq_zero.1 h]⟩
      by_cases hd : b - a = 0
      · have e : flagM g (changeM (some a) (some b)) = g := by simp [flagM, changeM, hd]
        rw [e]
        rw [ih]
        constructor
        · rintro ⟨j, hj, hu, hk⟩
          refine ⟨j, by omega, hu, fun k h1 h2 => ?_⟩
          rcases Nat.lt_or_ge i k with h | h
          · obtain rfl : k = i + 1 := by omega
            exact hun.2 hd
          · exact hk k h1 h
        · rintro ⟨j, hj, hu, hk⟩
          rcases Nat.lt_or_ge i j with h | h
          · obtain rfl : j = i + 1 := by omega
            exact absurd hu hno
          · exact ⟨j, h, hu, fun k h1 h2 => hk k h1 (by omega)⟩
      · have e : flagM g (changeM (some a) (some b)) = some (|b - a| / (b - a)) := by simp [flagM, changeM, hd]
        rw [e]
        constructor
        · intro h
          cases h
        · rintro ⟨j, hj, hu, hk⟩
          rcases Nat.lt_or_ge i j with h | h
          · obtain rfl : j = i + 1 := by omega
            exact absurd hu hno
          · exact absurd (hun.1 (hk (i + 1) (by omega) le_rfl)) hd

/-- C348.  With all prices known the flags are those of C58. -/
theorem C348_complete (b0 : K) (prices : List K) : tickRuleM b0 (prices.map some) = (tickRule b0 prices).map some := by
  have : ∀ (t a : K) (l : List K), tickRuleMFrom (some t) (some a) (l.map some) = (tickRuleFrom t a l).map some := by
    intro t a l
    induction l generalizing t a with
    | nil => rfl
    | cons b l ih =>
      have e : flagM (some t) (changeM (some a) (some b)) = some (if b - a = 0 then t else |b - a| / (b - a)) := by
        by_cases hd : b - a = 0 <;> simp [flagM, changeM, hd]
      rw [List.map_cons, tickRuleMFrom, tickRuleFrom, e, ih]
      rfl
  cases prices with
  | nil => rfl
  | cons p ps => rw [List.map_cons, tickRuleM, tickRule, this, List.map_cons]

example : tickRuleM (1 : ℚ) [some 10, none, some 9, some 9, some 8, some 8] =
    [some 1, none, none, none, some (-1), some (-1)] := by decide +kernel

end FinML.Bars
