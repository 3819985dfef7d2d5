import Verif.TimeSeries.Model
import Verif.Py.Search
import Mathlib.Data.List.GetD
import Mathlib.Data.Rat.Defs
import Mathlib.Algebra.Order.Field.Rat
import Mathlib.Tactic.NormNum

/-! # Properties C30, C31 -/

namespace FinML.TimeSeries

/-- `x` is the first bar at or after `t`. -/
def FirstFrom (index : List ℤ) (t x : ℤ) : Prop := IsLeast {b | b ∈ index ∧ t ≤ b} x

/-- `x` is the last bar strictly before `t`. -/
def LastBefore (index : List ℤ) (t x : ℤ) : Prop := IsGreatest {b | b ∈ index ∧ b < t} x

/-- Nanoseconds in 24 hours. -/
def oneDay : ℤ := 24 * 60 * 60 * 10 ^ 9

theorem day_eq : day = oneDay := by decide

/-! ## C30 -/

/-- The barriers of the events are right: those with a bar at or after the end of the holding
period, in order, each with that first bar. -/
def BarriersRight (index events : List ℤ) (holdingPeriod : ℤ) (out : List (ℤ × ℤ)) : Prop :=
  (∀ e b, (e, b) ∈ out → e ∈ events ∧ FirstFrom index (e + holdingPeriod * oneDay) b) ∧
  (∀ e ∈ events, (∃ x ∈ index, e + holdingPeriod * oneDay ≤ x) → e ∈ out.map Prod.fst) ∧
  (out.map Prod.fst).Sublist events

/-- C30, full claim. -/
def BarriersForAllEvents : Prop := ∀ (index events : List ℤ) (holdingPeriod : ℤ),
  index.Pairwise (· < ·) → BarriersRight index events holdingPeriod
    (verticalBarriers index events holdingPeriod)

/-- C30, counterexample: with the events out of order, an event after the last bar takes the barrier
of another event. -/
theorem C30_unsorted_events_counterexample : ¬ BarriersForAllEvents := by
  intro h
  have h1 := (h [0, 3] [5, 0] 0 (by decide)).1 5 0 (by decide)
  have := h1.2.1.2
  omega

/-- If the indices that satisfy a downward closed test come first, filtering them is taking them. -/
theorem filter_take {α : Type} (p : α → Bool) (l : List α)
    (h : l.Pairwise fun a b => p b = true → p a = true) :
    l.filter p = l.take (l.filter p).length := by
  induction l with
  | nil => rfl
  | cons a l ih =>
    rw [List.pairwise_cons] at h
    by_cases ha : p a = true
    · rw [List.filter_cons_of_pos ha, List.length_cons, List.take_succ_cons, ← ih h.2]
    · have : l.filter p = [] := by
        rw [List.filter_eq_nil_iff]
        intro b hb hpb
        exact ha (h.1 b hb hpb)
      rw [List.filter_cons_of_neg ha, this]
      rfl

/-- Same with the indices at the end. -/
theorem filter_drop {α : Type} (p : α → Bool) (l : List α)
    (h : l.Pairwise fun a b => p a = true → p b = true) :
    l.filter p = l.drop (l.length - (l.filter p).length) := by
  induction l with
  | nil => rfl
  | cons a l ih =>
    rw [List.pairwise_cons] at h
    have hlen : (l.filter p).length ≤ l.length := List.length_filter_le p l
    by_cases ha : p a = true
    · have : l.filter p = l := by
        rw [List.filter_eq_self]
        intro b hb
        exact h.1 b hb ha
      rw [List.filter_cons_of_pos ha, this]
      simp
    · rw [List.filter_cons_of_neg ha, List.length_cons, Nat.succ_sub hlen, List.drop_succ_cons]
      exact ih h.2

/-- C30, what holds: the claim for events in increasing order (missing: events out of order). -/
theorem C30_vertical_barriers_partial (index events : List ℤ) (holdingPeriod : ℤ)
    (hs : index.Pairwise (· < ·)) (he : events.Pairwise (· ≤ ·)) :
    BarriersRight index events holdingPeriod (verticalBarriers index events holdingPeriod) := by
  unfold BarriersRight
  rw [← day_eq]
  have hle : index.Pairwise (· ≤ ·) := hs.imp le_of_lt
  let p : ℤ → Bool := fun e => decide (searchLeft index (e + holdingPeriod * day) < index.length)
  have hform : verticalBarriers index events holdingPeriod =
      (events.filter p).map fun e => (e, index.getD (searchLeft index (e + holdingPeriod * day)) 0) := by
    unfold verticalBarriers
    simp only [List.filter_map, List.length_map, List.map_map]
    have hp : ((fun i : ℕ => decide (i < index.length)) ∘ fun e : ℤ =>
        searchLeft index (e + holdingPeriod * day)) = p := rfl
    rw [hp, ← filter_take p events (he.imp fun {a b} hab => by
      simp only [p, decide_eq_true_iff]
      intro hb
      exact lt_of_le_of_lt (searchLeft_mono index (by omega)) hb)]
    generalize events.filter p = l
    induction l with
    | nil => rfl
    | cons a l ih => simp only [List.map_cons, List.zip_cons_cons, ih]; rfl
  rw [hform]
  refine ⟨?_, ?_, ?_⟩
  · intro e b hmem
    obtain ⟨e', he', heq⟩ := List.mem_map.1 hmem
    cases heq
    rw [List.mem_filter] at he'
    have hlt : searchLeft index (e + holdingPeriod * day) < index.length := by
      simpa [p] using he'.2
    refine ⟨he'.1, ?_⟩
    rw [List.getD_eq_getElem _ _ hlt]
    exact (getElem?_searchLeft index hle _ _).1 (List.getElem?_eq_getElem hlt)
  · intro e hmem hx
    rw [List.map_map]
    refine List.mem_map.2 ⟨e, List.mem_filter.2 ⟨hmem, ?_⟩, rfl⟩
    simpa [p] using (searchLeft_lt_length_iff index hle _).2 hx
  · rw [List.map_map]
    have : ((Prod.fst : ℤ × ℤ → ℤ) ∘ fun e =>
        (e, index.getD (searchLeft index (e + holdingPeriod * day)) 0)) = id := rfl
    rw [this, List.map_id]
    exact List.filter_sublist

example : verticalBarriers [0, 3 * day, 5 * day] [0, day, 4 * day, 6 * day] 1 =
    [(0, 3 * day), (day, 3 * day), (4 * day, 5 * day)] := by decide

/-! ## C31 -/

/-- The bars with a bar more than a day earlier. -/
def HasDayBefore (index : List ℤ) (t : ℤ) : Prop := ∃ b ∈ index, b < t - oneDay

theorem dayPairs_eq (index : List ℤ) (hs : index.Pairwise (· < ·)) (isIntraday : Bool) :
    dayPairs index isIntraday = (index.filter fun t => 0 < searchLeft index (t - day)).map fun t =>
      (t, index.getD (if isIntraday then searchLeft index (t - day) - 1
        else searchLeft index (t - day)) 0) := by
  have hkeys := filter_drop (fun t => decide (0 < searchLeft index (t - day))) index
    (hs.imp fun {a b} hab => by
      simp only [decide_eq_true_iff]
      intro ha
      exact lt_of_lt_of_le ha (searchLeft_mono index (by omega)))
  have hp : ((fun i : ℕ => decide (0 < i)) ∘ fun t : ℤ => searchLeft index (t - day)) =
      fun t => decide (0 < searchLeft index (t - day)) := rfl
  have hzip : ∀ (l : List ℤ) (f : ℤ → ℤ), l.zip (l.map f) = l.map fun t => (t, f t) := by
    intro l f
    induction l with
    | nil => rfl
    | cons a l ih => simp only [List.map_cons, List.zip_cons_cons, ih]
  unfold dayPairs
  cases isIntraday with
  | true =>
    simp only [List.filter_map, List.length_map, List.map_map, if_true]
    rw [hp, ← hkeys, hzip]
    rfl
  | false =>
    simp only [List.filter_map, List.length_map, List.map_map, Bool.false_eq_true, if_false]
    rw [hp, ← hkeys, hzip]
    rfl

theorem mem_dayPairs_keys (index : List ℤ) (hs : index.Pairwise (· < ·)) (isIntraday : Bool) :
    (dayPairs index isIntraday).map Prod.fst =
      index.filter fun t => 0 < searchLeft index (t - day) := by
  rw [dayPairs_eq index hs, List.map_map]
  conv_rhs => rw [← List.map_id (index.filter _)]
  rfl

/-- C31, intraday data: exactly the bars with a bar more than a day earlier are kept, in order, each
paired with the last such bar; in particular never with itself. -/
theorem C31_intraday_pairs (index : List ℤ) (hs : index.Pairwise (· < ·)) :
    (((dayPairs index true).map Prod.fst).Sublist index ∧
      ∀ t ∈ index, t ∈ (dayPairs index true).map Prod.fst ↔ HasDayBefore index t) ∧
    ∀ p ∈ dayPairs index true, LastBefore index (p.1 - oneDay) p.2 ∧ p.2 < p.1 := by
  unfold HasDayBefore
  rw [← day_eq]
  have hle : index.Pairwise (· ≤ ·) := hs.imp le_of_lt
  refine ⟨⟨?_, ?_⟩, ?_⟩
  · rw [mem_dayPairs_keys index hs]; exact List.filter_sublist
  · intro t ht
    rw [mem_dayPairs_keys index hs, List.mem_filter, decide_eq_true_iff,
      searchLeft_pos_iff index hle]
    exact ⟨fun h => h.2, fun h => ⟨ht, h⟩⟩
  · intro p hp
    rw [dayPairs_eq index hs] at hp
    obtain ⟨t, ht, rfl⟩ := List.mem_map.1 hp
    rw [List.mem_filter, decide_eq_true_iff] at ht
    simp only [if_true]
    have hlt : searchLeft index (t - day) - 1 < index.length := by
      have := searchLeft_le index (t - day)
      omega
    rw [List.getD_eq_getElem _ _ hlt]
    have h1 := (getElem?_searchLeft_pred index hle (t - day) _ ht.2).1
      (List.getElem?_eq_getElem hlt)
    refine ⟨h1, ?_⟩
    have := h1.1.2
    have hd : (0 : ℤ) < day := by decide
    omega

/-- C31, full claim for daily data: no bar is paired with itself. -/
def DailyNeverSelf : Prop := ∀ (index : List ℤ), index.Pairwise (· < ·) →
  ∀ p ∈ dayPairs index false, p.2 < p.1

/-- C31, counterexample: a bar two days after the one before is paired with itself, which gives a
return of 0. -/
theorem C31_daily_gap_counterexample : ¬ DailyNeverSelf := by
  intro h
  have := h [0, 2 * day] (by decide) (2 * day, 2 * day) (by decide)
  exact lt_irrefl _ this

/-- C31, daily data: exactly the bars with a bar more than a day earlier are kept, each paired with
the first bar of the past day, itself included; it is paired with itself precisely when there is no
other bar in the past day (missing: such bars should not be paired with themselves). -/
theorem C31_daily_pairs_partial (index : List ℤ) (hs : index.Pairwise (· < ·)) :
    (((dayPairs index false).map Prod.fst).Sublist index ∧
      ∀ t ∈ index, t ∈ (dayPairs index false).map Prod.fst ↔ HasDayBefore index t) ∧
    ∀ p ∈ dayPairs index false, FirstFrom index (p.1 - oneDay) p.2 ∧ p.2 ≤ p.1 ∧
      (p.2 = p.1 ↔ ∀ b ∈ index, p.1 - oneDay ≤ b → p.1 ≤ b) := by
  unfold HasDayBefore
  rw [← day_eq]
  have hle : index.Pairwise (· ≤ ·) := hs.imp le_of_lt
  refine ⟨⟨?_, ?_⟩, ?_⟩
  · rw [mem_dayPairs_keys index hs]; exact List.filter_sublist
  · intro t ht
    rw [mem_dayPairs_keys index hs, List.mem_filter, decide_eq_true_iff,
      searchLeft_pos_iff index hle]
    exact ⟨fun h => h.2, fun h => ⟨ht, h⟩⟩
  · intro p hp
    rw [dayPairs_eq index hs] at hp
    obtain ⟨t, ht, rfl⟩ := List.mem_map.1 hp
    rw [List.mem_filter, decide_eq_true_iff] at ht
    have hd : (0 : ℤ) < day := by decide
    have hlt : searchLeft index (t - day) < index.length :=
      (searchLeft_lt_length_iff index hle _).2 ⟨t, ht.1, by omega⟩
    simp only [Bool.false_eq_true, if_false]
    rw [List.getD_eq_getElem _ _ hlt]
    have h1 := (getElem?_searchLeft index hle (t - day) _).1 (List.getElem?_eq_getElem hlt)
    have h2 : index[searchLeft index (t - day)] ≤ t := h1.2 ⟨ht.1, by omega⟩
    refine ⟨h1, h2, ?_⟩
    constructor
    · intro h b hb hbt
      rw [← h]; exact h1.2 ⟨hb, hbt⟩
    · intro h
      exact le_antisymm h2 (h _ h1.1.1 h1.1.2)

variable {K : Type} [Field K] [LinearOrder K]

/-- C31.  For prices that are never 0 the returns are those between the paired bars. -/
theorem C31_daily_returns (close : List (ℤ × K)) (hs : (close.map Prod.fst).Pairwise (· < ·))
    (hpos : ∀ p ∈ close, p.2 ≠ 0) (isIntraday : Bool) :
    ∃ rets, dailyReturns close isIntraday = .ok rets ∧
      List.Forall₂ (fun p r => ∃ a b, (p.1, a) ∈ close ∧ (p.2, b) ∈ close ∧ r = some (a / b - 1))
        (dayPairs (close.map Prod.fst) isIntraday) rets := by
  have hat : ∀ t, t ∈ close.map Prod.fst → ∃ a, (t, a) ∈ close ∧ closeAt close t = .ok a := by
    intro t ht
    unfold closeAt
    cases hf : close.find? (fun p => p.1 = t) with
    | none =>
      rw [List.find?_eq_none] at hf
      obtain ⟨q, hq, hqt⟩ := List.mem_map.1 ht
      exact absurd hqt (by simpa using hf q hq)
    | some q =>
      have hqt : q.1 = t := by simpa using List.find?_some hf
      exact ⟨q.2, by rw [← hqt]; exact List.mem_of_find?_eq_some hf, rfl⟩
  have hmem : ∀ p ∈ dayPairs (close.map Prod.fst) isIntraday,
      p.1 ∈ close.map Prod.fst ∧ p.2 ∈ close.map Prod.fst := by
    intro p hp
    have h1 : p.1 ∈ (dayPairs (close.map Prod.fst) isIntraday).map Prod.fst :=
      List.mem_map.2 ⟨p, hp, rfl⟩
    cases isIntraday with
    | true =>
      have h2 := C31_intraday_pairs _ hs
      exact ⟨h2.1.1.subset h1, (h2.2 p hp).1.1.1⟩
    | false =>
      have h2 := C31_daily_pairs_partial _ hs
      exact ⟨h2.1.1.subset h1, (h2.2 p hp).1.1.1⟩
  unfold dailyReturns
  generalize dayPairs (close.map Prod.fst) isIntraday = ps at hmem
  induction ps with
  | nil => exact ⟨[], rfl, List.Forall₂.nil⟩
  | cons p ps ih =>
    obtain ⟨rets, hr, hf⟩ := ih (fun q hq => hmem q (by simp [hq]))
    obtain ⟨h1, h2⟩ := hmem p (by simp)
    obtain ⟨a, ha, ha'⟩ := hat _ h1
    obtain ⟨b, hb, hb'⟩ := hat _ h2
    refine ⟨some (a / b - 1) :: rets, ?_, List.Forall₂.cons ⟨a, b, ha, hb, rfl⟩ hf⟩
    rw [mapM_cons_py, hr, ha', hb', py_bind_ok, py_bind_ok]
    have : fdiv a b = some (a / b) := if_neg (hpos _ hb)
    rw [this]
    rfl

example : dayPairs [0, 1, day + 1, day + 2, 3 * day] true =
    [(day + 1, 0), (day + 2, 1), (3 * day, day + 2)] := by decide

example : dailyReturns ([(0, 2), (1, 4), (day + 1, 3)] : List (ℤ × ℚ)) true = .ok [some (1 / 2)] := by
  decide +kernel

end FinML.TimeSeries
