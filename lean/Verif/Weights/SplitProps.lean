import Verif.Weights.Props
import Verif.Weights.DecayProps

/-! # Property C329: the returns are split among the events -/

set_option linter.unusedSectionVars false

namespace FinML.Weights

/-! ## Specification -/

/-- The log returns of the bars on which some event runs. -/
noncomputable def coveredReturns (events : List (ℤ × ℤ)) : Series ℝ → List ℝ
  | a :: b :: bars =>
    if ∃ e ∈ events, e.1 ≤ b.1 ∧ b.1 ≤ e.2 then
      Real.log (b.2 / a.2) :: coveredReturns events (b :: bars)
    else coveredReturns events (b :: bars)
  | _ => []

/-- What an event should receive: of the log return of each of its bars, an equal share with the
other events running there. -/
noncomputable def shareOf (events : List (ℤ × ℤ)) (e : ℤ × ℤ) : Series ℝ → ℝ
  | a :: b :: bars =>
    (if e.1 ≤ b.1 ∧ b.1 ≤ e.2 then Real.log (b.2 / a.2) / (running events b.1 : ℝ) else 0) +
      shareOf events e (b :: bars)
  | _ => 0

/-! ## Lemmas -/

/-- The shares of the events add up to the returns of the covered bars. -/
theorem shares_sum (events : List (ℤ × ℤ)) (bars : Series ℝ) :
    (events.map fun e => shareOf events e bars).sum = (coveredReturns events bars).sum := by
  match bars with
  | [] => simp [shareOf, coveredReturns]
  | [_] => simp [shareOf, coveredReturns]
  | a :: b :: bars =>
    have ih := shares_sum events (b :: bars)
    have h1 : (events.map fun e => shareOf events e (a :: b :: bars)) = events.map fun e =>
        (if e.1 ≤ b.1 ∧ b.1 ≤ e.2 then Real.log (b.2 / a.2) / (running events b.1 : ℝ) else 0) +
          shareOf events e (b :: bars) := rfl
    rw [h1, List.sum_map_add, ih]
    have h2 : (events.map fun e => if e.1 ≤ b.1 ∧ b.1 ≤ e.2 then
        Real.log (b.2 / a.2) / (running events b.1 : ℝ) else 0).sum =
        if ∃ e ∈ events, e.1 ≤ b.1 ∧ b.1 ≤ e.2 then Real.log (b.2 / a.2) else 0 := by
      rw [← sum_filter_ite events (fun e => e.1 ≤ b.1 ∧ b.1 ≤ e.2)
        (fun _ => Real.log (b.2 / a.2) / (running events b.1 : ℝ))]
      have hlen : (events.filter fun e => decide (e.1 ≤ b.1 ∧ b.1 ≤ e.2)).length =
          running events b.1 := by unfold running; rw [List.countP_eq_length_filter]
      rw [List.map_const', List.sum_replicate, hlen, nsmul_eq_mul]
      split_ifs with h
      · obtain ⟨e, he, hr⟩ := h
        have := running_pos events b.1 e he hr
        have hne : (running events b.1 : ℝ) ≠ 0 := by exact_mod_cast this.ne'
        field_simp
      · rw [running_eq_zero events b.1 fun e he hr => h ⟨e, he, hr⟩]; simp
    rw [h2]
    show _ = (if _ then _ else _ : List ℝ).sum
    split_ifs with h <;> simp

/-- Sharing does not increase the total of the absolute values. -/
theorem shares_abs (events : List (ℤ × ℤ)) (bars : Series ℝ) :
    (events.map fun e => |shareOf events e bars|).sum ≤
      ((coveredReturns events bars).map abs).sum := by
  match bars with
  | [] => simp [shareOf, coveredReturns]
  | [_] => simp [shareOf, coveredReturns]
  | a :: b :: bars =>
    have ih := shares_abs events (b :: bars)
    have h1 : (events.map fun e => |shareOf events e (a :: b :: bars)|).sum ≤
        (events.map fun e => (if e.1 ≤ b.1 ∧ b.1 ≤ e.2 then
          |Real.log (b.2 / a.2)| / (running events b.1 : ℝ) else 0) +
          |shareOf events e (b :: bars)|).sum := by
      apply List.sum_le_sum
      intro e _
      show |(if _ then _ else _) + _| ≤ _
      refine (abs_add_le _ _).trans (add_le_add ?_ le_rfl)
      split_ifs
      · rw [abs_div, Nat.abs_cast]
      · simp
    refine h1.trans ?_
    rw [List.sum_map_add]
    have h2 : (events.map fun e => if e.1 ≤ b.1 ∧ b.1 ≤ e.2 then
        |Real.log (b.2 / a.2)| / (running events b.1 : ℝ) else 0).sum =
        if ∃ e ∈ events, e.1 ≤ b.1 ∧ b.1 ≤ e.2 then |Real.log (b.2 / a.2)| else 0 := by
      rw [← sum_filter_ite events (fun e => e.1 ≤ b.1 ∧ b.1 ≤ e.2)
        (fun _ => |Real.log (b.2 / a.2)| / (running events b.1 : ℝ))]
      have hlen : (events.filter fun e => decide (e.1 ≤ b.1 ∧ b.1 ≤ e.2)).length =
          running events b.1 := by unfold running; rw [List.countP_eq_length_filter]
      rw [List.map_const', List.sum_replicate, hlen, nsmul_eq_mul]
      split_ifs with h
      · obtain ⟨e, he, hr⟩ := h
        have := running_pos events b.1 e he hr
        have hne : (running events b.1 : ℝ) ≠ 0 := by exact_mod_cast this.ne'
        field_simp
      · rw [running_eq_zero events b.1 fun e he hr => h ⟨e, he, hr⟩]; simp
    rw [h2]
    show _ ≤ ((if _ then _ else _ : List ℝ).map abs).sum
    split_ifs with h
    · rw [List.map_cons, List.sum_cons]; linarith
    · linarith

theorem abs_sum_le (l : List ℝ) : |l.sum| ≤ (l.map abs).sum := by
  induction l with
  | nil => simp
  | cons x l ih =>
    rw [List.sum_cons, List.map_cons, List.sum_cons]
    exact (abs_add_le _ _).trans (by linarith)

theorem abs_sum_map_le {α : Type} (l : List α) (f : α → ℝ) :
    |(l.map f).sum| ≤ (l.map fun a => |f a|).sum := by
  have := abs_sum_le (l.map f)
  rwa [List.map_map] at this

/-- Returns of one sign. -/
theorem abs_sum_eq (l : List ℝ) (h : (∀ x ∈ l, 0 ≤ x) ∨ ∀ x ∈ l, x ≤ 0) :
    (l.map abs).sum = |l.sum| := by
  rcases h with h | h
  · have : l.map abs = l := by
      conv_rhs => rw [← List.map_id l]
      exact List.map_congr_left fun x hx => abs_of_nonneg (h x hx)
    rw [this, abs_of_nonneg (List.sum_nonneg h)]
  · have h1 : l.map abs = l.map fun x => -x :=
      List.map_congr_left fun x hx => abs_of_nonpos (h x hx)
    have h2 : (l.map fun x => -x).sum = - l.sum := by
      clear h h1
      induction l with
      | nil => simp
      | cons x l ih => simp only [List.map_cons, List.sum_cons, ih]; ring
    have h3 : l.sum ≤ 0 := by
      have : 0 ≤ (l.map fun x => -x).sum := by
        apply List.sum_nonneg
        intro x hx
        obtain ⟨y, hy, rfl⟩ := List.mem_map.1 hx
        have := h y hy
        linarith
      linarith
    rw [h1, h2, abs_of_nonpos h3]

theorem covered_up (events : List (ℤ × ℤ)) (bars : Series ℝ) (hpos : ∀ p ∈ bars, 0 < p.2)
    (h : (bars.map Prod.snd).Pairwise (· ≤ ·)) : ∀ x ∈ coveredReturns events bars, 0 ≤ x := by
  match bars with
  | [] => simp [coveredReturns]
  | [_] => simp [coveredReturns]
  | a :: b :: bars =>
    have ih := (covered_up events (b :: bars) (fun p hp => hpos p (List.mem_cons_of_mem _ hp))
      (List.pairwise_cons.1 h).2)
    have hab : a.2 ≤ b.2 := (List.pairwise_cons.1 h).1 _ (by simp)
    have h0 : 0 ≤ Real.log (b.2 / a.2) :=
      Real.log_nonneg ((one_le_div (hpos a (by simp))).2 hab)
    intro x hx
    unfold coveredReturns at hx
    split_ifs at hx
    · rcases List.mem_cons.1 hx with rfl | hx
      · exact h0
      · exact ih x hx
    · exact ih x hx

theorem covered_down (events : List (ℤ × ℤ)) (bars : Series ℝ) (hpos : ∀ p ∈ bars, 0 < p.2)
    (h : (bars.map Prod.snd).Pairwise (· ≥ ·)) : ∀ x ∈ coveredReturns events bars, x ≤ 0 := by
  match bars with
  | [] => simp [coveredReturns]
  | [_] => simp [coveredReturns]
  | a :: b :: bars =>
    have ih := (covered_down events (b :: bars) (fun p hp => hpos p (List.mem_cons_of_mem _ hp))
      (List.pairwise_cons.1 h).2)
    have hab : b.2 ≤ a.2 := (List.pairwise_cons.1 h).1 _ (by simp)
    have h0 : Real.log (b.2 / a.2) ≤ 0 :=
      Real.log_nonpos (div_nonneg (hpos b (by simp)).le (hpos a (by simp)).le)
        ((div_le_one (hpos a (by simp))).2 hab)
    intro x hx
    unfold coveredReturns at hx
    split_ifs at hx
    · rcases List.mem_cons.1 hx with rfl | hx
      · exact h0
      · exact ih x hx
    · exact ih x hx

theorem covered_sign (events : List (ℤ × ℤ)) (bars : Series ℝ) (hpos : ∀ p ∈ bars, 0 < p.2)
    (h : (bars.map Prod.snd).Pairwise (· ≤ ·) ∨ (bars.map Prod.snd).Pairwise (· ≥ ·)) :
    (∀ x ∈ coveredReturns events bars, 0 ≤ x) ∨ ∀ x ∈ coveredReturns events bars, x ≤ 0 :=
  h.imp (covered_up events bars hpos) (covered_down events bars hpos)

/-- With the counts of the code, the attribution of an event is its share. -/
theorem attribution_share (events : List (ℤ × ℤ)) (counts : Series ℕ) (e : ℤ × ℤ) (he : e ∈ events)
    (hval : ∀ p ∈ counts, p.2 = running events p.1) (a : ℤ × ℝ) (bars : Series ℝ)
    (hcov : ∀ t ∈ bars.map Prod.fst, t ∉ counts.map Prod.fst → running events t = 0)
    (hpos : ∀ p ∈ a :: bars, 0 < p.2) :
    attribution (logReturns (some a.2) bars) counts e = .ok (shareOf events e (a :: bars)) := by
  induction bars generalizing a with
  | nil => simp [logReturns, attribution, slice, shareOf]
  | cons b bars ih =>
    have hrow : logReturns (some a.2) (b :: bars) =
        (b.1, some (Real.log b.2 - Real.log a.2)) :: logReturns (some b.2) bars := rfl
    have hspec : shareOf events e (a :: b :: bars) =
        (if e.1 ≤ b.1 ∧ b.1 ≤ e.2 then Real.log (b.2 / a.2) / (running events b.1 : ℝ) else 0) +
          shareOf events e (b :: bars) := rfl
    rw [hrow, hspec]
    apply attribution_cons _ _ _ _ _ _ (ih b
      (fun t ht => hcov t (by rw [List.map_cons]; exact List.mem_cons_of_mem _ ht))
      (fun p hp => hpos p (List.mem_cons_of_mem _ hp)))
    · intro h
      simp only at h
      rw [if_pos h]
      unfold entryVal
      simp only
      rw [find_slice counts e b.1 h,
        Real.log_div (hpos b (by simp)).ne' (hpos a (by simp)).ne']
      have hrun := running_pos events b.1 e he h
      cases hf : counts.find? (fun q => q.1 = b.1) with
      | none =>
        exfalso
        have h0 := hcov b.1 (by simp) (by
          intro hm
          obtain ⟨q, hq, hq1⟩ := List.mem_map.1 hm
          exact List.find?_eq_none.1 hf q hq (by simpa using hq1))
        omega
      | some c =>
        have hc := hval c (List.mem_of_find?_eq_some hf)
        have hc1 : c.1 = b.1 := by simpa using List.find?_some hf
        rw [hc1] at hc
        simp only
        rw [hc, if_neg hrun.ne']
    · intro h
      simp only at h
      rw [if_neg h]

/-- The counts and the attributions of the code. -/
theorem split_raw (bars : Series ℝ) (hs : (bars.map Prod.fst).Pairwise (· < ·)) (hne : bars ≠ [])
    (hpos : ∀ p ∈ bars, 0 < p.2) (events : List (ℤ × ℤ)) (hev : events ≠ [])
    (hord : (events.map Prod.fst).Pairwise (· < ·)) :
    ∃ counts, countEventsPerBar (bars.map Prod.fst) (closedTimes events) = .ok counts ∧
      returnAttributions events counts (logReturns none bars) =
        .ok (events.map fun e => (e.1, |shareOf events e bars|)) := by
  obtain ⟨last, hlast⟩ : ∃ l, (bars.map Prod.fst).getLast? = some l := by
    have h : bars.map Prod.fst ≠ [] := by simpa using hne
    exact ⟨_, List.getLast?_eq_some_getLast h⟩
  have hfilled : ((closedTimes events).map fun e => (e.1, e.2.getD last)) = events := by
    unfold closedTimes
    rw [List.map_map]
    conv_rhs => rw [← List.map_id events]
    rfl
  obtain ⟨first, rest, rfl⟩ : ∃ f r, events = f :: r := by
    cases events with
    | nil => exact absurd rfl hev
    | cons f r => exact ⟨f, r, rfl⟩
  obtain ⟨maxEnd, hmax⟩ : ∃ m, IsGreatest {x | ∃ e ∈ first :: rest, e.2 = x} m := by
    have hfin : {x : ℤ | ∃ e ∈ first :: rest, e.2 = x}.Finite := by
      have : {x : ℤ | ∃ e ∈ first :: rest, e.2 = x} =
          (((first :: rest).map Prod.snd).toFinset : Set ℤ) := by
        ext x; simp [eq_comm]
      rw [this]; exact Finset.finite_toSet _
    obtain ⟨m, hm, hm'⟩ := hfin.exists_maximal ⟨first.2, first, by simp, rfl⟩
    refine ⟨m, hm, fun y hy => ?_⟩
    rcases le_total y m with h | h
    · exact h
    · exact hm' hy h
  obtain ⟨counts, hc, _, _, hval, hcov⟩ := C32_counts (bars.map Prod.fst) hs last hlast
    (closedTimes (first :: rest)) (first.1, some first.2) rfl (by
      unfold closedTimes
      rw [List.map_map]
      exact hord.imp le_of_lt) maxEnd (by
      have : {x | ∃ e ∈ closedTimes (first :: rest), e.2.getD last = x} =
          {x | ∃ e ∈ first :: rest, e.2 = x} := by
        ext x
        constructor
        · rintro ⟨e, he, hx⟩
          obtain ⟨e', he', rfl⟩ := List.mem_map.1 he
          exact ⟨e', he', hx⟩
        · rintro ⟨e, he, hx⟩
          exact ⟨(e.1, some e.2), List.mem_map.2 ⟨e, he, rfl⟩, hx⟩
      rw [this]; exact hmax)
  rw [hfilled] at hval hcov
  refine ⟨counts, hc, ?_⟩
  have hattr : ∀ e ∈ first :: rest, attribution (logReturns none bars) counts e =
      .ok (shareOf (first :: rest) e bars) := by
    intro e he
    cases bars with
    | nil => exact absurd rfl hne
    | cons a bars =>
      have h1 : logReturns none (a :: bars) = (a.1, none) :: logReturns (some a.2) bars := rfl
      rw [h1, attribution_cons _ _ _ _ 0 _ (attribution_share (first :: rest) counts e he hval a bars
        (fun t ht => hcov t (by rw [List.map_cons]; exact List.mem_cons_of_mem _ ht)) hpos)]
      · rw [zero_add]
      · intro _; rfl
      · intro _; rfl
  generalize first :: rest = events at *
  unfold returnAttributions
  have hm : (events.mapM fun e => do
      let v ← attribution (logReturns none bars) counts e
      return (e, v)) = .ok (events.map fun e => (e, shareOf events e bars)) := by
    apply mapM_ok_of_forall
    intro e he
    rw [hattr e he]
    rfl
  rw [hm, py_bind_ok]
  simp only [py_pure]
  congr 1
  have hfold := setLabel_fold (fun ev : (ℤ × ℤ) × ℝ => ev.1.1) (fun ev => ev.2)
    (events.map fun e => (e, shareOf events e bars)) (fun _ => (0 : ℝ)) (by
      rw [List.map_map]; exact hord.imp ne_of_lt)
  rw [List.map_map, List.map_map] at hfold
  have h2 : (events.map fun e => ((e.1, 0) : ℤ × ℝ)) =
      events.map ((fun e : (ℤ × ℤ) × ℝ => (e.1.1, (0 : ℝ))) ∘
        fun e => (e, shareOf events e bars)) := rfl
  rw [h2, hfold, List.map_map]
  rfl

/-! ## C329 -/

/-- C329.  With bars in order, positive prices and events ordered by distinct starts, also with gaps
between the events: the unnormalised weight of an event is the absolute value of its share of the
returns of its bars, the shares add up to the return of the bars on which an event runs, and the
weights add up to at least the absolute value of that return and at most the sum of the absolute
returns of those bars. -/
theorem C329_share (bars : Series ℝ) (hs : (bars.map Prod.fst).Pairwise (· < ·)) (hne : bars ≠ [])
    (hpos : ∀ p ∈ bars, 0 < p.2) (events : List (ℤ × ℤ)) (hev : events ≠ [])
    (hord : (events.map Prod.fst).Pairwise (· < ·)) :
    ∃ counts raw, countEventsPerBar (bars.map Prod.fst) (closedTimes events) = .ok counts ∧
      returnAttributions events counts (logReturns none bars) = .ok raw ∧
      raw = (events.map fun e => (e.1, |shareOf events e bars|)) ∧
      (events.map fun e => shareOf events e bars).sum = (coveredReturns events bars).sum ∧
      |(coveredReturns events bars).sum| ≤ (raw.map Prod.snd).sum ∧
      (raw.map Prod.snd).sum ≤ ((coveredReturns events bars).map abs).sum := by
  obtain ⟨counts, hc, hraw⟩ := split_raw bars hs hne hpos events hev hord
  refine ⟨counts, _, hc, hraw, rfl, shares_sum events bars, ?_, ?_⟩
  · rw [← shares_sum, List.map_map]
    exact abs_sum_map_le events fun e => shareOf events e bars
  · rw [List.map_map]
    exact shares_abs events bars

/-- C329, the full claim: the unnormalised weights add up to the absolute return over the bars on
which an event runs. -/
def WeightsSplitReturn : Prop :=
  ∀ (bars : Series ℝ) (events : List (ℤ × ℤ)) (counts : Series ℕ) (raw : Series ℝ),
    (bars.map Prod.fst).Pairwise (· < ·) → (∀ p ∈ bars, 0 < p.2) →
    (events.map Prod.fst).Pairwise (· < ·) →
    countEventsPerBar (bars.map Prod.fst) (closedTimes events) = .ok counts →
    returnAttributions events counts (logReturns none bars) = .ok raw →
    (raw.map Prod.snd).sum = |(coveredReturns events bars).sum|

/-- C329 as far as it holds: if the prices never fall, or never rise.  Then the normalised weight of
an event is its part of that return times the number of events.  Missing: prices that move both ways,
for which the absolute values are taken event by event. -/
theorem C329_total_partial (bars : Series ℝ) (hs : (bars.map Prod.fst).Pairwise (· < ·))
    (hpos : ∀ p ∈ bars, 0 < p.2)
    (hmono : (bars.map Prod.snd).Pairwise (· ≤ ·) ∨ (bars.map Prod.snd).Pairwise (· ≥ ·))
    (events : List (ℤ × ℤ)) (hord : (events.map Prod.fst).Pairwise (· < ·)) (counts : Series ℕ)
    (hc : countEventsPerBar (bars.map Prod.fst) (closedTimes events) = .ok counts) (raw : Series ℝ)
    (hr : returnAttributions events counts (logReturns none bars) = .ok raw) :
    (raw.map Prod.snd).sum = |(coveredReturns events bars).sum| ∧
      ((coveredReturns events bars).sum ≠ 0 →
        computeWeightsByReturns (closedTimes events) counts bars = .ok (events.map fun e => (e.1,
          some (|shareOf events e bars| *
            (events.length / |(coveredReturns events bars).sum|))))) := by
  classical
  have hne : bars ≠ [] := by
    rintro rfl
    have h0 := C32_empty ([] : List ℤ) (closedTimes events) (Or.inl rfl)
    rw [List.map_nil, h0] at hc
    cases hc
  have hev : events ≠ [] := by
    rintro rfl
    have h0 : countEventsPerBar (bars.map Prod.fst) (closedTimes []) = _ :=
      C32_empty (bars.map Prod.fst) (closedTimes []) (Or.inr rfl)
    rw [h0] at hc
    cases hc
  obtain ⟨counts', raw', hc', hr', hraw, _, h1, h2⟩ := C329_share bars hs hne hpos events hev hord
  rw [hc] at hc'
  cases hc'
  rw [hr] at hr'
  cases hr'
  rw [abs_sum_eq _ (covered_sign events bars hpos hmono)] at h2
  have hsum := le_antisymm h2 h1
  refine ⟨hsum, fun hnz => ?_⟩
  have hclosed : closedEvents (closedTimes events) = .ok events := by
    unfold closedEvents closedTimes
    clear * -
    induction events with
    | nil => rfl
    | cons e es ih => rw [List.map_cons, mapM_cons_py, ih]; rfl
  unfold computeWeightsByReturns
  rw [if_neg (not_not.2 hpos), hclosed, py_bind_ok, hr, py_bind_ok]
  simp only [py_pure]
  rw [hsum, hraw, List.map_map, List.length_map]
  unfold fdiv
  rw [if_neg (abs_pos.2 hnz).ne']
  rfl

/-- The hypotheses hold with two overlapping events and a third after a gap. -/
example : ((([(0, 1), (1, 2), (2, 4), (3, 4), (4, 8)] : Series ℝ).map Prod.fst).Pairwise (· < ·)) ∧
    (([(0, 1), (1, 2), (2, 4), (3, 4), (4, 8)] : Series ℝ).map Prod.snd).Pairwise (· ≤ ·) ∧
    countEventsPerBar [0, 1, 2, 3, 4] (closedTimes [(0, 2), (1, 2), (4, 4)]) =
      .ok [(0, 1), (1, 2), (2, 2), (3, 0), (4, 1)] := by
  refine ⟨by simp, ?_, by decide +kernel⟩
  simp
  norm_num

/-- C329 fails in general: the price doubles and falls back, with one event on each move; the return
over both bars is 0, the two weights are positive. -/
theorem C329_total_counterexample : ¬ WeightsSplitReturn := by
  intro h
  have hs : (([(0, 1), (1, 2), (2, 1)] : Series ℝ).map Prod.fst).Pairwise (· < ·) := by simp
  have hpos : ∀ p ∈ ([(0, 1), (1, 2), (2, 1)] : Series ℝ), 0 < p.2 := by
    intro p hp
    simp at hp
    rcases hp with rfl | rfl | rfl <;> norm_num
  have hord : (([(1, 1), (2, 2)] : List (ℤ × ℤ)).map Prod.fst).Pairwise (· < ·) := by simp
  obtain ⟨counts, raw, hc, hr, hraw, _, _, _⟩ := C329_share [(0, 1), (1, 2), (2, 1)] hs (by simp)
    hpos [(1, 1), (2, 2)] (by simp) hord
  have := h _ _ counts raw hs hpos hord hc hr
  have hl : 0 < Real.log 2 := Real.log_pos (by norm_num)
  have hcov : (coveredReturns [(1, 1), (2, 2)] [(0, 1), (1, 2), (2, 1)]).sum = 0 := by
    simp [coveredReturns]
  have h1 : shareOf [(1, 1), (2, 2)] (1, 1) [(0, 1), (1, 2), (2, 1)] = Real.log 2 := by
    simp [shareOf, running]
  have h2 : shareOf [(1, 1), (2, 2)] (2, 2) [(0, 1), (1, 2), (2, 1)] = - Real.log 2 := by
    simp [shareOf, running]
  rw [hcov, hraw] at this
  simp only [List.map_cons, List.map_nil, List.sum_cons, List.sum_nil, h1, h2, abs_neg, abs_zero,
    abs_of_pos hl] at this
  linarith

end FinML.Weights
