import Verif.Weights.Props
import Verif.CV.OrderProps

/-!
# C175: sample weights have no currency and no clock
-/

namespace FinML.Weights

set_option linter.unusedSectionVars false

variable {K : Type} [Field K] [LinearOrder K] [IsStrictOrderedRing K]

/-- A series on another clock. -/
def conv {α : Type} (φ : ℤ → ℤ) (s : Series α) : Series α := s.map fun p => (φ p.1, p.2)

/-- Events (start and end) on another clock. -/
def convEvents (φ : ℤ → ℤ) (s : Series (Option ℤ)) : Series (Option ℤ) := s.map fun p => (φ p.1, p.2.map φ)

variable {φ : ℤ → ℤ}

theorem searchLeft_conv (h : StrictMono φ) (l : List ℤ) (v : ℤ) : searchLeft (l.map φ) (φ v) = searchLeft l v := by
  unfold searchLeft
  rw [List.takeWhile_map, List.length_map]
  congr 2
  funext x
  simp [h.lt_iff_lt]

theorem bump_conv (h : StrictMono φ) (res : Series ℕ) (s t : ℤ) :
    bump (conv φ res) (φ s) (φ t) = conv φ (bump res s t) := by
  simp only [bump, conv, List.map_map]
  apply List.map_congr_left
  intro p _
  simp only [Function.comp, h.le_iff_le]
  split_ifs <;> rfl

theorem foldl_bump_conv (h : StrictMono φ) (es : List (ℤ × ℤ)) (res : Series ℕ) :
    (es.map (CV.reclock2 φ)).foldl (fun r e => bump r e.1 e.2) (conv φ res) =
      conv φ (es.foldl (fun r e => bump r e.1 e.2) res) := by
  induction es generalizing res with
  | nil => rfl
  | cons e es ih =>
    simp only [List.map_cons, List.foldl_cons, CV.reclock2]
    rw [bump_conv h]
    exact ih _

theorem count_conv (h : StrictMono φ) (bars : List ℤ) (events : Series (Option ℤ)) :
    countEventsPerBar (bars.map φ) (convEvents φ events) =
      (countEventsPerBar bars events).map (conv φ) := by
  unfold countEventsPerBar
  rw [CV.pyLast_map]
  cases pyLast bars with
  | error x => rfl
  | ok last =>
    simp only [Except.map, py_bind_ok]
    have e1 : (convEvents φ events).map (fun e => (e.1, e.2.getD (φ last))) =
        (events.map fun e => (e.1, e.2.getD last)).map (CV.reclock2 φ) := by
      simp only [convEvents, List.map_map]
      apply List.map_congr_left
      rintro ⟨s, e⟩ _
      cases e <;> rfl
    rw [e1]
    generalize events.map (fun e => (e.1, e.2.getD last)) = filled
    rw [CV.pyGet_map]
    cases pyGet filled 0 with
    | error x => rfl
    | ok first =>
      have e2 : (filled.map (CV.reclock2 φ)).map Prod.snd = (filled.map Prod.snd).map φ := by
        rw [List.map_map, List.map_map]; rfl
      simp only [Except.map, py_bind_ok]
      rw [e2, CV.npMax_map h.monotone]
      cases npMax (filled.map Prod.snd) with
      | error x => rfl
      | ok m =>
        have e3 : (CV.reclock2 φ first).1 = φ first.1 := rfl
        change Except.ok _ = Except.ok _
        congr 1
        rw [← foldl_bump_conv h, e3, searchLeft_conv h, searchLeft_conv h, ← List.map_take, ← List.map_drop,
          List.map_map]
        congr 1
        rw [conv, List.map_map]
        rfl

/-- C175 (counts): the number of open events at each bar does not depend on the clock. -/
theorem C175_counts (h : StrictMono φ) (bars : List ℤ) (events : Series (Option ℤ)) :
    countEventsPerBar (bars.map φ) (convEvents φ events) =
      (countEventsPerBar bars events).map (conv φ) := count_conv h bars events

theorem find_conv {α : Type} (h : StrictMono φ) (s : Series α) (t : ℤ) :
    (conv φ s).find? (fun p => p.1 = φ t) = (s.find? fun p => p.1 = t).map fun p => (φ p.1, p.2) := by
  unfold conv
  induction s with
  | nil => rfl
  | cons x l ih =>
    simp only [List.map_cons, List.find?_cons, h.injective.eq_iff, ih]
    cases decide (x.1 = t) <;> rfl

theorem reindex_conv (h : StrictMono φ) (counts : Series ℕ) (bars : List ℤ) :
    reindex (conv φ counts) (bars.map φ) = conv φ (reindex counts bars) := by
  unfold reindex
  have e : ∀ f : ℤ → ℤ × ℕ, conv φ (bars.map f) = bars.map fun t => (φ (f t).1, (f t).2) := by
    intro f
    simp [conv, Function.comp_def]
  rw [e, List.map_map]
  apply List.map_congr_left
  intro t _
  simp only [Function.comp]
  rw [find_conv h]
  cases counts.find? fun p => decide (p.1 = t) <;> rfl

theorem slice_conv {α : Type} (h : StrictMono φ) (s : Series α) (a b : ℤ) :
    slice (conv φ s) (φ a) (φ b) = conv φ (slice s a b) := by
  unfold slice conv
  rw [List.filter_map]
  congr 2
  funext p
  simp [h.le_iff_le]

theorem conv_snd {α : Type} (s : Series α) : (conv φ s).map Prod.snd = s.map Prod.snd := by
  unfold conv
  rw [List.map_map]
  rfl

theorem sliceUniqueness_conv (h : StrictMono φ) (counts : Series ℕ) (e : ℤ × ℤ) :
    sliceUniqueness (K := K) (conv φ counts) (CV.reclock2 φ e) = sliceUniqueness counts e := by
  unfold sliceUniqueness
  have : slice (conv φ counts) (CV.reclock2 φ e).1 (CV.reclock2 φ e).2 = conv φ (slice counts e.1 e.2) :=
    slice_conv h _ _ _
  rw [this]
  unfold conv
  rw [List.map_map]
  rfl

theorem setLabel_conv {α : Type} (h : StrictMono φ) (s : Series α) (t : ℤ) (v : α) :
    setLabel (conv φ s) (φ t) v = conv φ (setLabel s t v) := by
  simp only [setLabel, conv, List.map_map]
  apply List.map_congr_left
  intro p _
  simp only [Function.comp, h.injective.eq_iff]
  split_ifs <;> rfl

theorem closedEvents_conv (events : Series (Option ℤ)) :
    closedEvents (convEvents φ events) = (closedEvents events).map (List.map (CV.reclock2 φ)) := by
  unfold closedEvents convEvents
  induction events with
  | nil => rfl
  | cons e es ih =>
    rw [List.map_cons, List.mapM_cons, List.mapM_cons, ih]
    obtain ⟨s, e⟩ := e
    cases e with
    | none => rfl
    | some t =>
      simp only [Option.map_some, py_bind_ok]
      cases es.mapM (fun e : ℤ × Option ℤ => match e.2 with
        | some t => Except.ok (e.1, t)
        | none => (Except.error PyErr.unmodelled : Py (ℤ × ℤ))) <;> rfl

theorem foldl_setLabel_conv {α : Type} (h : StrictMono φ) (f g : ℤ × ℤ → α)
    (es : List (ℤ × ℤ)) (hfg : ∀ e ∈ es, f (CV.reclock2 φ e) = g e) (res : Series α) :
    (es.map (CV.reclock2 φ)).foldl (fun r e => setLabel r e.1 (f e)) (conv φ res) =
      conv φ (es.foldl (fun r e => setLabel r e.1 (g e)) res) := by
  induction es generalizing res with
  | nil => rfl
  | cons e es ih =>
    simp only [List.map_cons, List.foldl_cons]
    rw [hfg e List.mem_cons_self]
    have : (CV.reclock2 φ e).1 = φ e.1 := rfl
    rw [this, setLabel_conv h]
    exact ih (fun x hx => hfg x (List.mem_cons_of_mem _ hx)) _

/-- C175 (uniqueness): the average uniqueness of a label does not depend on the clock. -/
theorem C175_uniqueness (h : StrictMono φ) (bars : List ℤ) (events : Series (Option ℤ)) :
    labelAvgUniqueness (K := K) (bars.map φ) (convEvents φ events) =
      (labelAvgUniqueness bars events).map (conv φ) := by
  unfold labelAvgUniqueness
  rw [count_conv h, closedEvents_conv]
  cases countEventsPerBar bars events with
  | error x => rfl
  | ok counts =>
    simp only [Except.map, py_bind_ok]
    rw [reindex_conv h]
    cases closedEvents events with
    | error x => rfl
    | ok es =>
      change Except.ok _ = Except.ok _
      congr 1
      have e1 : (es.map (CV.reclock2 φ)).map (fun e => (e.1, (none : Option K))) =
          conv φ (es.map fun e => (e.1, none)) := by
        rw [conv, List.map_map, List.map_map]
        rfl
      rw [e1]
      exact foldl_setLabel_conv h _ _ es (fun e _ => sliceUniqueness_conv h _ e) _

/-- C175 (indicators): the indicator matrix does not depend on the clock. -/
theorem C175_indicators (h : StrictMono φ) (bars : List ℤ) (events : Series (Option ℤ)) :
    getEventIndicators (bars.map φ) (convEvents φ events) = getEventIndicators bars events := by
  unfold getEventIndicators
  rw [closedEvents_conv]
  cases closedEvents events with
  | error x => rfl
  | ok es =>
    change Except.ok _ = Except.ok _
    congr 1
    rw [List.map_map]
    apply List.map_congr_left
    intro e _
    simp [CV.reclock2, h.le_iff_le, Function.comp_def]

/-- Prices in another currency and on another clock. -/
def convPrices (c : ℝ) (φ : ℤ → ℤ) (s : Series ℝ) : Series ℝ := s.map fun p => (φ p.1, c * p.2)

theorem logReturns_conv {c : ℝ} (hc : 0 < c) (bars : Series ℝ) (hb : ∀ p ∈ bars, 0 < p.2) (prev : Option ℝ)
    (hp : ∀ x ∈ prev, 0 < x) :
    logReturns (prev.map (c * ·)) (convPrices c φ bars) = conv φ (logReturns prev bars) := by
  induction bars generalizing prev with
  | nil => rfl
  | cons b bs ih =>
    obtain ⟨t, x⟩ := b
    have hx : 0 < x := hb (t, x) List.mem_cons_self
    have e := ih (fun p hp => hb p (List.mem_cons_of_mem _ hp)) (some x) (by simpa using hx)
    simp only [convPrices, conv, List.map_cons, logReturns, List.cons.injEq, Prod.mk.injEq, true_and]
    refine ⟨?_, e⟩
    cases prev with
    | none => rfl
    | some p =>
      have hp : 0 < p := hp p rfl
      simp only [Option.map_some, Option.some.injEq]
      rw [Real.log_mul hc.ne' hx.ne', Real.log_mul hc.ne' hp.ne']
      ring

theorem attribution_conv (h : StrictMono φ) (rets : Series (Option ℝ)) (counts : Series ℕ) (e : ℤ × ℤ) :
    attribution (conv φ rets) (conv φ counts) (CV.reclock2 φ e) = attribution rets counts e := by
  unfold attribution
  have s1 : slice (conv φ rets) (CV.reclock2 φ e).1 (CV.reclock2 φ e).2 = conv φ (slice rets e.1 e.2) :=
    slice_conv h _ _ _
  have s2 : slice (conv φ counts) (CV.reclock2 φ e).1 (CV.reclock2 φ e).2 = conv φ (slice counts e.1 e.2) :=
    slice_conv h _ _ _
  rw [s1, s2]
  generalize slice rets e.1 e.2 = r
  generalize slice counts e.1 e.2 = c
  congr 1
  have e1 : ∀ f : ℤ × Option ℝ → Py ℝ, (conv φ r).mapM f = r.mapM fun p => f (φ p.1, p.2) := by
    intro f
    rw [conv, List.mapM_map]
    rfl
  rw [e1]
  congr 1
  funext p
  simp only
  rw [find_conv h]
  cases p.2 <;> cases c.find? fun q => decide (q.1 = p.1) <;> rfl

theorem returnAttributions_conv (h : StrictMono φ) (events : List (ℤ × ℤ)) (counts : Series ℕ)
    (rets : Series (Option ℝ)) :
    returnAttributions (events.map (CV.reclock2 φ)) (conv φ counts) (conv φ rets) =
      (returnAttributions events counts rets).map (conv φ) := by
  unfold returnAttributions
  have e1 : ((events.map (CV.reclock2 φ)).mapM fun e => do
        let v ← attribution (conv φ rets) (conv φ counts) e
        return (e, v)) =
      (events.mapM fun e => do
        let v ← attribution rets counts e
        return (e, v)).map (List.map fun p : (ℤ × ℤ) × ℝ => (CV.reclock2 φ p.1, p.2)) := by
    induction events with
    | nil => rfl
    | cons e es ih =>
      rw [List.map_cons, List.mapM_cons, List.mapM_cons, ih, attribution_conv h]
      cases attribution rets counts e with
      | error x => rfl
      | ok v =>
        cases es.mapM (fun e => do
          let v ← attribution rets counts e
          return (e, v) : ℤ × ℤ → Py ((ℤ × ℤ) × ℝ)) <;> rfl
  rw [e1]
  cases events.mapM (fun e => do
        let v ← attribution rets counts e
        return (e, v) : ℤ × ℤ → Py ((ℤ × ℤ) × ℝ)) with
  | error x => rfl
  | ok vals =>
    change Except.ok _ = Except.ok _
    congr 1
    have e2 : (events.map (CV.reclock2 φ)).map (fun e => (e.1, (0 : ℝ))) =
        conv φ (events.map fun e => (e.1, 0)) := by
      rw [conv, List.map_map, List.map_map]
      rfl
    rw [e2]
    generalize events.map (fun e => (e.1, (0 : ℝ))) = res
    have e3 : (vals.map fun p => (CV.reclock2 φ p.1, p.2)).foldl (fun res ev => setLabel res ev.1.1 ev.2)
        (conv φ res) = conv φ (vals.foldl (fun res ev => setLabel res ev.1.1 ev.2) res) := by
      clear e1 e2
      induction vals generalizing res with
      | nil => rfl
      | cons v vs ih =>
        simp only [List.map_cons, List.foldl_cons]
        have : (CV.reclock2 φ v.1).1 = φ v.1.1 := rfl
        rw [this, setLabel_conv h]
        exact ih _
    rw [e3]
    simp only [conv, List.map_map]
    rfl

/-- C175 (weights): the weights by returns are the same in every currency and on every clock, errors
included. -/
theorem C175_weights {c : ℝ} (hc : 0 < c) (h : StrictMono φ) (events : Series (Option ℤ)) (counts : Series ℕ)
    (bars : Series ℝ) :
    computeWeightsByReturns (convEvents φ events) (conv φ counts) (convPrices c φ bars) =
      (computeWeightsByReturns events counts bars).map (conv φ) := by
  unfold computeWeightsByReturns
  have g : (∀ p ∈ convPrices c φ bars, 0 < p.2) ↔ ∀ p ∈ bars, 0 < p.2 := by
    constructor
    · intro H p hp
      have := H (φ p.1, c * p.2) (List.mem_map_of_mem (f := fun p : ℤ × ℝ => (φ p.1, c * p.2)) hp)
      exact pos_of_mul_pos_right this hc.le
    · intro H p hp
      obtain ⟨q, hq, rfl⟩ := List.mem_map.1 hp
      exact mul_pos hc (H q hq)
  simp only [g]
  by_cases hb : ∀ p ∈ bars, 0 < p.2
  · simp only [if_neg (not_not.2 hb)]
    rw [closedEvents_conv]
    cases closedEvents events with
    | error x => rfl
    | ok es =>
      simp only [Except.map, py_bind_ok]
      have e1 : logReturns none (convPrices c φ bars) = conv φ (logReturns none bars) :=
        logReturns_conv hc bars hb none (by simp)
      rw [e1, returnAttributions_conv h]
      cases returnAttributions es counts (logReturns none bars) with
      | error x => rfl
      | ok raw =>
        change Except.ok _ = Except.ok _
        congr 1
        rw [conv_snd]
        simp only [conv, List.length_map, List.map_map]
        rfl
  · simp only [if_pos hb]
    rfl

/-- The hypotheses and a case with overlapping events. -/
example : StrictMono (fun t : ℤ => 60 * t) ∧
    labelAvgUniqueness (K := ℚ) ([1, 2, 3, 4].map fun t => 60 * t)
      (convEvents (fun t => 60 * t) [(1, some 2), (2, some 4)]) =
      .ok [(60, some (3 / 4)), (120, some (5 / 6))] := by
  refine ⟨fun a b h => ?_, by decide +kernel⟩
  show 60 * a < 60 * b
  omega

end FinML.Weights
