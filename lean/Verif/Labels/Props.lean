import Verif.Labels.FillLemmas

/-! # Properties C22-C27, C129, C130 -/

set_option linter.unusedSectionVars false

namespace FinML.Labels

variable {K : Type} [Field K] [LinearOrder K] [IsStrictOrderedRing K]

/-! ## C22, C23 -/

/-- C22.  For every table of tradable events the call succeeds, and every event ends at the first
barrier crossed, with the first crossing of each barrier recorded; the stop loss wins ties (see
C23). -/
theorem C22_first_barrier (prices : List (Row K)) (hs : SortedTable prices)
    (events : List (Event K)) (ptMul slMul : K) (hp : 0 ≤ ptMul) (hsl : 0 ≤ slMul)
    (lastRow : Row K) (hl : prices.getLast? = some lastRow)
    (side : Event K → ℤ) (s0 : Event K → K)
    (ht : ∀ e ∈ events, Tradable prices e (side e) (s0 e) (e.expiry.getD lastRow.time)) :
    ∃ outs, tripleBarrier prices events ptMul slMul = .ok outs ∧ outs.map Prod.fst = events ∧
      ∀ eo ∈ outs, EndsAtFirstBarrier prices ptMul slMul eo.1 (side eo.1) (s0 eo.1)
        (eo.1.expiry.getD lastRow.time) eo.2 := by
  have hlast : lastTime prices = .ok lastRow.time := by
    unfold lastTime
    rw [(pyLast_eq_ok_iff _ _).2 hl]
    rfl
  have hex : ∀ e ∈ events, ∃ o, evalEvent prices ptMul slMul e (e.expiry.getD lastRow.time) = .ok o :=
    fun e he => by
      obtain ⟨o, ho, _⟩ := evalEvent_spec prices ptMul slMul e (side e) (s0 e) _ hs (ht e he)
      exact ⟨o, ho⟩
  classical
  let f : Event K → Outcome K := fun e =>
    if he : ∃ o, evalEvent prices ptMul slMul e (e.expiry.getD lastRow.time) = .ok o
    then he.choose else ⟨none, none, 0, none⟩
  have hf : ∀ e ∈ events, evalEvent prices ptMul slMul e (e.expiry.getD lastRow.time) = .ok (f e) := by
    intro e he
    have h1 := hex e he
    show _ = Except.ok (if he : ∃ o, evalEvent prices ptMul slMul e
      (e.expiry.getD lastRow.time) = .ok o then he.choose else _)
    rw [dif_pos h1]
    exact h1.choose_spec
  refine ⟨_, tripleBarrier_of_ok prices events ptMul slMul hp hsl _ hlast f hf, ?_, ?_⟩
  · rw [List.map_map]
    conv_rhs => rw [← List.map_id events]
    rfl
  · intro eo heo
    obtain ⟨e, he, rfl⟩ := List.mem_map.1 heo
    obtain ⟨o, ho, h2, _⟩ := evalEvent_spec prices ptMul slMul e (side e) (s0 e) _ hs (ht e he)
    have := hf e he
    rw [ho] at this
    cases this
    exact h2

/-- C22.  Events that cannot be evaluated are rejected: no row at the start, no side (NaN), or a
side other than 1 and -1. -/
theorem C22_rejects (prices : List (Row K)) (ptMul slMul : K) (e : Event K) (expiry : ℤ) :
    ((∀ r ∈ prices, r.time ≠ e.start) →
      evalEvent prices ptMul slMul e expiry = .error .keyError) ∧
    ((∃ r ∈ prices, r.time = e.start) → e.side = none →
      evalEvent prices ptMul slMul e expiry = .error .valueError) ∧
    ((∃ r ∈ prices, r.time = e.start) → ∀ s, e.side = some s → s ≠ 1 → s ≠ -1 →
      evalEvent prices ptMul slMul e expiry = .error .assertionError) := by
  have hrow : (∃ r ∈ prices, r.time = e.start) → ∃ r, rowAt prices e.start = .ok r := by
    rintro ⟨r, hr, ht⟩
    unfold rowAt
    cases hf : prices.find? (fun q => q.time = e.start) with
    | none =>
      rw [List.find?_eq_none] at hf
      exact absurd ht (by simpa using hf r hr)
    | some q => exact ⟨q, rfl⟩
  refine ⟨?_, ?_, ?_⟩
  · intro h
    unfold evalEvent
    rw [rowAt_error prices _ h]; rfl
  · intro h hside
    obtain ⟨r, hr⟩ := hrow h
    unfold evalEvent
    rw [hr, py_bind_ok]
    simp only [hside]
    rfl
  · intro h s hside h1 h2
    obtain ⟨r, hr⟩ := hrow h
    unfold evalEvent
    rw [hr, py_bind_ok]
    simp only [hside]
    rw [py_bind_ok, if_pos (by
      rintro (h | h)
      · exact h2 h
      · exact h1 h)]
    rfl

/-- C22, end to end: `get_event_returns` evaluates the events against the table that has a row for
every price, start and expiry time, each filled from the first price row at or after it. -/
theorem C22_end_to_end (prices : List (Row K)) (starts : List ℤ) (targets : Series (Option K))
    (ptMul slMul : K) (expiries : Option (Series (Option ℤ))) (minTarget : K)
    (sides : Option (Series ℤ)) (outs : List (Event K × Outcome K))
    (h : getEventReturns prices starts targets ptMul slMul expiries minTarget sides = .ok outs) :
    ∃ filledPrices times, IsFilled prices filledPrices times ∧
      (∀ t, t ∈ times ↔ (∃ r ∈ prices, r.time = t) ∨ t ∈ starts ∨
        ∃ ex, expiries = some ex ∧ ∃ s, (s, some t) ∈ ex) ∧
      tripleBarrier filledPrices (outs.map Prod.fst) ptMul
        (if sides = none then ptMul else slMul) = .ok outs := by
  obtain ⟨hs, hn, t1, s1, h1, h2, h3⟩ := getEventReturns_ok _ _ _ _ _ _ _ _ _ h
  refine ⟨_, priceIndices prices starts (expiries.getD (starts.map fun t => (t, none))),
    filled prices hs _ (priceIndices_lt prices starts _), ?_, ?_⟩
  · intro t
    rw [mem_priceIndices, List.mem_map]
    cases expiries with
    | none => simp
    | some ex => simp
  · obtain ⟨_, _, last, _, h4, _⟩ := tripleBarrier_ok _ _ _ _ _ h3
    rw [h4]
    have : effSl ptMul slMul sides = if sides = none then ptMul else slMul := by
      cases sides <;> rfl
    rw [← this]
    exact h3

/-- Hourly bars: a rise to 12 at time 2, a fall to 7 at time 3. -/
def exPrices : List (Row ℚ) :=
  [⟨0, some 10, some 11, some 9, some 10⟩, ⟨1, some 10, some 11, some 9, some 10⟩,
   ⟨2, some 10, some 12, some 9, some 11⟩, ⟨3, some 11, some 11, some 7, some 8⟩]

/-- A long trade from time 0 to time 3. -/
def exEvent : Event ℚ := ⟨0, some 3, some (1 / 10), some 1⟩

theorem exPrices_sorted : SortedTable exPrices := by unfold SortedTable exPrices; decide

example : SortedTable exPrices ∧ Tradable exPrices exEvent 1 10 (exEvent.expiry.getD 3) := by
  refine ⟨exPrices_sorted, rfl, Or.inl rfl, ⟨_, List.mem_cons_self, rfl, rfl⟩, by norm_num, ?_⟩
  exact ⟨_, List.getLast_mem (by decide : exPrices ≠ []), rfl⟩

example : tripleBarrier exPrices [exEvent] 1 2 =
    .ok [(exEvent, ⟨some 2, some 3, 2, some (1 / 5)⟩)] := by decide +kernel

/-- C23, full claim: the reported return is the side-adjusted trade return: at the worst price of
the ending bar for a stop loss, at the best price for a profit take, at the close of the expiry bar
otherwise. -/
def ReturnIsTrade : Prop := ∀ (prices : List (Row ℚ)) (ptMul slMul : ℚ) (e : Event ℚ) (side : ℤ)
  (s0 : ℚ) (expiry : ℤ) (o : Outcome ℚ), SortedTable prices → Tradable prices e side s0 expiry →
  evalEvent prices ptMul slMul e expiry = .ok o →
  (HitsSL prices slMul e side s0 expiry o.endTime → ∃ r ∈ prices, r.time = o.endTime ∧
    ∃ p, worstPrice side r = some p ∧ o.ret = some (tradeRet side s0 p)) ∧
  (¬ HitsSL prices slMul e side s0 expiry o.endTime → HitsPT prices ptMul e side s0 expiry o.endTime →
    ∃ r ∈ prices, r.time = o.endTime ∧ ∃ p, bestPrice side r = some p ∧
      o.ret = some (tradeRet side s0 p)) ∧
  ((∀ t, ¬ HitsPT prices ptMul e side s0 expiry t ∧ ¬ HitsSL prices slMul e side s0 expiry t) →
    ∃ r ∈ prices, r.time = expiry ∧ o.ret = r.close.map (tradeRet side s0))

/-- C23, counterexample: a short trade that expires after a fall from 10 to 8 is reported as a loss
of 20%. -/
theorem C23_expired_short_counterexample : ¬ ReturnIsTrade := by
  intro h
  have hev : evalEvent exPrices 0 0 ⟨0, some 3, some (1 / 10), some (-1)⟩ 3 =
      .ok ⟨none, none, 3, some (-1 / 5)⟩ := by decide +kernel
  have htr : Tradable exPrices ⟨0, some 3, some (1 / 10), some (-1)⟩ (-1) 10 3 :=
    ⟨rfl, Or.inr rfl, ⟨_, List.mem_cons_self, rfl, rfl⟩, by norm_num,
      ⟨_, List.getLast_mem (by decide : exPrices ≠ []), rfl⟩⟩
  obtain ⟨_, _, h3⟩ := h exPrices 0 0 _ _ _ _ _ exPrices_sorted htr hev
  obtain ⟨r, hr, ht, hret⟩ := h3 (fun t => ⟨fun hh => absurd hh.2.2.1 (lt_irrefl _),
    fun hh => absurd hh.2.2.1 (lt_irrefl _)⟩)
  have : r = ⟨3, some 11, some 11, some 7, some 8⟩ := by
    clear hret
    revert r
    decide
  subst this
  revert hret
  decide +kernel

/-- C23, what holds: stop-loss and profit-taking returns are those of the trade and lie beyond the
limit; at expiry the return is `close/open - 1`, which is the trade return for long trades (missing:
short trades that expire, whose return has the wrong sign). -/
theorem C23_return_partial (prices : List (Row K)) (ptMul slMul : K) (e : Event K) (side : ℤ) (s0 : K)
    (expiry : ℤ) (hs : SortedTable prices) (ht : Tradable prices e side s0 expiry) :
    ∃ o, evalEvent prices ptMul slMul e expiry = .ok o ∧
      (HitsSL prices slMul e side s0 expiry o.endTime → ∃ r ∈ prices, r.time = o.endTime ∧
        ∃ p target, worstPrice side r = some p ∧ e.target = some target ∧
          o.ret = some (tradeRet side s0 p) ∧ tradeRet side s0 p < -(slMul * target)) ∧
      (¬ HitsSL prices slMul e side s0 expiry o.endTime →
        HitsPT prices ptMul e side s0 expiry o.endTime →
        ∃ r ∈ prices, r.time = o.endTime ∧ ∃ p target, bestPrice side r = some p ∧
          e.target = some target ∧ o.ret = some (tradeRet side s0 p) ∧
          ptMul * target < tradeRet side s0 p) ∧
      ((∀ t, ¬ HitsPT prices ptMul e side s0 expiry t ∧ ¬ HitsSL prices slMul e side s0 expiry t) →
        ∃ r ∈ prices, r.time = expiry ∧ (o.ret = r.close.map fun c => c / s0 - 1) ∧
          (side = 1 → o.ret = r.close.map (tradeRet side s0)) ∧
          (side = -1 → o.ret = (r.close.map (tradeRet side s0)).map fun x => -x)) := by
  obtain ⟨o, h1, _, h3, h4, h5⟩ := evalEvent_spec prices ptMul slMul e side s0 expiry hs ht
  have huniq : ∀ r ∈ prices, ∀ r' ∈ prices, r.time = r'.time → r = r' := by
    intro r hr r' hr' he
    have h1 := find_time prices hs r hr
    have h2 := find_time prices hs r' hr'
    rw [he, h2] at h1
    exact (Option.some.inj h1).symm
  refine ⟨o, h1, ?_, ?_, ?_⟩
  · intro hh
    obtain ⟨r, hr, hrt, p, hb, hret⟩ := h3 hh
    obtain ⟨_, _, _, r', hr', hrt', p', tg, hb', htg, hlt⟩ := hh
    have : r = r' := huniq r hr r' hr' (hrt.trans hrt'.symm)
    subst this
    rw [hb] at hb'
    cases hb'
    exact ⟨r, hr, hrt, p, tg, hb, htg, hret, hlt⟩
  · intro hn hh
    obtain ⟨r, hr, hrt, p, hb, hret⟩ := h4 hn hh
    obtain ⟨_, _, _, r', hr', hrt', p', tg, hb', htg, hlt⟩ := hh
    have : r = r' := huniq r hr r' hr' (hrt.trans hrt'.symm)
    subst this
    rw [hb] at hb'
    cases hb'
    exact ⟨r, hr, hrt, p, tg, hb, htg, hret, hlt⟩
  · intro hh
    obtain ⟨r, hr, hrt, hret⟩ := h5 hh
    refine ⟨r, hr, hrt, hret, ?_, ?_⟩
    · rintro rfl
      rw [hret]
      congr 1; funext c; simp [tradeRet]
    · rintro rfl
      rw [hret, Option.map_map]
      congr 1; funext c; simp [tradeRet]

example : evalEvent exPrices 1 1 ⟨0, some 3, some (1 / 10), some (-1)⟩ 3 =
    .ok ⟨some 3, some 2, 2, some (-1 / 5)⟩ := by decide +kernel

/-! ## C24 -/

/-- C24.  A multiplier of 0 disables its barrier; with both disabled an event ends at its expiry. -/
theorem C24_zero_multiplier (prices : List (Row K)) (ptMul slMul : K) (e : Event K) (side : ℤ)
    (s0 : K) (expiry : ℤ) (hs : SortedTable prices) (ht : Tradable prices e side s0 expiry) :
    ∃ o, evalEvent prices ptMul slMul e expiry = .ok o ∧
      (ptMul = 0 → o.ptTime = none) ∧ (slMul = 0 → o.slTime = none) ∧
      (ptMul = 0 → slMul = 0 → o.endTime = expiry) := by
  obtain ⟨o, h1, h2, _⟩ := evalEvent_spec prices ptMul slMul e side s0 expiry hs ht
  have hp : ptMul = 0 → ∀ t, ¬ HitsPT prices ptMul e side s0 expiry t :=
    fun h t hh => absurd hh.2.2.1 (by rw [h]; exact lt_irrefl _)
  have hsl : slMul = 0 → ∀ t, ¬ HitsSL prices slMul e side s0 expiry t :=
    fun h t hh => absurd hh.2.2.1 (by rw [h]; exact lt_irrefl _)
  exact ⟨o, h1, fun h => h2.pt_none.2 (hp h), fun h => h2.sl_none.2 (hsl h),
    fun h h' => h2.end_expiry fun t => ⟨hp h t, hsl h' t⟩⟩

/-- C24.  Negative multipliers are rejected. -/
theorem C24_negative_multiplier (prices : List (Row K)) (events : List (Event K)) (ptMul slMul : K)
    (h : ptMul < 0 ∨ slMul < 0) : tripleBarrier prices events ptMul slMul = .error .assertionError := by
  unfold tripleBarrier
  by_cases h1 : ptMul < 0
  · rw [if_pos h1]; rfl
  · rw [if_neg h1, if_pos (h.resolve_left h1)]; rfl

/-- C24.  Without sides the second multiplier plays no role, and the result is that of long trades
with the first multiplier on both barriers. -/
theorem C24_no_side_multiplier (prices : List (Row K)) (starts : List ℤ)
    (targets : Series (Option K)) (ptMul slMul : K) (expiries : Option (Series (Option ℤ)))
    (minTarget : K) :
    getEventReturns prices starts targets ptMul slMul expiries minTarget none =
      getEventReturns prices starts targets ptMul ptMul expiries minTarget
        (some (starts.map fun t => (t, 1))) := by
  by_cases hc : SortedTable prices ∧ starts.Nodup
  · rw [getEventReturns_eq _ _ _ _ _ _ _ _ hc.1 hc.2, getEventReturns_eq _ _ _ _ _ _ _ _ hc.1 hc.2]
    cases ht : lookupTargets starts targets with
    | error e => rfl
    | ok t1 =>
      rw [py_bind_ok, py_bind_ok]
      have hside : lookupSides (keepTargets minTarget t1) (some (starts.map fun t => (t, (1 : ℤ)))) =
          lookupSides (keepTargets minTarget t1) none := by
        unfold lookupSides
        simp only
        apply mapM_ok_of_forall
        intro p hp
        have hmem : p.1 ∈ starts := by
          rw [← (lookupTargets_ok _ _ _ ht).1]
          exact List.mem_map.2 ⟨p, ((mem_keepTargets _ _ _).1 hp).1, rfl⟩
        have : atLabel (starts.map fun t => (t, (1 : ℤ))) p.1 = .ok 1 := by
          unfold atLabel
          cases hf : (starts.map fun t => (t, (1 : ℤ))).find? (fun q => q.1 = p.1) with
          | none =>
            rw [List.find?_eq_none] at hf
            have := hf (p.1, 1) (List.mem_map.2 ⟨_, hmem, rfl⟩)
            simp at this
          | some q =>
            obtain ⟨t, _, rfl⟩ := List.mem_map.1 (List.mem_of_find?_eq_some hf)
            rfl
        rw [this]
        rfl
      rw [hside]
      rfl
  · have h1 : ∀ sl sd, getEventReturns prices starts targets ptMul sl expiries minTarget sd =
        .error .unmodelled := by
      intro sl sd
      unfold getEventReturns
      rw [if_pos (by rw [← not_and_or]; exact hc)]
      rfl
    rw [h1, h1]

example : (getEventReturns exPrices [0, 2] [(0, some (1 / 10)), (2, some (1 / 10))] 1 7
    (some [(0, some 1), (2, none)]) 0 none).map (fun l => l.map fun eo => eo.2.endTime) =
    .ok [1, 2] := by decide +kernel

/-! ## C25 -/

/-- The starts whose target exceeds the minimum. -/
def KeptStart (starts : List ℤ) (targets : Series (Option K)) (minTarget : K) (t : ℤ) : Prop :=
  t ∈ starts ∧ ∃ x, targets.find? (fun p => p.1 = t) = some (t, some x) ∧ minTarget < x

/-- C25, full claim: with targets for all starts, on bars, the call returns exactly the kept
events. -/
def FilteredOut : Prop := ∀ (prices : List (Row ℚ)) (starts : List ℤ) (targets : Series (Option ℚ))
  (ptMul : ℚ) (minTarget : ℚ), SortedTable prices → starts.Nodup → 0 ≤ ptMul →
  (∀ t ∈ starts, ∃ r ∈ prices, r.time = t ∧ ∃ p, r.op = some p ∧ p ≠ 0) →
  (∀ t ∈ starts, ∃ x, targets.find? (fun p => p.1 = t) = some (t, some x)) →
  ∃ outs, getEventReturns prices starts targets ptMul ptMul none minTarget none = .ok outs ∧
    ∀ t, (∃ eo ∈ outs, eo.1.start = t) ↔ KeptStart starts targets minTarget t

/-- C25, counterexample: as soon as one event is filtered, the outer join brings it back without
side and `int(NaN)` raises. -/
theorem C25_filtered_events_counterexample : ¬ FilteredOut := by
  intro h
  obtain ⟨outs, h1, _⟩ := h exPrices [0, 1] [(0, some 1), (1, some (1 / 10))] 1 (1 / 2)
    exPrices_sorted (by decide) (by norm_num)
    (by
      intro t ht
      rcases List.mem_cons.1 ht with rfl | ht
      · exact ⟨_, List.mem_cons_self, rfl, 10, rfl, by norm_num⟩
      · rw [List.mem_singleton] at ht
        subst ht
        exact ⟨_, List.mem_cons_of_mem _ List.mem_cons_self, rfl, 10, rfl, by norm_num⟩)
    (by
      intro t ht
      rcases List.mem_cons.1 ht with rfl | ht
      · exact ⟨1, rfl⟩
      · rw [List.mem_singleton] at ht
        subst ht
        exact ⟨1 / 10, rfl⟩)
  have h2 : getEventReturns exPrices [0, 1] [(0, some 1), (1, some (1 / 10))] 1 1 none (1 / 2) none =
      .error .valueError := by decide +kernel
  rw [h2] at h1
  cases h1

/-- C25, what holds: whenever the call succeeds the events are exactly the kept ones, each with its
own target and expiry; and it fails whenever an expiry is given for an event that is not kept
(missing: it should drop such events instead). -/
theorem C25_filtered_events_partial (prices : List (Row K)) (starts : List ℤ)
    (targets : Series (Option K)) (ptMul slMul : K) (expiries : Option (Series (Option ℤ)))
    (minTarget : K) (sides : Option (Series ℤ)) :
    (∀ outs, getEventReturns prices starts targets ptMul slMul expiries minTarget sides = .ok outs →
      (∀ t, (∃ eo ∈ outs, eo.1.start = t) ↔ KeptStart starts targets minTarget t) ∧
      ∀ eo ∈ outs, targets.find? (fun p => p.1 = eo.1.start) = some (eo.1.start, eo.1.target) ∧
        eo.1.expiry = (expiries.bind fun ex =>
          (ex.find? fun p => p.1 = eo.1.start).bind Prod.snd)) ∧
    (∀ ex, expiries = some ex → (∃ p ∈ ex, ¬ KeptStart starts targets minTarget p.1) →
      ∀ outs, getEventReturns prices starts targets ptMul slMul expiries minTarget sides ≠ .ok outs) := by
  have main : ∀ outs, getEventReturns prices starts targets ptMul slMul expiries minTarget sides =
      .ok outs →
      (∀ t, (∃ eo ∈ outs, eo.1.start = t) ↔ KeptStart starts targets minTarget t) ∧
      (∀ p ∈ expiries.getD (starts.map fun t => (t, none)), KeptStart starts targets minTarget p.1) ∧
      ∀ eo ∈ outs, targets.find? (fun p => p.1 = eo.1.start) = some (eo.1.start, eo.1.target) ∧
        eo.1.expiry = (expiries.bind fun ex =>
          (ex.find? fun p => p.1 = eo.1.start).bind Prod.snd) := by
    intro outs h
    obtain ⟨hs, hn, t1, s1, h1, h2, h3⟩ := getEventReturns_ok _ _ _ _ _ _ _ _ _ h
    obtain ⟨_, _, last, _, h4, h5⟩ := tripleBarrier_ok _ _ _ _ _ h3
    obtain ⟨hk1, hk2⟩ := lookupTargets_ok _ _ _ h1
    have hsk := lookupSides_keys _ _ _ h2
    have hkeep : ∀ p, p ∈ keepTargets minTarget t1 → KeptStart starts targets minTarget p.1 ∧
        targets.find? (fun q => q.1 = p.1) = some p := by
      intro p hp
      obtain ⟨hp1, x, hx, hlt⟩ := (mem_keepTargets _ _ _).1 hp
      have hl := (atLabel_eq_ok _ _ _ (hk2 p hp1)).2
      refine ⟨⟨?_, x, ?_, hlt⟩, hl⟩
      · rw [← hk1]; exact List.mem_map.2 ⟨p, hp1, rfl⟩
      · rw [hl, hx]
    have hkeep' : ∀ t, KeptStart starts targets minTarget t →
        t ∈ (keepTargets minTarget t1).map Prod.fst := by
      rintro t ⟨ht, x, hx, hlt⟩
      rw [← hk1] at ht
      obtain ⟨p, hp, rfl⟩ := List.mem_map.1 ht
      refine List.mem_map.2 ⟨p, (mem_keepTargets _ _ _).2 ⟨hp, x, ?_, hlt⟩, rfl⟩
      have := (atLabel_eq_ok _ _ _ (hk2 p hp)).2
      rw [hx] at this
      have := congrArg Prod.snd (Option.some.inj this)
      exact this.symm
    -- every event has a side, so its start is a kept one
    have hside : ∀ e ∈ mkEvents (keepTargets minTarget t1)
        (expiries.getD (starts.map fun t => (t, none))) s1,
        e.start ∈ (keepTargets minTarget t1).map Prod.fst := by
      intro e he
      rw [← h4] at he
      obtain ⟨eo, heo, rfl⟩ := List.mem_map.1 he
      obtain ⟨sd, hsd, _⟩ := evalEvent_side _ _ _ _ _ _ (h5 eo heo)
      have hm : eo.1 ∈ mkEvents (keepTargets minTarget t1)
          (expiries.getD (starts.map fun t => (t, none))) s1 := by rw [← h4]; exact he
      unfold mkEvents at hm
      obtain ⟨t, _, ht2⟩ := List.mem_map.1 hm
      rw [← ht2] at hsd ⊢
      simp only at hsd ⊢
      rw [← hsk]
      cases hf : s1.find? (fun p => p.1 = t) with
      | none => rw [hf] at hsd; cases hsd
      | some q =>
        refine List.mem_map.2 ⟨q, List.mem_of_find?_eq_some hf, ?_⟩
        simpa using List.find?_some hf
    have hlabels : ∀ t, (∃ eo ∈ outs, eo.1.start = t) ↔
        t ∈ (expiries.getD (starts.map fun t => (t, none))).map Prod.fst ∨
        t ∈ (keepTargets minTarget t1).map Prod.fst := by
      intro t
      have : (∃ eo ∈ outs, eo.1.start = t) ↔ ∃ e ∈ outs.map Prod.fst, e.start = t := by
        constructor
        · rintro ⟨eo, h, h'⟩; exact ⟨_, List.mem_map.2 ⟨eo, h, rfl⟩, h'⟩
        · rintro ⟨e, h, h'⟩
          obtain ⟨eo, heo, rfl⟩ := List.mem_map.1 h
          exact ⟨eo, heo, h'⟩
      rw [this, h4]
      unfold mkEvents
      constructor
      · rintro ⟨e, he, rfl⟩
        obtain ⟨u, hu, rfl⟩ := List.mem_map.1 he
        rw [List.mem_append, List.mem_filter] at hu
        exact hu.imp id (fun h => h.1)
      · intro h
        refine ⟨_, List.mem_map.2 ⟨t, ?_, rfl⟩, rfl⟩
        rw [List.mem_append, List.mem_filter]
        by_cases hx : t ∈ (expiries.getD (starts.map fun t => (t, none))).map Prod.fst
        · exact Or.inl hx
        · exact Or.inr ⟨h.resolve_left hx, by simpa using hx⟩
    have hk : ∀ t, (∃ eo ∈ outs, eo.1.start = t) → KeptStart starts targets minTarget t := by
      rintro t ⟨eo, heo, rfl⟩
      have := hside eo.1 (by rw [← h4]; exact List.mem_map.2 ⟨eo, heo, rfl⟩)
      obtain ⟨p, hp, hpe⟩ := List.mem_map.1 this
      rw [← hpe]
      exact (hkeep p hp).1
    refine ⟨fun t => ⟨hk t, fun h => (hlabels t).2 (Or.inr (hkeep' t h))⟩, ?_, ?_⟩
    · intro p hp
      exact hk p.1 ((hlabels p.1).2 (Or.inl (List.mem_map.2 ⟨p, hp, rfl⟩)))
    · intro eo heo
      have hmem : eo.1 ∈ mkEvents (keepTargets minTarget t1)
          (expiries.getD (starts.map fun t => (t, none))) s1 := by
        rw [← h4]; exact List.mem_map.2 ⟨eo, heo, rfl⟩
      have hst := hside _ hmem
      unfold mkEvents at hmem
      obtain ⟨t, _, ht2⟩ := List.mem_map.1 hmem
      rw [← ht2] at hst ⊢
      simp only at hst ⊢
      constructor
      · cases hf : (keepTargets minTarget t1).find? (fun p => p.1 = t) with
        | none =>
          rw [List.find?_eq_none] at hf
          obtain ⟨p, hp, hpe⟩ := List.mem_map.1 hst
          exact absurd hpe (by simpa using hf p hp)
        | some p =>
          have hpt : p.1 = t := by simpa using List.find?_some hf
          have := (hkeep p (List.mem_of_find?_eq_some hf)).2
          rw [hpt] at this
          rw [this]
          obtain ⟨a, b⟩ := p
          cases hpt
          rfl
      · cases expiries with
        | some ex => rfl
        | none =>
          simp only [Option.getD_none, Option.bind_none]
          cases hf : (starts.map fun t => (t, (none : Option ℤ))).find? (fun p => p.1 = t) with
          | none => rfl
          | some q =>
            obtain ⟨u, _, rfl⟩ := List.mem_map.1 (List.mem_of_find?_eq_some hf)
            rfl
  refine ⟨fun outs h => ⟨(main outs h).1, (main outs h).2.2⟩, ?_⟩
  rintro ex rfl ⟨p, hp, hnk⟩ outs h
  exact hnk ((main outs h).2.1 p hp)

example : (getEventReturns exPrices [0, 1] [(0, some 1), (1, some (1 / 10))] 1 1
    (some [(0, some 3)]) (1 / 2) none).map (fun l => l.map fun eo => eo.1.start) = .ok [0] := by
  decide +kernel

/-! ## C26 -/

/-- C26.  The label of every row with an end time, in the given order: the sign of the return, with
non-positive returns mapped to 0 when there is a side column, and 0 for expired events if asked for;
an event without expiry (NaT) is never treated as expired; a missing return has no label. -/
theorem C26_labels (rows : List (Labelled K)) (hasSide cancel : Bool) :
    (getEventLabels rows hasSide cancel).map Prod.fst = rows.filter (fun r => r.endTime.isSome) ∧
    ∀ rl ∈ getEventLabels rows hasSide cancel, ∃ t, rl.1.endTime = some t ∧
      ((cancel = true ∧ ∃ x, rl.1.expiry = some x ∧ x ≤ t) → rl.2 = some 0) ∧
      (¬ (cancel = true ∧ ∃ x, rl.1.expiry = some x ∧ x ≤ t) →
        (rl.1.ret = none → rl.2 = none) ∧
        ∀ y, rl.1.ret = some y →
          (0 < y → rl.2 = some 1) ∧ (y = 0 → rl.2 = some 0) ∧
          (y < 0 → hasSide = true → rl.2 = some 0) ∧
          (y < 0 → hasSide = false → rl.2 = some (-1))) := by
  constructor
  · unfold getEventLabels
    rw [List.map_map]
    conv_rhs => rw [← List.map_id (rows.filter _)]
    rfl
  · intro rl hrl
    unfold getEventLabels at hrl
    obtain ⟨r, hr, rfl⟩ := List.mem_map.1 hrl
    rw [List.mem_filter] at hr
    clear hrl
    obtain ⟨expiry, endTime, ret⟩ := r
    obtain ⟨t, ht⟩ := Option.isSome_iff_exists.1 hr.2
    simp only at ht
    subst ht
    refine ⟨t, rfl, ?_, ?_⟩
    · rintro ⟨hc, x, hx, hle⟩
      simp only at hx
      subst hx hc
      simp [rowLabel, expired, hle]
    · intro hn
      have hexp : (cancel && expired (some t) expiry) = false := by
        cases expiry with
        | none => simp [expired]
        | some x =>
          cases cancel with
          | false => simp
          | true =>
            have : ¬ x ≤ t := fun h => hn ⟨rfl, x, rfl, h⟩
            simpa [expired] using this
      simp only [rowLabel, hexp]
      constructor
      · rintro rfl
        simp [npSign, nonPositive]
      · rintro y rfl
        simp only [npSign, nonPositive, Option.map_some]
        refine ⟨?_, ?_, ?_, ?_⟩
        · intro hpos
          simp [not_le.2 hpos, hpos]
        · rintro rfl
          cases hasSide <;> simp
        · intro hneg hside
          simp [hside, hneg.le]
        · intro hneg hside
          simp [hside, hneg, not_lt.2 hneg.le]

example : (getEventLabels ([⟨some 3, some 2, some (1 / 5)⟩, ⟨some 3, some 3, some (-1 / 5)⟩,
    ⟨none, some 3, some (-1 / 5)⟩, ⟨none, none, some 1⟩] : List (Labelled ℚ)) false true).map
    Prod.snd = [some 1, some 0, some (-1)] := by decide +kernel

/-! ## C27, C130 -/

/-- C27.  Changing prices outside `[start, expiry]` does not change the outcome of the event. -/
theorem C27_window_only (prices prices' : List (Row K)) (ptMul slMul : K) (e : Event K) (expiry : ℤ)
    (hle : e.start ≤ expiry)
    (hagree : (prices.filter fun r => e.start ≤ r.time ∧ r.time ≤ expiry) =
      prices'.filter fun r => e.start ≤ r.time ∧ r.time ≤ expiry) :
    evalEvent prices ptMul slMul e expiry = evalEvent prices' ptMul slMul e expiry := by
  have hrow : ∀ (l : List (Row K)) (t : ℤ), e.start ≤ t → t ≤ expiry →
      rowAt l t = rowAt (l.filter fun r => e.start ≤ r.time ∧ r.time ≤ expiry) t := by
    intro l t h1 h2
    unfold rowAt
    rw [List.find?_filter]
    have : (fun a : Row K => decide (e.start ≤ a.time ∧ a.time ≤ expiry) && decide (a.time = t)) =
        fun a => decide (a.time = t) := by
      funext a
      by_cases h : a.time = t
      · subst h; simp [h1, h2]
      · simp [h]
    have h3 : (fun a : Row K => decide (decide (e.start ≤ a.time ∧ a.time ≤ expiry) = true ∧
        decide (a.time = t) = true)) = fun a => decide (a.time = t) := by
      funext a
      by_cases h : a.time = t
      · subst h; simp [h1, h2]
      · simp [h]
    first
      | rw [this]
      | rw [h3]
  have hstart : rowAt prices e.start = rowAt prices' e.start := by
    rw [hrow prices _ (le_refl _) hle, hagree, ← hrow prices' _ (le_refl _) hle]
  have hexp : rowAt prices expiry = rowAt prices' expiry := by
    rw [hrow prices _ hle (le_refl _), hagree, ← hrow prices' _ hle (le_refl _)]
  unfold evalEvent
  rw [hstart, hexp, hagree]

example : (0 : ℤ) ≤ 1 ∧ (exPrices.filter fun r => (0 : ℤ) ≤ r.time ∧ r.time ≤ 1) =
    (exPrices.take 2).filter fun r => (0 : ℤ) ≤ r.time ∧ r.time ≤ 1 := by decide

/-- C130, full claim: `get_event_returns` does not use prices after the last expiry. -/
def NoPricesAfterExpiry : Prop := ∀ (prices prices' : List (Row ℚ)) (starts : List ℤ)
  (targets : Series (Option ℚ)) (ptMul : ℚ) (ex : Series ℤ) (T : ℤ),
  SortedTable prices → SortedTable prices' → (∀ p ∈ ex, p.1 ≤ p.2 ∧ p.2 ≤ T) →
  ex.map Prod.fst = starts →
  (prices.filter fun r => r.time ≤ T) = (prices'.filter fun r => r.time ≤ T) →
  getEventReturns prices starts targets ptMul ptMul (some (ex.map fun p => (p.1, some p.2))) 0 none =
  getEventReturns prices' starts targets ptMul ptMul (some (ex.map fun p => (p.1, some p.2))) 0 none

/-- C130, counterexample: an expiry between two bars is filled from the next bar, whose high then
counts as touched at the expiry. -/
theorem C130_expiry_between_bars_counterexample : ¬ NoPricesAfterExpiry := by
  intro h
  have := h [⟨0, some 10, some 10, some 10, some 10⟩, ⟨10, some 10, some 20, some 10, some 20⟩]
    [⟨0, some 10, some 10, some 10, some 10⟩, ⟨10, some 10, some 10, some 10, some 10⟩]
    [0] [(0, some (1 / 10))] 1 [(0, 5)] 5 (by unfold SortedTable; decide)
    (by unfold SortedTable; decide) (by decide) rfl (by decide)
  revert this
  decide +kernel

theorem bfill_congr (prices prices' : List (Row K)) (T t : ℤ) (htT : t ≤ T)
    (hbar : ∃ r ∈ prices, r.time = T)
    (hagree : (prices.filter fun r => r.time ≤ T) = prices'.filter fun r => r.time ≤ T)
    (hs : SortedTable prices) (hs' : SortedTable prices') :
    bfill prices t = bfill prices' t := by
  have key : ∀ (l : List (Row K)), SortedTable l → (∃ r ∈ l, r.time = T) →
      l.find? (fun r => t ≤ r.time) = (l.filter fun r => r.time ≤ T).find? fun r => t ≤ r.time := by
    intro l hl hb
    induction l with
    | nil => rfl
    | cons a l ih =>
      unfold SortedTable at hl
      rw [List.map_cons, List.pairwise_cons] at hl
      have haT : a.time ≤ T := by
        obtain ⟨r, hr, hrt⟩ := hb
        rcases List.mem_cons.1 hr with rfl | hr
        · exact hrt.le
        · rw [← hrt]; exact (hl.1 _ (List.mem_map.2 ⟨r, hr, rfl⟩)).le
      rw [List.filter_cons_of_pos (by simpa using haT)]
      by_cases ha : t ≤ a.time
      · rw [List.find?_cons_of_pos (by simpa using ha), List.find?_cons_of_pos (by simpa using ha)]
      · rw [List.find?_cons_of_neg (by simpa using ha), List.find?_cons_of_neg (by simpa using ha)]
        apply ih hl.2
        obtain ⟨r, hr, hrt⟩ := hb
        rcases List.mem_cons.1 hr with rfl | hr
        · omega
        · exact ⟨r, hr, hrt⟩
  have hbar' : ∃ r ∈ prices', r.time = T := by
    obtain ⟨r, hr, hrt⟩ := hbar
    have : r ∈ prices.filter fun r => r.time ≤ T := List.mem_filter.2 ⟨hr, by simp [hrt]⟩
    rw [hagree] at this
    exact ⟨r, (List.mem_filter.1 this).1, hrt⟩
  unfold bfill
  rw [key prices hs hbar, key prices' hs' hbar', hagree]

/-- C130, what holds: if `T` is itself a bar at or after all starts and expiries, prices after `T` do
not matter (missing: `T` strictly between two bars). -/
theorem C130_no_prices_after_bar_partial (prices prices' : List (Row K)) (starts : List ℤ)
    (targets : Series (Option K)) (ptMul slMul minTarget : K) (ex : Series ℤ)
    (sides : Option (Series ℤ)) (T : ℤ)
    (hs : SortedTable prices) (hs' : SortedTable prices') (hbar : ∃ r ∈ prices, r.time = T)
    (hex : ∀ p ∈ ex, p.1 ≤ p.2 ∧ p.2 ≤ T) (hstarts : ex.map Prod.fst = starts)
    (hagree : (prices.filter fun r => r.time ≤ T) = prices'.filter fun r => r.time ≤ T) :
    getEventReturns prices starts targets ptMul slMul (some (ex.map fun p => (p.1, some p.2)))
        minTarget sides =
      getEventReturns prices' starts targets ptMul slMul (some (ex.map fun p => (p.1, some p.2)))
        minTarget sides := by
  by_cases hn : starts.Nodup
  swap
  · have h1 : ∀ P, getEventReturns P starts targets ptMul slMul
        (some (ex.map fun p => (p.1, some p.2))) minTarget sides = .error .unmodelled := by
      intro P
      unfold getEventReturns
      rw [if_pos (Or.inr hn)]
      rfl
    rw [h1, h1]
  rw [getEventReturns_eq _ _ _ _ _ _ _ _ hs hn, getEventReturns_eq _ _ _ _ _ _ _ _ hs' hn]
  cases ht : lookupTargets starts targets with
  | error e => rfl
  | ok t1 =>
    rw [py_bind_ok, py_bind_ok]
    cases hsd : lookupSides (keepTargets minTarget t1) sides with
    | error e => rfl
    | ok s1 =>
      rw [py_bind_ok, py_bind_ok]
      simp only [Option.getD_some]
      -- the filled tables agree up to T
      have hfill : ∀ (a b : ℤ), b ≤ T →
          (((priceIndices prices starts (ex.map fun p => (p.1, some p.2))).map
            (bfill prices)).filter fun r => a ≤ r.time ∧ r.time ≤ b) =
          (((priceIndices prices' starts (ex.map fun p => (p.1, some p.2))).map
            (bfill prices')).filter fun r => a ≤ r.time ∧ r.time ≤ b) := by
        intro a b hb
        have h1 : ∀ (P : List (Row K)) (l : List ℤ),
            ((l.map (bfill P)).filter fun r => a ≤ r.time ∧ r.time ≤ b) =
              (l.filter fun t => a ≤ t ∧ t ≤ b).map (bfill P) := by
          intro P l
          rw [List.filter_map]
          congr 2
          funext t
          simp only [Function.comp, bfill_time]
        rw [h1, h1]
        have h2 : (priceIndices prices starts (ex.map fun p => (p.1, some p.2))).filter
            (fun t => a ≤ t ∧ t ≤ b) =
            (priceIndices prices' starts (ex.map fun p => (p.1, some p.2))).filter
            (fun t => a ≤ t ∧ t ≤ b) := by
          apply sorted_ext ((priceIndices_lt _ _ _).filter _) ((priceIndices_lt _ _ _).filter _)
          intro t
          rw [List.mem_filter, List.mem_filter, mem_priceIndices, mem_priceIndices]
          have hiff : t ≤ T → (t ∈ prices.map Row.time ↔ t ∈ prices'.map Row.time) := by
            intro htT
            have h3 : ∀ (P : List (Row K)), t ∈ P.map Row.time ↔
                t ∈ (P.filter fun r => r.time ≤ T).map Row.time := by
              intro P
              rw [List.mem_map, List.mem_map]
              constructor
              · rintro ⟨r, hr, rfl⟩
                exact ⟨r, List.mem_filter.2 ⟨hr, by simpa using htT⟩, rfl⟩
              · rintro ⟨r, hr, rfl⟩
                exact ⟨r, (List.mem_filter.1 hr).1, rfl⟩
            rw [h3 prices, h3 prices', hagree]
          constructor
          · rintro ⟨h3, h4⟩
            have htT : t ≤ T := by
              have : a ≤ t ∧ t ≤ b := by simpa using h4
              exact this.2.trans hb
            exact ⟨h3.imp (hiff htT).1 id, h4⟩
          · rintro ⟨h3, h4⟩
            have htT : t ≤ T := by
              have : a ≤ t ∧ t ≤ b := by simpa using h4
              exact this.2.trans hb
            exact ⟨h3.imp (hiff htT).2 id, h4⟩
        rw [h2]
        apply List.map_congr_left
        intro t ht'
        have : a ≤ t ∧ t ≤ b := by simpa using (List.mem_filter.1 ht').2
        exact bfill_congr prices prices' T t (this.2.trans hb) hbar hagree hs hs'
      -- every event has an expiry
      have hev : ∀ e ∈ mkEvents (keepTargets minTarget t1) (ex.map fun p => (p.1, some p.2)) s1,
          ∃ x, e.expiry = some x ∧ e.start ≤ x ∧ x ≤ T := by
        intro e he
        unfold mkEvents at he
        obtain ⟨t, htm, rfl⟩ := List.mem_map.1 he
        have hkeys : (ex.map fun p => (p.1, some p.2)).map Prod.fst = starts := by
          rw [List.map_map]; exact hstarts
        have htst : t ∈ starts := by
          rw [List.mem_append, hkeys] at htm
          rcases htm with h | h
          · exact h
          · have := (List.mem_filter.1 h).1
            obtain ⟨p, hp, rfl⟩ := List.mem_map.1 this
            rw [← (lookupTargets_ok _ _ _ ht).1]
            exact List.mem_map.2 ⟨p, ((mem_keepTargets _ _ _).1 hp).1, rfl⟩
        simp only
        cases hf : (ex.map fun p => (p.1, some p.2)).find? (fun p => p.1 = t) with
        | none =>
          rw [List.find?_eq_none] at hf
          rw [← hkeys] at htst
          obtain ⟨q, hq, hqt⟩ := List.mem_map.1 htst
          exact absurd hqt (by simpa using hf q hq)
        | some q =>
          obtain ⟨p, hp, rfl⟩ := List.mem_map.1 (List.mem_of_find?_eq_some hf)
          have hpt : p.1 = t := by simpa using List.find?_some hf
          obtain ⟨h1, h2⟩ := hex p hp
          exact ⟨p.2, rfl, hpt ▸ h1, h2⟩
      generalize hE : mkEvents (keepTargets minTarget t1) (ex.map fun p => (p.1, some p.2)) s1 = E
      rw [hE] at hev
      -- both tables are non-empty
      have hlast : ∀ (P : List (Row K)), (∃ r ∈ P, r.time = T) →
          ∃ l, lastTime ((priceIndices P starts (ex.map fun p => (p.1, some p.2))).map
            (bfill P)) = .ok l := by
        rintro P ⟨r, hr, hrt⟩
        have hm : T ∈ priceIndices P starts (ex.map fun p => (p.1, some p.2)) := by
          rw [mem_priceIndices]
          exact Or.inl (List.mem_map.2 ⟨r, hr, hrt⟩)
        have hne : (priceIndices P starts (ex.map fun p => (p.1, some p.2))).map (bfill P) ≠ [] :=
          List.ne_nil_of_mem (List.mem_map.2 ⟨T, hm, rfl⟩)
        refine ⟨_, by
          unfold lastTime
          rw [(pyLast_eq_ok_iff _ _).2 (List.getLast?_eq_some_getLast hne)]
          rfl⟩
      have hbar' : ∃ r ∈ prices', r.time = T := by
        obtain ⟨r, hr, hrt⟩ := hbar
        have : r ∈ prices.filter fun r => r.time ≤ T := List.mem_filter.2 ⟨hr, by simp [hrt]⟩
        rw [hagree] at this
        exact ⟨r, (List.mem_filter.1 this).1, hrt⟩
      obtain ⟨l, hl⟩ := hlast prices hbar
      obtain ⟨l', hl'⟩ := hlast prices' hbar'
      unfold tripleBarrier
      rw [hl, hl', py_bind_ok, py_bind_ok]
      have hmap : ∀ (es : List (Event K)), (∀ e ∈ es, e ∈ E) →
          (es.mapM fun e : Event K => do
            let o ← evalEvent ((priceIndices prices starts (ex.map fun p : ℤ × ℤ => (p.1, some p.2))).map
              (bfill prices)) ptMul (effSl ptMul slMul sides) e (e.expiry.getD l)
            return (e, o)) =
          (es.mapM fun e : Event K => do
            let o ← evalEvent ((priceIndices prices' starts (ex.map fun p : ℤ × ℤ => (p.1, some p.2))).map
              (bfill prices')) ptMul (effSl ptMul slMul sides) e (e.expiry.getD l')
            return (e, o)) := by
        intro es hes
        induction es with
        | nil => rfl
        | cons e es ih =>
          rw [mapM_cons_py, mapM_cons_py, ih (fun e' he' => hes e' (by simp [he']))]
          obtain ⟨x, hx, hx1, hx2⟩ := hev e (hes e (by simp))
          rw [hx]
          simp only [Option.getD_some]
          rw [C27_window_only _ _ ptMul (effSl ptMul slMul sides) e x hx1 (hfill e.start x hx2)]
      rw [hmap E (fun e he => he)]

example : (∃ r ∈ exPrices, r.time = 2) ∧
    (exPrices.filter fun r => r.time ≤ 2) = (exPrices.take 3).filter fun r => r.time ≤ 2 := by
  refine ⟨⟨⟨2, some 10, some 12, some 9, some 11⟩, by simp [exPrices], rfl⟩, by decide⟩

/-! ## C129 -/

/-- C129, full claim: sides 1 (long) and 0 (short), as documented, are accepted. -/
def DocumentedSides : Prop := ∀ (prices : List (Row ℚ)) (starts : List ℤ)
  (targets : Series (Option ℚ)) (ex : Series ℤ) (sides : Series ℤ),
  SortedTable prices → starts.Nodup → ex.map Prod.fst = starts → sides.map Prod.fst = starts →
  (∀ p ∈ ex, (∃ r ∈ prices, r.time = p.1 ∧ ∃ x, r.op = some x ∧ x ≠ 0) ∧
    ∃ r ∈ prices, r.time = p.2) →
  (∀ t ∈ starts, ∃ x, targets.find? (fun p => p.1 = t) = some (t, some x) ∧ 0 < x) →
  (∀ p ∈ sides, p.2 = 1 ∨ p.2 = 0) →
  ∃ outs, getEventReturns prices starts targets 1 1 (some (ex.map fun p => (p.1, some p.2))) 0
    (some sides) = .ok outs

/-- C129, counterexample: side 0 fails an assertion. -/
theorem C129_documented_short_counterexample : ¬ DocumentedSides := by
  intro h
  obtain ⟨outs, h1⟩ := h exPrices [0] [(0, some 1)] [(0, 3)] [(0, 0)] exPrices_sorted (by decide) rfl
    rfl (by
      intro p hp
      rw [List.mem_singleton] at hp
      subst hp
      exact ⟨⟨_, List.mem_cons_self, rfl, 10, rfl, by norm_num⟩,
        ⟨_, List.getLast_mem (by decide : exPrices ≠ []), rfl⟩⟩)
    (by
      intro t ht
      rw [List.mem_singleton] at ht
      subst ht
      exact ⟨1, rfl, by norm_num⟩)
    (by
      intro p hp
      rw [List.mem_singleton] at hp
      subst hp
      exact Or.inr rfl)
  have h2 : getEventReturns exPrices [0] [(0, some 1)] 1 1
      (some ([((0 : ℤ), (3 : ℤ))].map fun p => (p.1, some p.2))) 0 (some [(0, 0)]) =
      .error .assertionError := by decide +kernel
  rw [h2] at h1
  cases h1

/-- C129, what holds: a successful call has only sides 1 and -1 (missing: 0 for a short trade). -/
theorem C129_sides_partial (prices : List (Row K)) (starts : List ℤ) (targets : Series (Option K))
    (ptMul slMul : K) (expiries : Option (Series (Option ℤ))) (minTarget : K)
    (sides : Option (Series ℤ)) (outs : List (Event K × Outcome K))
    (h : getEventReturns prices starts targets ptMul slMul expiries minTarget sides = .ok outs) :
    ∀ eo ∈ outs, eo.1.side = some 1 ∨ eo.1.side = some (-1) := by
  obtain ⟨_, _, _, _, _, _, h3⟩ := getEventReturns_ok _ _ _ _ _ _ _ _ _ h
  obtain ⟨_, _, last, _, _, h5⟩ := tripleBarrier_ok _ _ _ _ _ h3
  intro eo heo
  obtain ⟨s, hs, hs'⟩ := evalEvent_side _ _ _ _ _ _ (h5 eo heo)
  rw [hs]
  rcases hs' with rfl | rfl
  · exact Or.inl rfl
  · exact Or.inr rfl

end FinML.Labels
