import Verif.Labels.LeakProps
import Verif.Weights.Props
import Verif.Weights.DecayProps
import Verif.TimeSeries.Props
import Verif.Filters.Props

/-!
# C237: the labelling pipeline from prices to weights

CUSUM events, vertical barriers, triple barrier, uniqueness and time decay, one after the other.
-/

namespace FinML.Labels

open FinML.TimeSeries FinML.Filters FinML.Weights

variable {K : Type} [Field K] [LinearOrder K] [IsStrictOrderedRing K]

theorem bfill_self (prices : List (Row K)) (hs : SortedTable prices) (r : Row K) (hr : r ∈ prices) :
    bfill prices r.time = r := by
  unfold bfill
  cases hf : prices.find? (fun q => r.time ≤ q.time) with
  | none =>
    rw [List.find?_eq_none] at hf
    exact absurd (by simp) (hf r hr)
  | some q =>
    obtain ⟨hq, h1, h2⟩ := find_first prices hs r.time q hf
    have := row_unique hs hq hr (le_antisymm (h2 r hr le_rfl) h1)
    subst this
    rfl

/-- Starts and expiries on the index: the prices are left as they are. -/
theorem filled_self (prices : List (Row K)) (hs : SortedTable prices) (starts : List ℤ)
    (ex : Series (Option ℤ)) (h1 : ∀ t ∈ starts, t ∈ prices.map Row.time)
    (h2 : ∀ s t, (s, some t) ∈ ex → t ∈ prices.map Row.time) :
    (priceIndices prices starts ex).map (bfill prices) = prices := by
  have : priceIndices prices starts ex = prices.map Row.time := by
    apply FinML.sorted_ext (priceIndices_lt prices starts ex) hs
    intro t
    rw [mem_priceIndices]
    constructor
    · rintro (h | h | ⟨s, h⟩)
      · exact h
      · exact h1 t h
      · exact h2 s t h
    · exact Or.inl
  rw [this, List.map_map]
  conv_rhs => rw [← List.map_id prices]
  apply List.map_congr_left
  intro r hr
  exact bfill_self prices hs r hr

theorem prefix_labels (a l : List ℤ) (h : a <+: l) (hn : l.Nodup) :
    a ++ l.filter (fun t => decide (¬ t ∈ a)) = l := by
  obtain ⟨b, rfl⟩ := h
  rw [List.filter_append]
  have h1 : a.filter (fun t => decide (¬ t ∈ a)) = [] := by
    rw [List.filter_eq_nil_iff]; intro t ht; simpa using ht
  have h2 : b.filter (fun t => decide (¬ t ∈ a)) = b := by
    rw [List.filter_eq_self]
    intro t ht
    have := (List.nodup_append.1 hn).2.2
    simp only [decide_not, Bool.not_eq_eq_eq_not, Bool.not_true, decide_eq_false_iff_not]
    intro hta
    exact this t hta t ht rfl
  rw [h1, h2, List.nil_append]

theorem barriers_prefix (index events : List ℤ) (h : ℤ) :
    (verticalBarriers index events h).map Prod.fst <+: events := by
  unfold verticalBarriers
  simp only
  rw [List.map_fst_zip]
  · exact List.take_prefix _ _
  · simp

theorem find_key {α : Type} (l : List (ℤ × α)) (hn : (l.map Prod.fst).Nodup) (p : ℤ × α) (hp : p ∈ l) :
    l.find? (fun q => q.1 = p.1) = some p := by
  cases hf : l.find? (fun q => decide (q.1 = p.1)) with
  | none =>
    rw [List.find?_eq_none] at hf
    exact absurd (by simp) (hf p hp)
  | some q =>
    have h1 := List.mem_of_find?_eq_some hf
    have h2 := List.find?_some hf
    rw [List.inj_on_of_nodup_map hn h1 hp (by simpa using h2)]

/-- C237.  Prices with no missing opens (none 0) and closes on an increasing index; events where the CUSUM filter
fires on the closes; targets above the minimum for all of them; vertical barriers after a non-negative
number of days.  Then no step fails: the triple barrier gives one row for each event in order, ending on a bar
at or after the start and not after the vertical barrier, with a return; each event has a uniqueness in
(0,1]; and time decay gives each a weight in [0,1], that of the last one being 1. -/
theorem C237_pipeline (prices : List (Row K)) (hs : SortedTable prices)
    (hop : ∀ r ∈ prices, ∃ s, r.op = some s ∧ s ≠ 0) (closes : List K)
    (hcl : prices.map Row.close = closes.map some) (thr : K) (hthr : 0 ≤ thr) (starts : List ℤ)
    (hf : filterCusum (prices.map Row.time) closes thr = .ok starts) (hne : starts ≠ [])
    (targets : Series (Option K)) (minTarget : K)
    (htar : ∀ t ∈ starts, ∃ x, atLabel targets t = .ok (some x) ∧ minTarget < x)
    (ptMul slMul : K) (hpt : 0 ≤ ptMul) (hold : ℤ) (hhold : 0 ≤ hold) (c : K) (hc : -1 < c) (hc1 : c ≤ 1) :
    ∃ outs, getEventReturns prices starts targets ptMul slMul
        (some ((verticalBarriers (prices.map Row.time) starts hold).map fun p => (p.1, some p.2)))
        minTarget none = .ok outs ∧
      outs.map (fun eo => eo.1.start) = starts ∧
      (∀ eo ∈ outs, eo.2.endTime ∈ prices.map Row.time ∧ eo.1.start ≤ eo.2.endTime ∧
        (∀ b, (eo.1.start, b) ∈ verticalBarriers (prices.map Row.time) starts hold → eo.2.endTime ≤ b) ∧
        ∃ x, eo.2.ret = some x) ∧
      ∃ us : Series K, labelAvgUniqueness (prices.map Row.time) (closedTimes (outs.map spanOf)) =
          .ok (us.map fun p => (p.1, some p.2)) ∧
        us.map Prod.fst = starts ∧ (∀ p ∈ us, 0 < p.2 ∧ p.2 ≤ 1) ∧
        ∃ ws, applyTimeDecay us c = .ok ws ∧ ws.map Prod.fst = starts ∧
          (∀ p ∈ ws, 0 ≤ p.2 ∧ p.2 ≤ 1) ∧ ∃ p, ws.getLast? = some p ∧ p.2 = 1 := by
  have hlen : (prices.map Row.time).length = closes.length := by
    have := congrArg List.length hcl
    simpa using this
  have hcne : closes ≠ [] := by
    rintro rfl
    have hp : prices = [] := by simpa using hlen
    subst hp
    have h : filterCusum ([] : List ℤ) ([] : List K) thr = .ok [] := rfl
    rw [show List.map Row.time ([] : List (Row K)) = [] from rfl, h] at hf
    cases hf
    exact hne rfl
  obtain ⟨ts, h1, hsort, hsub⟩ := C53_times (prices.map Row.time) closes thr hthr hlen hs hcne
  rw [hf] at h1
  obtain rfl : starts = ts := by cases h1; rfl
  have hmem : ∀ t ∈ starts, t ∈ prices.map Row.time := fun t ht =>
    (List.tail_sublist _).subset (hsub.subset ht)
  have hnod : starts.Nodup := hsort.imp ne_of_lt
  obtain ⟨hb1, -, -⟩ := C30_vertical_barriers_partial (prices.map Row.time) starts hold hs
    (hsort.imp le_of_lt)
  obtain ⟨vb, hvb⟩ : ∃ vb, verticalBarriers (prices.map Row.time) starts hold = vb := ⟨_, rfl⟩
  have hpre : vb.map Prod.fst <+: starts := hvb ▸ barriers_prefix _ _ _
  rw [hvb] at hb1 ⊢
  have hXe : ∃ X : ℤ → K, ∀ t ∈ starts, atLabel targets t = .ok (some (X t)) ∧ minTarget < X t := by
    classical
    exact ⟨fun t => if h : t ∈ starts then (htar t h).choose else 0, fun t ht => by
      simp only [dif_pos ht]; exact (htar t ht).choose_spec⟩
  obtain ⟨X, hX⟩ := hXe
  obtain ⟨T, hT⟩ : ∃ T : Series (Option K), T = starts.map fun t => (t, some (X t)) := ⟨_, rfl⟩
  have hTf : T.map Prod.fst = starts := by rw [hT, List.map_map]; exact List.map_id' _
  have htl : lookupTargets starts targets = .ok T := by
    unfold lookupTargets
    rw [hT]
    apply mapM_ok_of_forall
    intro t ht
    rw [(hX t ht).1]
    rfl
  have hkeep : keepTargets minTarget T = T := by
    unfold keepTargets
    rw [List.filter_eq_self]
    intro p hp
    rw [hT] at hp
    obtain ⟨t, ht, rfl⟩ := List.mem_map.1 hp
    simpa [gtNan] using (hX t ht).2
  have hsides : lookupSides (keepTargets minTarget T) none = .ok (T.map fun p => (p.1, (1 : ℤ))) := by
    rw [hkeep]; rfl
  rw [getEventReturns_eq prices starts targets ptMul slMul _ minTarget none hs hnod, htl, py_bind_ok,
    hsides, py_bind_ok, hkeep]
  simp only [Option.getD_some]
  rw [filled_self prices hs starts _ hmem (by
    intro s t h
    obtain ⟨p, hp, he⟩ := List.mem_map.1 h
    obtain ⟨e, b⟩ := p
    simp only [Prod.mk.injEq, Option.some.injEq] at he
    obtain ⟨rfl, rfl⟩ := he
    exact (hb1 e b hp).2.1.1)]
  have hvn : (vb.map Prod.fst).Nodup := hnod.sublist hpre.sublist
  have hev : ∃ evs : List (Event K), mkEvents T (vb.map fun p => (p.1, some p.2))
      (T.map fun p => (p.1, (1 : ℤ))) = evs ∧ evs.map (fun e => e.start) = starts ∧
      ∀ e ∈ evs, e.start ∈ starts ∧ e.side = some 1 ∧
        (∀ b, (e.start, b) ∈ vb → e.expiry = some b) ∧ (∀ b, e.expiry = some b → (e.start, b) ∈ vb) := by
    refine ⟨_, rfl, ?_, ?_⟩
    · unfold mkEvents
      rw [List.map_map, hTf]
      have : (List.map Prod.fst (vb.map fun p => (p.1, some p.2))) = vb.map Prod.fst := by
        rw [List.map_map]; rfl
      rw [this, prefix_labels _ _ hpre hnod]
      exact List.map_id' _
    · intro e he
      unfold mkEvents at he
      have h0 : (List.map Prod.fst (vb.map fun p => (p.1, some p.2))) = vb.map Prod.fst := by
        rw [List.map_map]; rfl
      rw [h0, hTf, prefix_labels _ _ hpre hnod] at he
      obtain ⟨t, ht, rfl⟩ := List.mem_map.1 he
      refine ⟨ht, ?_, ?_, ?_⟩
      · have := find_key (T.map fun p => (p.1, (1 : ℤ))) (by rw [List.map_map]; exact hTf ▸ hnod) (t, 1) (by
          rw [hT, List.map_map]
          exact List.mem_map.2 ⟨t, ht, rfl⟩)
        simp only
        rw [this]
        rfl
      · intro b hb
        have := find_key (vb.map fun p => (p.1, some p.2)) (by rw [h0]; exact hvn) (t, some b)
          (List.mem_map.2 ⟨(t, b), hb, rfl⟩)
        simp only
        rw [this]
        rfl
      · intro b hb
        simp only at hb
        rw [Option.bind_eq_some_iff] at hb
        obtain ⟨p, hp, hb⟩ := hb
        have h1 := List.mem_of_find?_eq_some hp
        have h2 := List.find?_some hp
        simp only [decide_eq_true_eq] at h2
        obtain ⟨q, hq, rfl⟩ := List.mem_map.1 h1
        simp only [Option.some.injEq] at hb h2
        obtain ⟨q1, q2⟩ := q
        simp only at hb h2
        subst hb; subst h2
        exact hq
  obtain ⟨evs, hevs, hstarts, hE⟩ := hev
  rw [hevs, show effSl ptMul slMul none = ptMul from rfl]
  have hpne : prices ≠ [] := by
    rintro rfl
    apply hcne
    simpa using hlen.symm
  obtain ⟨init, lastRow, hpl⟩ : ∃ i l, prices = i ++ [l] :=
    ⟨prices.dropLast, prices.getLast hpne, (List.dropLast_append_getLast hpne).symm⟩
  have hlast : lastTime prices = .ok lastRow.time := by
    unfold lastTime
    rw [hpl]
    simp [pyLast]
  have hlmem : lastRow ∈ prices := by rw [hpl]; simp
  have hlmax : ∀ t ∈ prices.map Row.time, t ≤ lastRow.time := by
    intro t ht
    have h := hs
    unfold SortedTable at h
    rw [hpl, List.map_append, List.pairwise_append] at h
    rw [hpl, List.map_append, List.mem_append] at ht
    rcases ht with ht | ht
    · exact le_of_lt (h.2.2 t ht lastRow.time (by simp))
    · simp at ht; exact ht.le
  have hone : ∀ e ∈ evs, ∃ o, evalEvent prices ptMul ptMul e (e.expiry.getD lastRow.time) = .ok o ∧
      o.endTime ∈ prices.map Row.time ∧ e.start ≤ o.endTime ∧
      (∀ b, (e.start, b) ∈ vb → o.endTime ≤ b) ∧ ∃ x, o.ret = some x := by
    intro e he
    obtain ⟨hst, hsd, hx1, hx2⟩ := hE e he
    obtain ⟨x, hx⟩ : ∃ x, e.expiry.getD lastRow.time = x := ⟨_, rfl⟩
    have hxmem : x ∈ prices.map Row.time ∧ e.start ≤ x := by
      cases hb : e.expiry with
      | none =>
        rw [hb] at hx
        simp only [Option.getD_none] at hx
        subst hx
        exact ⟨List.mem_map.2 ⟨_, hlmem, rfl⟩, hlmax _ (hmem _ hst)⟩
      | some b =>
        rw [hb] at hx
        simp only [Option.getD_some] at hx
        subst hx
        have := (hb1 _ _ (hx2 b hb)).2.1
        refine ⟨this.1, le_trans ?_ this.2⟩
        have : (0 : ℤ) ≤ hold * oneDay := mul_nonneg hhold (by decide)
        omega
    obtain ⟨r0, hr0, hr0t⟩ := List.mem_map.1 (hmem _ hst)
    obtain ⟨s0, hs0, hs0n⟩ := hop r0 hr0
    obtain ⟨rx, hrx, hrxt⟩ := List.mem_map.1 hxmem.1
    have htr : Tradable prices e 1 s0 x := ⟨hsd, Or.inl rfl, ⟨r0, hr0, hr0t, hs0⟩, hs0n, ⟨rx, hrx, hrxt⟩⟩
    rw [hx]
    obtain ⟨o, ho, hends, hsl, hptt, hexp⟩ := evalEvent_spec prices ptMul ptMul e 1 s0 x hs htr
    refine ⟨o, ho, ?_⟩
    have hxb : ∀ b, (e.start, b) ∈ vb → x ≤ b := by
      intro b hb
      rw [hx1 b hb] at hx
      exact hx.ge
    by_cases hhit : ∀ t, ¬ HitsPT prices ptMul e 1 s0 x t ∧ ¬ HitsSL prices ptMul e 1 s0 x t
    · have hend := hends.end_expiry hhit
      obtain ⟨r, hr, -, hret⟩ := hexp hhit
      rw [hend]
      refine ⟨hxmem.1, hxmem.2, hxb, ?_⟩
      have : r.close ∈ prices.map Row.close := List.mem_map.2 ⟨r, hr, rfl⟩
      rw [hcl] at this
      obtain ⟨cc, -, hcc⟩ := List.mem_map.1 this
      rw [hret, ← hcc]
      exact ⟨_, rfl⟩
    · rw [not_forall] at hhit
      obtain ⟨t, ht⟩ := hhit
      have ht' : HitsPT prices ptMul e 1 s0 x t ∨ HitsSL prices ptMul e 1 s0 x t := by
        by_contra hcon
        exact ht ⟨fun h => hcon (Or.inl h), fun h => hcon (Or.inr h)⟩
      have hleast := (hends.end_hit t ht').1
      have hb : e.start ≤ o.endTime ∧ o.endTime ≤ x ∧ ∃ r ∈ prices, r.time = o.endTime := by
        rcases hleast with h | h
        · exact ⟨h.1, h.2.1, by obtain ⟨r, hr, hrt, -⟩ := h.2.2.2; exact ⟨r, hr, hrt⟩⟩
        · exact ⟨h.1, h.2.1, by obtain ⟨r, hr, hrt, -⟩ := h.2.2.2; exact ⟨r, hr, hrt⟩⟩
      obtain ⟨r, hr, hrt⟩ := hb.2.2
      refine ⟨List.mem_map.2 ⟨r, hr, hrt⟩, hb.1, fun b hbb => le_trans hb.2.1 (hxb b hbb), ?_⟩
      by_cases hSL : HitsSL prices ptMul e 1 s0 x o.endTime
      · obtain ⟨r, -, -, p, -, hp⟩ := hsl hSL
        exact ⟨_, hp⟩
      · obtain ⟨r, -, -, p, -, hp⟩ := hptt hSL (hleast.resolve_right hSL)
        exact ⟨_, hp⟩
  have hfe : ∃ f : Event K → Outcome K, ∀ e ∈ evs,
      evalEvent prices ptMul ptMul e (e.expiry.getD lastRow.time) = .ok (f e) ∧
      (f e).endTime ∈ prices.map Row.time ∧ e.start ≤ (f e).endTime ∧
      (∀ b, (e.start, b) ∈ vb → (f e).endTime ≤ b) ∧ ∃ x, (f e).ret = some x := by
    classical
    exact ⟨fun e => if h : e ∈ evs then (hone e h).choose else ⟨none, none, 0, none⟩, fun e he => by
      simp only [dif_pos he]; exact (hone e he).choose_spec⟩
  obtain ⟨f, hfs⟩ := hfe
  have hst2 : (evs.map fun e => (e, f e)).map (fun eo => eo.1.start) = starts := by
    rw [List.map_map]; exact hstarts
  refine ⟨_, tripleBarrier_of_ok prices evs ptMul ptMul hpt hpt lastRow.time hlast f
    (fun e he => (hfs e he).1), hst2, ?_, ?_⟩
  · intro eo heo
    obtain ⟨e, he, rfl⟩ := List.mem_map.1 heo
    exact (hfs e he).2
  · obtain ⟨spans, hsp⟩ : ∃ spans, (evs.map fun e => (e, f e)).map spanOf = spans := ⟨_, rfl⟩
    rw [hsp]
    have hspf : spans.map Prod.fst = starts := by
      rw [← hsp, List.map_map]; exact hst2
    obtain ⟨res, hres, hall⟩ := C33_uniqueness (K := K) (prices.map Row.time) hs
      (by simpa using hpne) spans (by rintro rfl; exact hne hspf.symm) (by rw [hspf]; exact hsort)
    have hcov : ∀ e ∈ spans, ∃ t ∈ prices.map Row.time, e.1 ≤ t ∧ t ≤ e.2 := by
      intro e he
      rw [← hsp] at he
      obtain ⟨eo, heo, rfl⟩ := List.mem_map.1 he
      obtain ⟨e', he', rfl⟩ := List.mem_map.1 heo
      exact ⟨(f e').endTime, (hfs e' he').2.1, (hfs e' he').2.2.1, le_rfl⟩
    have hus : ∃ us : Series K, res = us.map (fun p => (p.1, some p.2)) ∧ us.map Prod.fst = spans.map Prod.fst ∧
        ∀ p ∈ us, 0 < p.2 ∧ p.2 ≤ 1 := by
      have hall' : List.Forall₂ (fun (e : ℤ × ℤ) (r : ℤ × Option K) => r.1 = e.1 ∧
          ((∃ t ∈ prices.map Row.time, e.1 ≤ t ∧ t ≤ e.2) → ∃ u, r.2 = some u ∧ 0 < u ∧ u ≤ 1)) spans res := by
        apply hall.imp
        rintro e r ⟨h1, -, h2⟩
        refine ⟨h1, fun h => ?_⟩
        obtain ⟨u, hu, -, h4, h5, -⟩ := h2 h
        exact ⟨u, hu, h4, h5⟩
      clear hres hsp hspf hall
      induction hall' with
      | nil => exact ⟨[], rfl, rfl, by simp⟩
      | @cons e r l l' h _ ih =>
        obtain ⟨us, h1, h2, h3⟩ := ih (fun e he => hcov e (List.mem_cons_of_mem _ he))
        obtain ⟨u, hu, h4, h5⟩ := h.2 (hcov e (by simp))
        refine ⟨(e.1, u) :: us, ?_, ?_, ?_⟩
        · rw [List.map_cons, ← h1, ← hu, ← h.1]
        · rw [List.map_cons, List.map_cons, h2]
        · intro p hp
          rcases List.mem_cons.1 hp with rfl | hp
          · exact ⟨h4, h5⟩
          · exact h3 p hp
    obtain ⟨us, rfl, hu1, hu2⟩ := hus
    rw [hspf] at hu1
    have hune : us ≠ [] := by rintro rfl; exact hne hu1.symm
    obtain ⟨ws, hw, hw1, hw2, -, hw4, hw5, -⟩ := C37_time_decay us hune (fun p hp => (hu2 p hp).1)
      (hu1 ▸ hnod) c hc hc1
    have hwf : ws.map Prod.fst = starts := by
      apply FinML.sorted_ext hw2 hsort
      intro t
      rw [hw1.mem_iff, hu1]
    have hwne : ws ≠ [] := by rintro rfl; exact hne hwf.symm
    refine ⟨us, hres, hu1, hu2, ws, hw, hwf, hw4, ws.getLast hwne, List.getLast?_eq_getLast_of_ne_nil hwne, ?_⟩
    apply hw5 _ (List.getLast_mem hwne)
    intro q hq
    have hq1 : q.1 ∈ ws.map Prod.fst := by
      rw [hw1.mem_iff]; exact List.mem_map.2 ⟨q, hq, rfl⟩
    rw [← List.dropLast_append_getLast hwne, List.map_append, List.pairwise_append] at hw2
    rw [← List.dropLast_append_getLast hwne, List.map_append, List.mem_append] at hq1
    rcases hq1 with h | h
    · exact le_of_lt (hw2.2.2 _ h _ (by simp))
    · simp at h; exact h.le

/-- Six bars; the closes move by more than 1 three times. -/
def sixBars : List (Row ℚ) :=
  [⟨0, some 10, some 11, some 9, some 10⟩, ⟨1, some 10, some 13, some 10, some 12⟩,
    ⟨2, some 12, some 13, some 11, some 12⟩, ⟨3, some 12, some 12, some 9, some 10⟩,
    ⟨4, some 10, some 10, some 8, some 9⟩, ⟨5, some 9, some 12, some 9, some 11⟩]

example : SortedTable sixBars ∧ (∀ r ∈ sixBars, ∃ s, r.op = some s ∧ s ≠ 0) ∧
    sixBars.map Row.close = ([10, 12, 12, 10, 9, 11] : List ℚ).map some ∧
    filterCusum (sixBars.map Row.time) ([10, 12, 12, 10, 9, 11] : List ℚ) 1 = .ok [1, 3, 5] ∧
    ∀ t ∈ [1, 3, 5], ∃ x : ℚ, atLabel [(1, some (1 / 10)), (3, some (1 / 5)), (5, some (1 / 10))] t =
      .ok (some x) ∧ 0 < x := by
  refine ⟨by unfold SortedTable; decide, ?_, rfl, by decide +kernel, ?_⟩
  · intro r hr
    fin_cases hr <;> exact ⟨_, rfl, by norm_num⟩
  · intro t ht
    fin_cases ht <;> exact ⟨_, rfl, by norm_num⟩

end FinML.Labels
