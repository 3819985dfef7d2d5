import Verif.Bars.FlowProps

/-!
# C179, C180, C181: expectations from past bars, look-ahead of the defaults, the size limit
-/

namespace FinML.Bars

set_option linter.unusedSectionVars false

section
variable {K : Type} [Field K] [LinearOrder K] [IsStrictOrderedRing K]

/-! ## C179 -/

/-- Strictly increasing numbers: those up to the `j`-th are the first `j + 1`. -/
theorem filter_upto (es : List ℕ) (hi : es.Pairwise (· < ·)) (j : ℕ) (h : j < es.length) :
    es.filter (· < es[j] + 1) = es.take (j + 1) := by
  induction es generalizing j with
  | nil => simp at h
  | cons a l ih =>
    rw [List.pairwise_cons] at hi
    cases j with
    | zero =>
      rw [List.getElem_cons_zero, List.filter_cons, if_pos (by simp), List.take_succ_cons, List.take_zero,
        List.filter_eq_nil_iff.2]
      intro x hx
      have := hi.1 x hx
      simp only [decide_eq_true_eq]
      omega
    | succ j =>
      have hj : j < l.length := by simpa using h
      have := hi.1 l[j] (List.getElem_mem hj)
      rw [List.getElem_cons_succ, List.filter_cons, if_pos (by simp only [decide_eq_true_eq]; omega),
        List.take_succ_cons, ih hi.2 j hj]

theorem getLast_take (es : List ℕ) (j : ℕ) (h : j < es.length) : (es.take (j + 1)).getLast? = some es[j] := by
  rw [List.getLast?_take]
  simp [h]

/-- Full claim for imbalance bars, as documented ("EWMA of previous bars' T and b"): after a bar the threshold
is the mean length of the bars so far times the absolute mean flow of all their ticks. -/
def FlowsOfPastBars (K : Type) [Field K] [LinearOrder K] [IsStrictOrderedRing K] : Prop :=
  ∀ (p : LoopParams K) (eb : K) (b : List K) (ends : List ℕ) (Ts θ thr : List K), 1 ≤ p.bSpan → b ≠ [] →
    computeImbalanceBarSizes p eb b = .ok (ends, Ts, θ, thr) →
    ∀ j (_ : j + 1 < ends.length), thr[ends[j] + 1]? = some
      (ewMean (decay K (lenSpan p.TSpan (j + 1))) ((barLens 0 (ends.take (j + 1))).map ((↑) : ℕ → K)) *
        |ewMean (decay K (min p.bSpan (ends[j] + 1))) (b.take (ends[j] + 1))|)

/-- Full claim for runs bars: the expected quantities after a bar are the mean sizes of all buys and of all
sells so far. -/
def SizesOfPastBars (K : Type) [Field K] [LinearOrder K] [IsStrictOrderedRing K] : Prop :=
  ∀ (p : LoopParams K) (r : RunsInit K) (b v : List K) (ends : List ℕ) (Ts θ : List K) (thr : List (Option K)),
    1 ≤ p.bSpan → b ≠ [] → v.length = b.length →
    computeRunsBarSizes p r b v = .ok (ends, Ts, θ, thr) →
    ∀ j (_ : j + 1 < ends.length),
      let buys := ((List.range (ends[j] + 1)).filter fun i => 0 ≤ at' b i).map (at' v)
      let sells := ((List.range (ends[j] + 1)).filter fun i => at' b i < 0).map (at' v)
      let P := ewMean (decay K (lenSpan p.TSpan (j + 1))) (buyFracs b 0 (ends.take (j + 1)))
      thr[ends[j] + 1]? = some (some
        (ewMean (decay K (lenSpan p.TSpan (j + 1))) ((barLens 0 (ends.take (j + 1))).map ((↑) : ℕ → K)) *
          max (P * ewMean (decay K (min buys.length p.bSpan)) buys)
            ((1 - P) * ewMean (decay K (min sells.length p.bSpan)) sells)))

theorem ends_facts {n : ℕ} {ends closed : List ℕ} {R : BarRule Θ K} (hd : GenDone R n closed) (hn : 0 < n)
    (he : ends = withLast n closed) (j : ℕ) (h : j + 1 < ends.length) :
    ends.filter (· < ends[j] + 1) = ends.take (j + 1) ∧ ends[j] + 1 < n := by
  subst he
  have ht := hd.tiles hn
  refine ⟨filter_upto _ ht.inc j (by omega), ?_⟩
  have h1 : (withLast n closed)[j] < (withLast n closed)[j + 1] :=
    List.pairwise_iff_getElem.1 ht.inc j (j + 1) (by omega) h (by omega)
  have h2 : (withLast n closed)[j + 1] ≤ n - 1 := by
    have hl := ht.last
    rw [List.getLast?_eq_getElem?] at hl
    have hl' : (withLast n closed)[(withLast n closed).length - 1]'(by omega) = n - 1 := by
      rw [List.getElem?_eq_getElem (by omega)] at hl
      exact Option.some.inj hl
    rcases Nat.lt_or_ge (j + 1) ((withLast n closed).length - 1) with hlt | hge
    · have := List.pairwise_iff_getElem.1 ht.inc (j + 1) ((withLast n closed).length - 1) h (by omega) hlt
      omega
    · have e : j + 1 = (withLast n closed).length - 1 := by omega
      have : (withLast n closed)[j + 1] = n - 1 := by
        rw [← hl']
        congr 1
      omega
  omega

/-- C179, what holds for imbalance bars: the mean flow is that of all ticks before the closing tick.  Missing:
the closing tick itself, see `C179_closing_tick_counterexample`. -/
theorem C179_imbalance_partial (p : LoopParams K) (eb : K) (b : List K) (ends : List ℕ) (Ts θ thr : List K)
    (hb : 1 ≤ p.bSpan) (hn : b ≠ []) (h : computeImbalanceBarSizes p eb b = .ok (ends, Ts, θ, thr))
    (j : ℕ) (hj : j + 1 < ends.length) : thr[ends[j] + 1]? = some
      (ewMean (decay K (lenSpan p.TSpan (j + 1))) ((barLens 0 (ends.take (j + 1))).map ((↑) : ℕ → K)) *
        |ewMean (decay K (min p.bSpan (ends[j] + 1))) (b.take ends[j])|) := by
  have hpos : 0 < b.length := List.length_pos_iff.2 hn
  obtain ⟨cl, θ1, thr1, h1, h2, h3, h4, h5, h6⟩ := computeImb_spec p hb eb b hn
  rw [h1] at h
  simp only [Except.ok.injEq, Prod.mk.injEq] at h
  obtain ⟨he, _, _, rfl⟩ := h
  obtain ⟨f1, f2⟩ := ends_facts h2 hpos he.symm j hj
  obtain ⟨x, hx, hx2⟩ := h6 (ends[j] + 1) f2
  rw [he, f1] at hx2
  rw [hx]
  simp only [imbRule, getLast_take ends j (by omega), Except.ok.injEq] at hx2
  rw [← hx2, List.length_take, Nat.min_eq_left (by omega)]

/-- C179, what holds for runs bars: the expected quantities are those of the buys and of the sells from tick 1
on.  Missing: tick 0, see `C179_first_tick_counterexample`. -/
theorem C179_runs_partial (p : LoopParams K) (r : RunsInit K) (b v : List K) (ends : List ℕ) (Ts θ : List K)
    (thr : List (Option K)) (hb : 1 ≤ p.bSpan) (hn : b ≠ []) (hv : v.length = b.length)
    (h : computeRunsBarSizes p r b v = .ok (ends, Ts, θ, thr)) (j : ℕ) (hj : j + 1 < ends.length) :
    let buys := ((List.range' 1 ends[j]).filter fun i => 0 ≤ at' b i).map (at' v)
    let sells := ((List.range' 1 ends[j]).filter fun i => at' b i < 0).map (at' v)
    let P := ewMean (decay K (lenSpan p.TSpan (j + 1))) (buyFracs b 0 (ends.take (j + 1)))
    thr[ends[j] + 1]? = some (some
      (ewMean (decay K (lenSpan p.TSpan (j + 1))) ((barLens 0 (ends.take (j + 1))).map ((↑) : ℕ → K)) *
        max (P * ewMean (decay K (min buys.length p.bSpan)) buys)
          ((1 - P) * ewMean (decay K (min sells.length p.bSpan)) sells))) := by
  have hpos : 0 < b.length := List.length_pos_iff.2 hn
  rcases computeRuns_spec p hb r b v hv hn with ⟨cl, θ1, thr1, h1, h2, h3, h4, h5, h6⟩ | ⟨_, _, _, h1, _⟩
  swap
  · rw [h1] at h
    cases h
  rw [h1] at h
  simp only [Except.ok.injEq, Prod.mk.injEq] at h
  obtain ⟨he, _, _, rfl⟩ := h
  obtain ⟨f1, f2⟩ := ends_facts h2 hpos he.symm j hj
  obtain ⟨x, hx, hx2⟩ := h6 (ends[j] + 1) f2
  rw [he, f1] at hx2
  simp only [runsRule, getLast_take ends j (by omega)] at hx2
  split_ifs at hx2
  simp only [Except.ok.injEq] at hx2
  rw [hx, ← hx2]
  simp only [runsThr, buyVols, sellVols, List.length_take, Nat.min_eq_left (show j + 1 ≤ ends.length by omega)]

/-! ## C180 -/

/-- Full claim: a bar that closed does not depend on ticks after it, also when the initial expectation is
estimated (the default). -/
def DefaultsDoNotLookAhead (K : Type) [Field K] [LinearOrder K] [IsStrictOrderedRing K] : Prop :=
  ∀ (ETInit : ℕ) (t t' : List (Tick K)) (m : ℕ) (r r' : List (Bar K) × List ℕ × List K × List K), 1 ≤ ETInit →
    m < t.length → m < t'.length → t.take m = t'.take m →
    aggregateImbalanceBars .tick 0 none 1 ETInit none none none t = .ok r →
    aggregateImbalanceBars .tick 0 none 1 ETInit none none none t' = .ok r' →
    ∀ c, r.2.1[m]? = some c → r.1.take c = r'.1.take c

theorem imbalance_none (unit : BarUnit) (minSize : K) (maxSize : Option K) (b0 : K) (ETInit : ℕ) (hE : 1 ≤ ETInit)
    (TSpan bSpan : Option ℕ) (t : List (Tick K)) (ht : t ≠ []) (b : List K) (hb : signedFlow unit b0 t = .ok b) :
    aggregateImbalanceBars unit minSize maxSize b0 ETInit none TSpan bSpan t =
      aggregateImbalanceBars unit minSize maxSize b0 ETInit (some |mean (b.take ETInit)|) TSpan bSpan t := by
  have hu : unit ≠ .time := by
    rintro rfl
    simp [signedFlow] at hb
  have hlen : b.length = t.length := by
    obtain ⟨c, hc, hcl⟩ := signedFlow_ok unit hu b0 t
    rw [hb] at hc; cases hc; exact hcl
  have hne : ¬ b.take ETInit = [] := by
    have := List.length_pos_iff.2 ht
    intro h0
    have := congrArg List.length h0
    rw [List.length_take, List.length_nil] at this
    omega
  unfold aggregateImbalanceBars
  rw [hb]
  simp only [py_bind_ok, hne, and_false, if_false, reduceCtorEq, false_and, Option.getD_none, Option.getD_some]

/-- C180, what holds for imbalance bars: the bars of the first `m` ticks do not depend on later ticks if the
expectation is given or `m` is at least `E_T_init`.  Missing: estimated expectations and `m < E_T_init`, see
`C180_default_counterexample`. -/
theorem C180_imbalance_partial (unit : BarUnit) (minSize : K) (maxSize : Option K) (b0 : K)
    (ETInit : ℕ) (hE : 1 ≤ ETInit) (eb : Option K) (TSpan bSpan : Option ℕ) (hs : bSpan ≠ some 0)
    (t t' : List (Tick K)) (m : ℕ) (hm : m < t.length) (hm' : m < t'.length)
    (h : t.take m = t'.take m) (hi : eb = none → ETInit ≤ m) (r r' : List (Bar K) × List ℕ × List K × List K)
    (hr : aggregateImbalanceBars unit minSize maxSize b0 ETInit eb TSpan bSpan t = .ok r)
    (hr' : aggregateImbalanceBars unit minSize maxSize b0 ETInit eb TSpan bSpan t' = .ok r') :
    r.2.1.take (m + 1) = r'.2.1.take (m + 1) ∧ r.2.2.1.take m = r'.2.2.1.take m ∧
      r.2.2.2.take m = r'.2.2.2.take m ∧
      ∀ c, r.2.1[m]? = some c → r.1.take c = r'.1.take c := by
  cases eb with
  | some e =>
    exact C10_imbalance_no_lookahead unit minSize maxSize b0 ETInit hE e TSpan bSpan hs t t' m hm hm' h r r' hr hr'
  | none =>
    have hu : unit ≠ .time := by
      rintro rfl
      simp [aggregateImbalanceBars, signedFlow] at hr
    have hn : t ≠ [] := by rw [← List.length_pos_iff]; omega
    have hn' : t' ≠ [] := by rw [← List.length_pos_iff]; omega
    obtain ⟨b, hb, _⟩ := signedFlow_ok unit hu b0 t
    obtain ⟨b', hb', _⟩ := signedFlow_ok unit hu b0 t'
    have hbt := signedFlow_take unit b0 t t' m h b b' hb hb'
    rw [imbalance_none unit minSize maxSize b0 ETInit hE TSpan bSpan t hn b hb] at hr
    rw [imbalance_none unit minSize maxSize b0 ETInit hE TSpan bSpan t' hn' b' hb',
      ← take_congr hbt (hi rfl)] at hr'
    exact C10_imbalance_no_lookahead unit minSize maxSize b0 ETInit hE _ TSpan bSpan hs t t' m hm hm' h r r' hr hr'

/-- C180, what holds for runs bars, as for imbalance bars. -/
theorem C180_runs_partial (unit : BarUnit) (minSize : K) (maxSize : Option K) (b0 : K)
    (ETInit : ℕ) (hE : 1 ≤ ETInit) (PInit EvBuyInit EvSellInit : Option K) (TSpan bSpan : Option ℕ)
    (hs : bSpan ≠ some 0) (t t' : List (Tick K)) (m : ℕ) (hm : m < t.length) (hm' : m < t'.length)
    (h : t.take m = t'.take m)
    (hi : PInit = none ∨ EvBuyInit = none ∨ EvSellInit = none → ETInit ≤ m)
    (res res' : List (Bar K) × List ℕ × List K × List (Option K))
    (hr : aggregateRunsBars unit minSize maxSize b0 ETInit PInit EvBuyInit EvSellInit TSpan bSpan t
      = .ok res)
    (hr' : aggregateRunsBars unit minSize maxSize b0 ETInit PInit EvBuyInit EvSellInit TSpan bSpan t'
      = .ok res') :
    res.2.1.take (m + 1) = res'.2.1.take (m + 1) ∧
      ∀ c, res.2.1[m]? = some c → res.1.take c = res'.1.take c := by
  refine runs_no_lookahead unit minSize maxSize b0 ETInit hE PInit EvBuyInit EvSellInit TSpan bSpan hs t t' m hm
    hm' h ?_ res res' hr hr'
  by_cases h0 : PInit = none ∨ EvBuyInit = none ∨ EvSellInit = none
  · exact Or.inr (hi h0)
  · push Not at h0
    exact Or.inl h0

/-! ## C181 -/

/-- Size of ticks `s..t`. -/
def sizeOver (q : List K) (s t : ℕ) : K := ∑ i ∈ Finset.Icc s t, |q.getD i 0|

/-- Full claim: a bar closes as soon as it reaches `max_bar_size`, so before its last tick it is smaller. -/
def ClosesAtMaxSize (K : Type) [Field K] [LinearOrder K] [IsStrictOrderedRing K] : Prop :=
  ∀ (p : LoopParams K) (eb M : K) (b : List K) (ends : List ℕ) (Ts θ thr : List K), 1 ≤ p.bSpan → b ≠ [] →
    p.maxSize = some M → p.minSize ≤ M → computeImbalanceBarSizes p eb b = .ok (ends, Ts, θ, thr) →
    ∀ j (_ : j < ends.length) (t : ℕ), startAfter (ends.take j) ≤ t → t < ends[j] →
      sizeOver b (startAfter (ends.take j)) t < M

theorem done_noclose {Θ : Type} {n : ℕ} {closed : List ℕ} {R : BarRule Θ K} (hd : GenDone R n closed)
    (j : ℕ) (hj : j < (withLast n closed).length) (t : ℕ)
    (h1 : max (startAfter ((withLast n closed).take j)) 1 ≤ t) (h2 : t < (withLast n closed)[j]) :
    ∃ thr, ¬ ClosesAt R thr (startAfter ((withLast n closed).take j)) t := by
  rcases Nat.lt_or_ge j closed.length with h | h
  · have e1 : (withLast n closed).take j = closed.take j := by
      unfold withLast
      split_ifs
      · rw [List.take_append_of_le_length h.le]
      · rfl
    have e2 : (withLast n closed)[j] = closed[j] := by
      unfold withLast
      split_ifs
      · rw [List.getElem_append_left h]
      · rfl
    obtain ⟨thr, _, hf⟩ := hd.valid j h
    rw [e1] at h1 ⊢
    rw [e2] at h2
    exact ⟨thr, hf.2.2 t h1 h2⟩
  · have hlt : startAfter closed < n := by
      by_contra hc
      rw [withLast, if_neg hc] at hj
      omega
    have e0 : withLast n closed = closed ++ [n - 1] := by rw [withLast, if_pos hlt]
    have hj' : j = closed.length := by
      rw [e0, List.length_append, List.length_singleton] at hj
      omega
    have e1 : (withLast n closed).take j = closed := by rw [e0, hj', List.take_left]
    have e2 : (withLast n closed)[j] = n - 1 := by
      have : (withLast n closed)[j]? = some (n - 1) := by rw [e0, hj']; simp
      rw [List.getElem?_eq_getElem hj] at this
      exact Option.some.inj this
    obtain ⟨thr, _, hf⟩ := hd.rest
    rw [e1] at h1 ⊢
    rw [e2] at h2
    exact ⟨thr, hf t h1 (by omega)⟩

/-- C181, what holds for imbalance bars: from tick 1 on a bar closes as soon as it reaches `max_bar_size`.
Missing: tick 0, see `C181_first_tick_counterexample`. -/
theorem C181_imbalance_partial (p : LoopParams K) (eb M : K) (b : List K) (ends : List ℕ) (Ts θ thr : List K)
    (hb : 1 ≤ p.bSpan) (hn : b ≠ []) (hM : p.maxSize = some M) (hm : p.minSize ≤ M)
    (h : computeImbalanceBarSizes p eb b = .ok (ends, Ts, θ, thr)) (j : ℕ) (hj : j < ends.length) (t : ℕ)
    (ht : startAfter (ends.take j) ≤ t) (h1 : 1 ≤ t) (h2 : t < ends[j]) :
    sizeOver b (startAfter (ends.take j)) t < M := by
  obtain ⟨cl, θ1, thr1, k1, k2, _⟩ := computeImb_spec p hb eb b hn
  rw [k1] at h
  simp only [Except.ok.injEq, Prod.mk.injEq] at h
  obtain ⟨rfl, _⟩ := h
  obtain ⟨thr, hc⟩ := done_noclose k2 j hj t (max_le ht h1) h2
  by_contra hge
  rw [not_lt] at hge
  exact hc ⟨⟨t, max_le ht h1, le_rfl, Or.inr ⟨M, hM, hge⟩⟩, hm.trans hge⟩

/-- C181, what holds for runs bars. -/
theorem C181_runs_partial (p : LoopParams K) (r : RunsInit K) (M : K) (b v : List K) (ends : List ℕ)
    (Ts θ : List K) (thr : List (Option K)) (hb : 1 ≤ p.bSpan) (hn : b ≠ []) (hv : v.length = b.length)
    (hM : p.maxSize = some M) (hm : p.minSize ≤ M)
    (h : computeRunsBarSizes p r b v = .ok (ends, Ts, θ, thr)) (j : ℕ) (hj : j < ends.length) (t : ℕ)
    (ht : startAfter (ends.take j) ≤ t) (h1 : 1 ≤ t) (h2 : t < ends[j]) :
    ∑ i ∈ Finset.Icc (startAfter (ends.take j)) t, v.getD i 0 < M := by
  rcases computeRuns_spec p hb r b v hv hn with ⟨cl, θ1, thr1, k1, k2, _⟩ | ⟨_, _, _, k1, _⟩
  swap
  · rw [k1] at h
    cases h
  rw [k1] at h
  simp only [Except.ok.injEq, Prod.mk.injEq] at h
  obtain ⟨rfl, _⟩ := h
  obtain ⟨thr, hc⟩ := done_noclose k2 j hj t (max_le ht h1) h2
  by_contra hge
  rw [not_lt] at hge
  exact hc ⟨⟨t, max_le ht h1, le_rfl, Or.inr ⟨M, hM, hge⟩⟩, hm.trans hge⟩

end

/-- Parameters of the witnesses: no limits, spans of 3. -/
def plain (minSize : ℚ) (maxSize : Option ℚ) : LoopParams ℚ :=
  { minSize := minSize, maxSize := maxSize, ETInit := 1, TSpan := none, bSpan := 3 }

theorem imb_run : computeImbalanceBarSizes (plain 0 none) 3 [1, 1, 4, 1] =
    .ok ([2, 3], [3, 1], [1, 2, 6, 1], [3, 3, 3, 3]) := by decide +kernel

/-- C179: the flow 4 of the closing tick is not in the expectation. -/
theorem C179_closing_tick_counterexample : ¬ FlowsOfPastBars ℚ := by
  intro h
  have := h _ _ _ _ _ _ _ (by decide) (by decide) imb_run 0 (by decide)
  revert this
  decide +kernel

theorem runs_run : computeRunsBarSizes (plain 0 none) ⟨1 / 2, some 22, some 22⟩ [1, 1, -1, 1, 1] [9, 1, 1, 1, 1] =
    .ok ([3, 4], [4, 1], [9, 10, 10, 11, 1], [some 11, some 11, some 11, some 11, some 3]) := by decide +kernel

/-- C179: the 9 bought at tick 0 are not in the expectation. -/
theorem C179_first_tick_counterexample : ¬ SizesOfPastBars ℚ := by
  intro h
  have := h (plain 0 none) ⟨1 / 2, some 22, some 22⟩ [1, 1, -1, 1, 1] [9, 1, 1, 1, 1] [3, 4] [4, 1]
    [9, 10, 10, 11, 1] [some 11, some 11, some 11, some 11, some 3] (by decide) (by decide) (by decide) runs_run 0
    (by decide)
  revert this
  decide +kernel

/-- Unit trades at the given prices. -/
def unitTrades (l : List ℚ) : List (Tick ℚ) := l.map fun x => ⟨0, x, 1⟩

/-- Bars and bar ids of two streams that agree on their first three ticks. -/
theorem default_runs :
    (∃ r, aggregateImbalanceBars .tick 0 none 1 4 none none none (unitTrades [1, 2, 3, 2, 1, 0]) = .ok r ∧
      r.2.1[3]? = some 1 ∧ (r.1.take 1).map Bar.close = [2]) ∧
    ∃ r, aggregateImbalanceBars .tick 0 none 1 4 none none none (unitTrades [1, 2, 3, 4, 5, 6]) = .ok r ∧
      (r.1.take 1).map Bar.close = [4] := by
  have key : ∀ {α : Type} (x : Py α) (P : α → Prop) [DecidablePred P],
      (match x with | .ok r => decide (P r) | .error _ => false) = true → ∃ r, x = .ok r ∧ P r := by
    intro α x P _ h
    cases x with
    | error e => simp at h
    | ok r => exact ⟨r, rfl, by simpa using h⟩
  exact ⟨key _ _ (by decide +kernel), key _ _ (by decide +kernel)⟩

/-- C180: two streams that agree on their first three ticks; with the default expectation the later ticks
decide whether the first bar ended at the second tick. -/
theorem C180_default_counterexample : ¬ DefaultsDoNotLookAhead ℚ := by
  intro h
  obtain ⟨⟨r, hr, h1, h2⟩, r', hr', h3⟩ := default_runs
  have := h 4 _ _ 3 r r' (by decide) (by decide) (by decide) (by decide +kernel) hr hr' 1 h1
  rw [this, h3] at h2
  revert h2
  decide +kernel

theorem max_run : computeImbalanceBarSizes (plain 0 (some 3)) 100 [5, 1, 1] =
    .ok ([1, 2], [2, 1], [5, 6, 1], [100, 100, 10]) := by decide +kernel

/-- C181: a first tick of size 5 does not close a bar of at most 3. -/
theorem C181_first_tick_counterexample : ¬ ClosesAtMaxSize ℚ := by
  intro h
  have := h _ _ 3 _ _ _ _ _ (by decide) (by decide) rfl (by decide +kernel) max_run 0 (by decide) 0 (by decide)
    (by decide)
  revert this
  decide +kernel

end FinML.Bars
