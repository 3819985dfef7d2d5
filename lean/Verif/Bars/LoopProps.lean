import Verif.Bars.Causal
import Verif.Bars.Props

/-! # Properties C07-C12 and C125: imbalance and runs bars -/

set_option linter.unusedSectionVars false

namespace FinML.Bars

variable {K : Type} [Field K] [LinearOrder K] [IsStrictOrderedRing K]

/-- Bar ends that tile ticks `0..n-1`: strictly increasing, the last one is the last tick, and the
bars have positive lengths adding to `n`. -/
structure TilesTicks (n : ℕ) (ends : List ℕ) : Prop where
  inc : ends.Pairwise (· < ·)
  last : ends.getLast? = some (n - 1)
  pos : ∀ T ∈ barLens 0 ends, 0 < T
  total : (barLens 0 ends).sum = n

/-- Everything a user sees of the cut: the bars are those of the consecutive pieces given by `ends`
and the bar id of a tick is the number of bars that ended before it. -/
structure CutAtEnds (ticks : List (Tick K)) (ends : List ℕ) (bars : List (Bar K)) (ids : List ℕ) :
    Prop where
  tiles : TilesTicks ticks.length ends
  cut : IsCut ticks (cutLens (barLens 0 ends) ticks) bars
  len : ids.length = ticks.length
  ids : ∀ i < ticks.length, ids[i]? = some (ends.filter (· < i)).length

theorem GenDone.tiles {Θ : Type} {R : BarRule Θ K} {n : ℕ} (hn : 0 < n) {cl : List ℕ}
    (h : GenDone R n cl) : TilesTicks n (withLast n cl) := by
  have hi := withLast_inc (n := n) h.inc
  have hl := withLast_getLast hn (fun e he => (h.bound e he).2)
  refine ⟨hi, hl, barLens_pos 0 _ hi (by simp), ?_⟩
  have := barLens_sum 0 _ hi (by simp)
  rw [hl] at this
  simp only [zero_add] at this
  omega

theorem TilesTicks.cut {ticks : List (Tick K)} (hn : ticks ≠ []) {ends : List ℕ}
    (h : TilesTicks ticks.length ends) :
    ∃ bars, computeTickBarId ticks.length ends = .ok ((List.range ticks.length).map (barOf ends)) ∧
      groupTicksToBars ((List.range ticks.length).map (barOf ends)) ticks = .ok bars ∧
      CutAtEnds ticks ends bars ((List.range ticks.length).map (barOf ends)) := by
  obtain ⟨bars, hb, hc⟩ := bars_of_ends ticks ends h.inc h.last hn
  refine ⟨bars, computeTickBarId_spec _ _ h.inc h.last, hb, h, hc, by simp, ?_⟩
  intro i hi
  simp [hi, barOf]

/-! ### The signed flow -/

theorem signedFlow_ok (unit : BarUnit) (hu : unit ≠ .time) (b0 : K) (ticks : List (Tick K)) :
    ∃ b, signedFlow unit b0 ticks = .ok b ∧ b.length = ticks.length := by
  cases unit with
  | time => exact absurd rfl hu
  | tick => exact ⟨_, rfl, by simp⟩
  | volume => exact ⟨_, rfl, by simp⟩
  | dollars => exact ⟨_, rfl, by simp⟩

theorem signedFlow_take (unit : BarUnit) (b0 : K) (t t' : List (Tick K)) (m : ℕ)
    (h : t.take m = t'.take m) (b b' : List K) (hb : signedFlow unit b0 t = .ok b)
    (hb' : signedFlow unit b0 t' = .ok b') : b.take m = b'.take m := by
  have hp : (tickRule b0 (t.map Tick.price)).take m = (tickRule b0 (t'.map Tick.price)).take m := by
    rw [tickRule_take, tickRule_take, ← List.map_take, ← List.map_take, h]
  cases unit with
  | time => cases hb
  | tick => cases hb; cases hb'; exact hp
  | volume =>
    cases hb; cases hb'
    rw [List.take_zipWith, List.take_zipWith, hp, ← List.map_take, ← List.map_take, h]
  | dollars =>
    cases hb; cases hb'
    rw [List.take_zipWith, List.take_zipWith, hp, ← List.map_take, ← List.map_take, h]

/-! ## C07 -/

/-- Parameters of the loop built by `aggregate_imblance_bars`. -/
abbrev imbParams (minSize : K) (maxSize : Option K) (ETInit : ℕ) (TSpan bSpan : Option ℕ) :
    LoopParams K :=
  { minSize := minSize, maxSize := maxSize, ETInit := (ETInit : K), TSpan := TSpan,
    bSpan := bSpan.getD (3 * ETInit) }

/-- C07.  For every non-empty tick stream, unit and parameters (spans at least 1 or the default, an
expected bar length of at least 1) `aggregate_imblance_bars` returns; the bar ends it uses tile the
ticks and the bars are those of the consecutive pieces.  The bar ends, theta and threshold are
those of `_compute_imbalance_bar_sizes` on the signed flow, described by C08 and C09. -/
theorem C07_imbalance_bars_cover (unit : BarUnit) (hu : unit ≠ .time) (minSize : K)
    (maxSize : Option K) (b0 : K) (ETInit : ℕ) (hE : 1 ≤ ETInit) (absEbInit : Option K)
    (TSpan bSpan : Option ℕ) (hs : bSpan ≠ some 0) (ticks : List (Tick K)) (hn : ticks ≠ []) :
    ∃ b bars ids ends Ts θ thr, signedFlow unit b0 ticks = .ok b ∧
      computeImbalanceBarSizes (imbParams minSize maxSize ETInit TSpan bSpan)
        (absEbInit.getD |mean (b.take ETInit)|) b = .ok (ends, Ts, θ, thr) ∧
      aggregateImbalanceBars unit minSize maxSize b0 ETInit absEbInit TSpan bSpan ticks =
        .ok (bars, ids, θ, thr) ∧
      CutAtEnds ticks ends bars ids := by
  obtain ⟨b, hb, hlen⟩ := signedFlow_ok unit hu b0 ticks
  have hpos : 0 < ticks.length := List.length_pos_iff.2 hn
  have hbn : b ≠ [] := by rw [← List.length_pos_iff]; omega
  have hspan : 1 ≤ (imbParams minSize maxSize ETInit TSpan bSpan).bSpan := by
    cases bSpan with
    | none => simp; omega
    | some k => simp at hs ⊢; omega
  obtain ⟨cl, θ, thr, h1, h2, h3⟩ := computeImb_spec
    (imbParams minSize maxSize ETInit TSpan bSpan) hspan (absEbInit.getD |mean (b.take ETInit)|) b hbn
  have htile := h2.tiles (by omega)
  rw [hlen] at htile h1
  obtain ⟨bars, hid, hbars, hcut⟩ := htile.cut hn
  refine ⟨b, bars, _, _, _, θ, thr, hb, h1, ?_, hcut⟩
  unfold aggregateImbalanceBars
  rw [hb, py_bind_ok]
  have htk : ¬ (absEbInit = none ∧ b.take ETInit = []) := by
    rintro ⟨_, h0⟩
    have := congrArg List.length h0
    rw [List.length_take, List.length_nil] at this
    omega
  simp only [if_neg htk, h1, py_bind_ok, hid, hbars, py_pure]

/-- Ticks of the examples: prices up, up, down, up, up, up. -/
def loopTicks : List (Tick ℚ) :=
  [⟨0, 1, 1⟩, ⟨1, 2, 1⟩, ⟨2, 3, 2⟩, ⟨3, 2, 1⟩, ⟨4, 3, 1⟩, ⟨5, 4, 1⟩, ⟨6, 5, 3⟩]

example : (1 : ℕ) ≤ 2 ∧ (none : Option ℕ) ≠ some 0 ∧ loopTicks ≠ [] ∧
    (aggregateImbalanceBars .tick 0 none 1 2 none none none loopTicks).toOption.map
      (fun r => r.2.1) = some [0, 0, 1, 1, 1, 1, 2] := by decide +kernel

/-! ## C08 -/

/-- C08.  Every imbalance bar but the last has accumulated size at least `min_bar_size`, and the
same holds for runs bars whenever the call returns. -/
theorem C08_min_bar_size (p : LoopParams K) (hb : 1 ≤ p.bSpan) :
    (∀ (eb : K) (b : List K) ends Ts θ thr,
      computeImbalanceBarSizes p eb b = .ok (ends, Ts, θ, thr) →
      ∀ j (h : j + 1 < ends.length),
        p.minSize ≤ ∑ i ∈ Finset.Icc (startAfter (ends.take j)) ends[j], |b.getD i 0|) ∧
    (∀ (r : RunsInit K) (b v : List K) ends Ts θ thr, v.length = b.length →
      computeRunsBarSizes p r b v = .ok (ends, Ts, θ, thr) →
      ∀ j (h : j + 1 < ends.length),
        p.minSize ≤ ∑ i ∈ Finset.Icc (startAfter (ends.take j)) ends[j], v.getD i 0) := by
  have key : ∀ {Θ : Type} (R : BarRule Θ K) (n : ℕ) (cl : List ℕ), GenDone R n cl →
      ∀ j (h : j + 1 < (withLast n cl).length),
        R.minSize ≤ R.size (startAfter ((withLast n cl).take j)) (withLast n cl)[j] := by
    intro Θ R n cl hd j h
    have hjc : j < cl.length := by
      unfold withLast at h
      split at h
      · simp at h; exact h
      · omega
    have h1 : (withLast n cl).take j = cl.take j := by
      unfold withLast
      split
      · rw [List.take_append_of_le_length (by omega)]
      · rfl
    have h2 : (withLast n cl)[j] = cl[j] := by
      have : (withLast n cl)[j]? = cl[j]? := by
        unfold withLast
        split
        · rw [List.getElem?_append_left hjc]
        · rfl
      rw [List.getElem?_eq_getElem (by omega), List.getElem?_eq_getElem hjc] at this
      exact Option.some.inj this
    obtain ⟨thr, _, hf⟩ := hd.valid j hjc
    rw [h1, h2]
    exact hf.2.1.2
  constructor
  · intro eb b ends Ts θ thr he
    have hbn : b ≠ [] := by rintro rfl; simp [computeImbalanceBarSizes, imbLoop, pyGet] at he
    obtain ⟨cl, θ', thr', h1, h2, _⟩ := computeImb_spec p hb eb b hbn
    rw [h1] at he
    cases he
    exact key _ _ _ h2
  · intro r b v ends Ts θ thr hbv he
    have hbn : b ≠ [] := by rintro rfl; simp [computeRunsBarSizes, runsLoop, pyGet] at he
    rcases computeRuns_spec p hb r b v hbv hbn with ⟨cl, θ', thr', h1, h2, _⟩ | ⟨_, _, _, h1, _⟩
    · rw [h1] at he
      cases he
      exact key _ _ _ h2
    · rw [h1] at he; cases he

example : (computeImbalanceBarSizes (K := ℚ) ⟨3, none, 1, none, 2⟩ 1 [1, 1, 1, -1, -1, 1, 1]).toOption.map
    (fun r => r.1) = some [2, 6] := by decide +kernel

/-! ## C09 -/

/-- C09.  The bar ends are exactly the ticks chosen by the rule: starting from the tick after the
previous end, a bar closes at the first tick (after tick 0) where the trigger has fired in this bar
and the size is at least the minimum; a remaining open bar that never closes by the rule is ended
by the last tick.  The theta and threshold columns hold the absolute flow accumulated in the bar and
the threshold in force. -/
theorem C09_imbalance_rule (p : LoopParams K) (hb : 1 ≤ p.bSpan) (eb : K) (b : List K)
    (hn : b ≠ []) :
    ∃ closed ends Ts θ thr, computeImbalanceBarSizes p eb b = .ok (ends, Ts, θ, thr) ∧
      ValidClosed (imbRule p eb b) closed ∧
      (∃ x, (imbRule p eb b).thrOf closed = .ok x ∧
        NoClose (imbRule p eb b) x (startAfter closed) b.length) ∧
      (∀ e ∈ closed, e < b.length) ∧
      ends = (if startAfter closed < b.length then closed ++ [b.length - 1] else closed) ∧
      Ts = (barLens 0 ends).map ((↑) : ℕ → K) ∧
      θ.length = b.length ∧ thr.length = b.length ∧
      (∀ j < b.length, θ[j]? =
        some |∑ i ∈ Finset.Icc (startAfter (ends.filter (· < j))) j, b.getD i 0|) ∧
      ∀ j < b.length, ∃ x, thr[j]? = some x ∧
        (imbRule p eb b).thrOf (ends.filter (· < j)) = .ok x := by
  obtain ⟨cl, θ, thr, h1, h2, h3, h4, h5, h6⟩ := computeImb_spec p hb eb b hn
  exact ⟨cl, _, _, θ, thr, h1, h2.valid, h2.rest, fun e he => (h2.bound e he).2, rfl, rfl, h3, h4,
    h5, h6⟩

/-- C09.  The rule leaves no choice: the closed bars are determined by it. -/
theorem C09_rule_deterministic (p : LoopParams K) (eb : K) (b : List K) (thr : K) (s e e' : ℕ)
    (h : FirstClose (imbRule p eb b) thr s e) (h' : FirstClose (imbRule p eb b) thr s e') :
    e = e' := h.unique h'

example : 1 ≤ (2 : ℕ) ∧
    (computeImbalanceBarSizes (K := ℚ) ⟨0, some 4, 2, none, 2⟩ 1 [1, 1, -1, 1, 1, 1, 1]).toOption
      = some ([1, 5, 6], [2, 4, 1], [1, 2, 1, 0, 1, 2, 1], [2, 2, 2, 2, 2, 2, 721 / 242]) := by
  decide +kernel

/-! ## C10 -/

/-- C10.  With an explicit initial expectation, two tick streams that agree on their first `m` ticks
get the same bar ids for ticks `0..m`, the same theta and threshold values for the first `m` ticks,
and the same bars closed before tick `m`. -/
theorem C10_imbalance_no_lookahead (unit : BarUnit) (minSize : K) (maxSize : Option K) (b0 : K)
    (ETInit : ℕ) (hE : 1 ≤ ETInit) (eb : K) (TSpan bSpan : Option ℕ) (hs : bSpan ≠ some 0)
    (t t' : List (Tick K)) (m : ℕ) (hm : m < t.length) (hm' : m < t'.length)
    (h : t.take m = t'.take m) (r r' : List (Bar K) × List ℕ × List K × List K)
    (hr : aggregateImbalanceBars unit minSize maxSize b0 ETInit (some eb) TSpan bSpan t = .ok r)
    (hr' : aggregateImbalanceBars unit minSize maxSize b0 ETInit (some eb) TSpan bSpan t' = .ok r') :
    r.2.1.take (m + 1) = r'.2.1.take (m + 1) ∧ r.2.2.1.take m = r'.2.2.1.take m ∧
      r.2.2.2.take m = r'.2.2.2.take m ∧
      ∀ c, r.2.1[m]? = some c → r.1.take c = r'.1.take c := by
  have hu : unit ≠ .time := by
    rintro rfl
    simp [aggregateImbalanceBars, signedFlow] at hr
  have hn : t ≠ [] := by rw [← List.length_pos_iff]; omega
  have hn' : t' ≠ [] := by rw [← List.length_pos_iff]; omega
  obtain ⟨b, bars, ids, ends, Ts, θ, thr, f1, f2, f3, f4⟩ := C07_imbalance_bars_cover unit hu minSize
    maxSize b0 ETInit hE (some eb) TSpan bSpan hs t hn
  obtain ⟨b', bars', ids', ends', Ts', θ', thr', g1, g2, g3, g4⟩ := C07_imbalance_bars_cover unit hu
    minSize maxSize b0 ETInit hE (some eb) TSpan bSpan hs t' hn'
  rw [f3] at hr; cases hr
  rw [g3] at hr'; cases hr'
  have hbt := signedFlow_take unit b0 t t' m h b b' f1 g1
  have hlen : b.length = t.length := by
    obtain ⟨c, hc, hcl⟩ := signedFlow_ok unit hu b0 t
    rw [f1] at hc; cases hc; exact hcl
  have hlen' : b'.length = t'.length := by
    obtain ⟨c, hc, hcl⟩ := signedFlow_ok unit hu b0 t'
    rw [g1] at hc; cases hc; exact hcl
  have hspan : 1 ≤ (imbParams minSize maxSize ETInit TSpan bSpan).bSpan := by
    cases bSpan with
    | none => simp; omega
    | some k => simp at hs ⊢; omega
  simp only [Option.getD_some] at f2 g2
  obtain ⟨cl, θ1, thr1, h1, h2, h3, h4, h5, h6⟩ := computeImb_spec _ hspan eb b
    (by rw [← List.length_pos_iff]; omega)
  obtain ⟨cl', θ1', thr1', k1, k2, k3, k4, k5, k6⟩ := computeImb_spec _ hspan eb b'
    (by rw [← List.length_pos_iff]; omega)
  rw [h1] at f2; cases f2
  rw [k1] at g2; cases g2
  have hag := imbRule_agree (imbParams minSize maxSize ETInit TSpan bSpan) eb b b' m hbt
  have hE1 := causal hag (by omega) (by omega) h2 k2
  have hE2 : (withLast b.length cl).filter (· < m) = (withLast b'.length cl').filter (· < m) := by
    rw [withLast_filter (by omega), withLast_filter (by omega)]; exact hE1
  have hat : ∀ i < m, at' b i = at' b' i := fun i hi => at'_congr hbt hi
  have hflt : ∀ j < m, (withLast b.length cl).filter (· < j) =
      (withLast b'.length cl').filter (· < j) := by
    intro j hj
    have := congrArg (List.filter (· < j)) hE2
    rw [List.filter_filter, List.filter_filter] at this
    have hf : (fun a => decide (a < j) && decide (a < m)) = (fun a : ℕ => decide (a < j)) := by
      ext a; by_cases h : a < j
      · have : a < m := by omega
        simp [h, this]
      · simp [h]
    rwa [hf] at this
  refine ⟨?_, ?_, ?_, ?_⟩
  · apply List.ext_getElem?
    intro i
    by_cases hi : i < m + 1
    · rw [List.getElem?_take_of_lt hi, List.getElem?_take_of_lt hi, f4.ids i (by omega),
        g4.ids i (by omega)]
      exact congrArg some (barOf_congr hE2 (by omega))
    · rw [List.getElem?_take_eq_none (by omega), List.getElem?_take_eq_none (by omega)]
  · apply List.ext_getElem?
    intro i
    by_cases hi : i < m
    · rw [List.getElem?_take_of_lt hi, List.getElem?_take_of_lt hi, h5 i (by omega), k5 i (by omega),
        hflt i hi, sumOver_congr hat _ i hi]
    · rw [List.getElem?_take_eq_none (by omega), List.getElem?_take_eq_none (by omega)]
  · apply List.ext_getElem?
    intro i
    by_cases hi : i < m
    · rw [List.getElem?_take_of_lt hi, List.getElem?_take_of_lt hi]
      obtain ⟨x, hx1, hx2⟩ := h6 i (by omega)
      obtain ⟨y, hy1, hy2⟩ := k6 i (by omega)
      rw [hx1, hy1]
      rw [hag.thrOf _ (by
        intro e he
        have := (List.mem_filter.1 he).2
        simp at this; omega), hflt i hi, hy2] at hx2
      cases hx2; rfl
    · rw [List.getElem?_take_eq_none (by omega), List.getElem?_take_eq_none (by omega)]
  · intro c hc
    rw [f4.ids m hm] at hc
    cases hc
    exact bars_take_eq h f4.tiles.inc g4.tiles.inc hE2 f4.cut.bars g4.cut.bars

example : loopTicks.take 5 = (loopTicks.take 5 ++ [(⟨9, 1, 1⟩ : Tick ℚ), ⟨10, 7, 7⟩]).take 5 ∧
    ((aggregateImbalanceBars .tick 0 none 1 2 (some (1/2)) none none loopTicks).toOption.map
      fun r => r.2.1) = some [0, 0, 1, 1, 1, 1, 2] ∧
    ((aggregateImbalanceBars .tick 0 none 1 2 (some (1/2)) none none
      (loopTicks.take 5 ++ [⟨9, 1, 1⟩, ⟨10, 7, 7⟩])).toOption.map
      fun r => r.2.1) = some [0, 0, 1, 1, 1, 1, 1] := by decide +kernel

/-! ## C11 -/

/-- Initial expectations of the runs loop, from the first directions `b` and quantities `v` where they are
not given. -/
def startInit (PInit EvBuyInit EvSellInit : Option K) (b v : List K) : RunsInit K :=
  ⟨PInit.getD ((((b.filter (0 < ·)).length : ℕ) : K) / (b.length : K)),
   match EvBuyInit with
    | some x => some x
    | none => meanNan (((b.zip v).filter fun z => 0 < z.1).map Prod.snd),
   match EvSellInit with
    | some x => some x
    | none => meanNan (((b.zip v).filter fun z => z.1 < 0).map Prod.snd)⟩

/-- Parameters of the loop built by `aggregate_runs_bars` (same shape). -/
theorem runs_unfold (unit : BarUnit) (minSize : K) (maxSize : Option K) (b0 : K) (ETInit : ℕ)
    (PInit EvBuyInit EvSellInit : Option K) (TSpan bSpan : Option ℕ) (ticks : List (Tick K))
    (res : List (Bar K) × List ℕ × List K × List (Option K))
    (h : aggregateRunsBars unit minSize maxSize b0 ETInit PInit EvBuyInit EvSellInit TSpan bSpan
      ticks = .ok res) :
    ∃ v r ends Ts, tradedQty unit ticks = .ok v ∧
      computeRunsBarSizes (imbParams minSize maxSize ETInit TSpan bSpan) r
        (tickRule b0 (ticks.map Tick.price)) v = .ok (ends, Ts, res.2.2.1, res.2.2.2) ∧
      computeTickBarId ticks.length ends = .ok res.2.1 ∧
      groupTicksToBars res.2.1 ticks = .ok res.1 ∧
      r = startInit PInit EvBuyInit EvSellInit ((tickRule b0 (ticks.map Tick.price)).take ETInit)
        (v.take ETInit) := by
  unfold aggregateRunsBars at h
  simp only [py_bind_eq_ok] at h
  obtain ⟨v, hv, h⟩ := h
  split at h
  · simp at h
  · simp only [py_bind_eq_ok, py_pure, Except.ok.injEq] at h
    obtain ⟨⟨ends, Ts, θ, thr⟩, h1, ids, h2, bars, h3, rfl⟩ := h
    exact ⟨v, _, ends, Ts, hv, h1, h2, h3, rfl⟩

theorem tradedQty_length {unit : BarUnit} {ticks : List (Tick K)} {v : List K}
    (h : tradedQty unit ticks = .ok v) : v.length = ticks.length := by
  cases unit <;> cases h <;> simp

theorem tradedQty_take {unit : BarUnit} {t t' : List (Tick K)} {v v' : List K} {m : ℕ}
    (ht : t.take m = t'.take m) (h : tradedQty unit t = .ok v) (h' : tradedQty unit t' = .ok v') :
    v.take m = v'.take m := by
  cases unit <;> cases h <;> cases h' <;> rw [← List.map_take, ← List.map_take, ht]

/-- C11.  Whenever `aggregate_runs_bars` returns on a non-empty stream, the bar ends it uses tile the
ticks, the bars are those of the consecutive pieces, no bar but the last is smaller than
`min_bar_size`, and the ends are the ticks chosen by the runs rule. -/
theorem C11_runs_bars_cover (unit : BarUnit) (minSize : K) (maxSize : Option K) (b0 : K)
    (ETInit : ℕ) (hE : 1 ≤ ETInit) (PInit EvBuyInit EvSellInit : Option K)
    (TSpan bSpan : Option ℕ) (hs : bSpan ≠ some 0) (ticks : List (Tick K)) (hn : ticks ≠ [])
    (bars : List (Bar K)) (ids : List ℕ) (θ : List K) (thr : List (Option K))
    (h : aggregateRunsBars unit minSize maxSize b0 ETInit PInit EvBuyInit EvSellInit TSpan bSpan
      ticks = .ok (bars, ids, θ, thr)) :
    ∃ v r ends closed, tradedQty unit ticks = .ok v ∧ CutAtEnds ticks ends bars ids ∧
      (∀ j (h : j + 1 < ends.length),
        minSize ≤ ∑ i ∈ Finset.Icc (startAfter (ends.take j)) ends[j], v.getD i 0) ∧
      ValidClosed (runsRule (imbParams minSize maxSize ETInit TSpan bSpan) r
        (tickRule b0 (ticks.map Tick.price)) v) closed ∧
      (∃ x, (runsRule (imbParams minSize maxSize ETInit TSpan bSpan) r
          (tickRule b0 (ticks.map Tick.price)) v).thrOf closed = .ok x ∧
        NoClose (runsRule (imbParams minSize maxSize ETInit TSpan bSpan) r
          (tickRule b0 (ticks.map Tick.price)) v) x (startAfter closed) ticks.length) ∧
      ends = (if startAfter closed < ticks.length then closed ++ [ticks.length - 1] else closed) := by
  have hpos : 0 < ticks.length := List.length_pos_iff.2 hn
  obtain ⟨v, r, ends, Ts, h1, h2, h3, h4, _⟩ := runs_unfold _ _ _ _ _ _ _ _ _ _ _ _ h
  have hspan : 1 ≤ (imbParams minSize maxSize ETInit TSpan bSpan).bSpan := by
    cases bSpan with
    | none => simp; omega
    | some k => simp at hs ⊢; omega
  have hlen : (tickRule b0 (ticks.map Tick.price)).length = ticks.length := by simp
  have hvl := tradedQty_length h1
  have hmin := (C08_min_bar_size _ hspan).2 r _ v ends Ts _ _ (by omega) h2
  rcases computeRuns_spec _ hspan r (tickRule b0 (ticks.map Tick.price)) v (by omega)
    (by rw [← List.length_pos_iff]; omega) with ⟨cl, θ', thr', k1, k2, _⟩ | ⟨_, _, _, k1, _⟩
  · rw [k1] at h2
    cases h2
    have htile := k2.tiles (by omega)
    rw [hlen] at htile
    obtain ⟨bars', hid, hb', hcut⟩ := htile.cut hn
    rw [hlen] at h3
    rw [hid] at h3
    cases h3
    rw [hb'] at h4
    cases h4
    refine ⟨v, r, _, cl, h1, ?_, hmin, k2.valid, ?_, ?_⟩
    · rw [hlen]; exact hcut
    · have := k2.rest; rwa [hlen] at this
    · rw [hlen]; rfl
  · rw [k1] at h2; cases h2

/-- Bars closed within the first `m` ticks do not depend on later ticks if the initial expectations are
given or come from these ticks. -/
theorem runs_no_lookahead (unit : BarUnit) (minSize : K) (maxSize : Option K) (b0 : K)
    (ETInit : ℕ) (hE : 1 ≤ ETInit) (PInit EvBuyInit EvSellInit : Option K) (TSpan bSpan : Option ℕ)
    (hs : bSpan ≠ some 0) (t t' : List (Tick K)) (m : ℕ) (hm : m < t.length) (hm' : m < t'.length)
    (h : t.take m = t'.take m)
    (hi : (PInit ≠ none ∧ EvBuyInit ≠ none ∧ EvSellInit ≠ none) ∨ ETInit ≤ m)
    (res res' : List (Bar K) × List ℕ × List K × List (Option K))
    (hr : aggregateRunsBars unit minSize maxSize b0 ETInit PInit EvBuyInit EvSellInit TSpan bSpan t
      = .ok res)
    (hr' : aggregateRunsBars unit minSize maxSize b0 ETInit PInit EvBuyInit EvSellInit TSpan bSpan t'
      = .ok res') :
    res.2.1.take (m + 1) = res'.2.1.take (m + 1) ∧
      ∀ c, res.2.1[m]? = some c → res.1.take c = res'.1.take c := by
  obtain ⟨bars0, ids0, θ0, thr0⟩ := res
  obtain ⟨bars0', ids0', θ0', thr0'⟩ := res'
  have hspan : 1 ≤ (imbParams minSize maxSize ETInit TSpan bSpan).bSpan := by
    cases bSpan with
    | none => simp; omega
    | some k => simp at hs ⊢; omega
  obtain ⟨v, r, ends, Ts, h1, h2, h3, h4, h5⟩ := runs_unfold _ _ _ _ _ _ _ _ _ _ _ _ hr
  obtain ⟨v', r', ends', Ts', g1, g2, g3, g4, g5⟩ := runs_unfold _ _ _ _ _ _ _ _ _ _ _ _ hr'
  have hn : t ≠ [] := by rw [← List.length_pos_iff]; omega
  have hn' : t' ≠ [] := by rw [← List.length_pos_iff]; omega
  have hvl := tradedQty_length h1
  have hvl' := tradedQty_length g1
  have hlen : (tickRule b0 (t.map Tick.price)).length = t.length := by simp
  have hlen' : (tickRule b0 (t'.map Tick.price)).length = t'.length := by simp
  have hbt : (tickRule b0 (t.map Tick.price)).take m = (tickRule b0 (t'.map Tick.price)).take m := by
    rw [tickRule_take, tickRule_take, ← List.map_take, ← List.map_take, h]
  have hvt := tradedQty_take h h1 g1
  have hrr : r = r' := by
    rw [h5, g5]
    rcases hi with ⟨i1, i2, i3⟩ | hi
    · obtain ⟨P, rfl⟩ := Option.ne_none_iff_exists'.1 i1
      obtain ⟨x, rfl⟩ := Option.ne_none_iff_exists'.1 i2
      obtain ⟨y, rfl⟩ := Option.ne_none_iff_exists'.1 i3
      rfl
    · rw [take_congr hbt hi, take_congr hvt hi]
  subst hrr
  rcases computeRuns_spec _ hspan r (tickRule b0 (t.map Tick.price)) v (by omega)
    (by rw [← List.length_pos_iff]; omega) with ⟨cl, θ1, thr1, k1, k2, _⟩ | ⟨_, _, _, k1, _⟩
  swap
  · rw [k1] at h2; cases h2
  rcases computeRuns_spec _ hspan r (tickRule b0 (t'.map Tick.price)) v' (by omega)
    (by rw [← List.length_pos_iff]; omega) with ⟨cl', θ1', thr1', j1, j2, _⟩ | ⟨_, _, _, j1, _⟩
  swap
  · rw [j1] at g2; cases g2
  rw [k1] at h2
  rw [j1] at g2
  simp only [Except.ok.injEq, Prod.mk.injEq] at h2 g2
  have hag := runsRule_agree (imbParams minSize maxSize ETInit TSpan bSpan) r _ v _ v' m hbt hvt
  have hE1 := causal hag (by omega) (by omega) k2 j2
  have hE2 : ends.filter (· < m) = ends'.filter (· < m) := by
    rw [← h2.1, ← g2.1, withLast_filter (by omega), withLast_filter (by omega)]; exact hE1
  have htile := k2.tiles (by omega)
  have htile' := j2.tiles (by omega)
  rw [h2.1, hlen] at htile
  rw [g2.1, hlen'] at htile'
  obtain ⟨bars1, hid, hb1, f4⟩ := htile.cut hn
  obtain ⟨bars1', hid', hb1', f4'⟩ := htile'.cut hn'
  rw [h3] at hid
  rw [g3] at hid'
  cases hid
  cases hid'
  rw [h4] at hb1
  rw [g4] at hb1'
  cases hb1
  cases hb1'
  constructor
  · apply List.ext_getElem?
    intro i
    by_cases hi : i < m + 1
    · rw [List.getElem?_take_of_lt hi, List.getElem?_take_of_lt hi, f4.ids i (by omega),
        f4'.ids i (by omega)]
      exact congrArg some (barOf_congr hE2 (by omega))
    · rw [List.getElem?_take_eq_none (by omega), List.getElem?_take_eq_none (by omega)]
  · intro c hc
    rw [f4.ids m hm] at hc
    cases hc
    exact bars_take_eq h f4.tiles.inc f4'.tiles.inc hE2 f4.cut.bars f4'.cut.bars

/-- C11.  With explicit initial expectations, bars closed within the first `m` ticks, and the bar
ids of ticks `0..m`, do not depend on ticks from `m` on. -/
theorem C11_runs_no_lookahead (unit : BarUnit) (minSize : K) (maxSize : Option K) (b0 : K)
    (ETInit : ℕ) (hE : 1 ≤ ETInit) (P x y : K) (TSpan bSpan : Option ℕ) (hs : bSpan ≠ some 0)
    (t t' : List (Tick K)) (m : ℕ) (hm : m < t.length) (hm' : m < t'.length)
    (h : t.take m = t'.take m) (res res' : List (Bar K) × List ℕ × List K × List (Option K))
    (hr : aggregateRunsBars unit minSize maxSize b0 ETInit (some P) (some x) (some y) TSpan bSpan t
      = .ok res)
    (hr' : aggregateRunsBars unit minSize maxSize b0 ETInit (some P) (some x) (some y) TSpan bSpan t'
      = .ok res') :
    res.2.1.take (m + 1) = res'.2.1.take (m + 1) ∧
      ∀ c, res.2.1[m]? = some c → res.1.take c = res'.1.take c := by
  exact runs_no_lookahead unit minSize maxSize b0 ETInit hE (some P) (some x) (some y) TSpan bSpan hs t t' m hm
    hm' h (Or.inl ⟨by simp, by simp, by simp⟩) res res' hr hr'

example : (aggregateRunsBars .volume 5 none 1 1 (some (1/2)) (some 3) (some 3) none none
    (loopTicks ++ loopTicks)).toOption.map (fun r => r.2.1) =
      some [0, 0, 0, 0, 1, 1, 1, 1, 1, 2, 2, 2, 2, 2] := by decide +kernel

/-! ## C12 -/

/-- Full statement of C12: with default parameters every non-empty stream yields bars. -/
def RunsBarsTotal (K : Type) [Field K] [LinearOrder K] : Prop :=
  ∀ (ETInit : ℕ), 1 ≤ ETInit → ∀ ticks : List (Tick K), ticks ≠ [] →
    ∃ r, aggregateRunsBars .tick 0 none 1 ETInit none none none none none ticks = .ok r

/-- C12 fails: on a rising price the first bar closes before any sell is seen, and the call raises
IndexError. -/
theorem C12_runs_bars_total_counterexample : ¬ RunsBarsTotal ℚ := by
  intro h
  obtain ⟨r, hr⟩ := h 2 (by decide) [⟨0, 1, 1⟩, ⟨1, 2, 1⟩, ⟨2, 3, 1⟩] (by decide)
  have : aggregateRunsBars (K := ℚ) .tick 0 none 1 2 none none none none none
      [⟨0, 1, 1⟩, ⟨1, 2, 1⟩, ⟨2, 3, 1⟩] = .error .indexError := by decide +kernel
  rw [this] at hr
  cases hr

theorem buyVols_eq_nil (b v : List K) (e : ℕ) :
    buyVols b v e = [] ↔ ∀ i, 1 ≤ i → i ≤ e → b.getD i 0 < 0 := by
  unfold buyVols
  rw [List.map_eq_nil_iff, List.filter_eq_nil_iff]
  constructor
  · intro h i h1 h2
    have := h i (by rw [List.mem_range'_1]; omega)
    simpa [at'] using this
  · intro h i hi
    rw [List.mem_range'_1] at hi
    have := h i (by omega) (by omega)
    simpa [at'] using this

theorem sellVols_eq_nil (b v : List K) (e : ℕ) :
    sellVols b v e = [] ↔ ∀ i, 1 ≤ i → i ≤ e → 0 ≤ b.getD i 0 := by
  unfold sellVols
  rw [List.map_eq_nil_iff, List.filter_eq_nil_iff]
  constructor
  · intro h i h1 h2
    have := h i (by rw [List.mem_range'_1]; omega)
    simpa [at'] using this
  · intro h i hi
    rw [List.mem_range'_1] at hi
    have := h i (by omega) (by omega)
    simpa [at'] using this

/-- C12, what does hold (missing: totality).  The runs computation fails exactly if the first bar
closes at a tick `e` such that ticks `1..e` are all buys or all sells; the error is IndexError.  On
all other non-empty streams it returns. -/
theorem C12_runs_bars_failure_partial (p : LoopParams K) (hb : 1 ≤ p.bSpan) (r : RunsInit K)
    (b v : List K) (hbv : v.length = b.length) (hn : b ≠ []) :
    ((∃ e < b.length, FirstClose (runsRule p r b v) (initThr p r) 0 e ∧
        ((∀ i, 1 ≤ i → i ≤ e → 0 ≤ b.getD i 0) ∨ (∀ i, 1 ≤ i → i ≤ e → b.getD i 0 < 0))) →
      computeRunsBarSizes p r b v = .error .indexError) ∧
    (¬ (∃ e < b.length, FirstClose (runsRule p r b v) (initThr p r) 0 e ∧
        ((∀ i, 1 ≤ i → i ≤ e → 0 ≤ b.getD i 0) ∨ (∀ i, 1 ≤ i → i ≤ e → b.getD i 0 < 0))) →
      ∃ res, computeRunsBarSizes p r b v = .ok res) := by
  have hthr1 : ∀ e, (runsRule p r b v).thrOf [e] =
      if buyVols b v e = [] ∨ sellVols b v e = [] then .error .indexError
        else .ok (some (runsThr p b v [e] e)) := fun e => rfl
  rcases computeRuns_spec p hb r b v hbv hn with ⟨cl, θ, thr, h1, h2, _⟩ | ⟨e, cl, thr, h1, h2, h3, h4, h5, h6⟩
  · refine ⟨?_, fun _ => ⟨_, h1⟩⟩
    rintro ⟨e, he, hf, hside⟩
    exfalso
    have hbad : buyVols b v e = [] ∨ sellVols b v e = [] := by
      rw [buyVols_eq_nil, sellVols_eq_nil]
      exact hside.symm
    cases cl with
    | nil =>
      obtain ⟨x, hx, hno⟩ := h2.rest
      cases hx
      exact hno e hf.1 he hf.2.1
    | cons a cl =>
      obtain ⟨x, hx, hfa⟩ := h2.valid 0 (by simp)
      cases hx
      have hae : a = e := hfa.unique hf
      subst hae
      have hok : ∃ y, (runsRule p r b v).thrOf [a] = .ok y := by
        cases cl with
        | nil => obtain ⟨y, hy, _⟩ := h2.rest; exact ⟨y, hy⟩
        | cons c cl => obtain ⟨y, hy, _⟩ := h2.valid 1 (by simp); exact ⟨y, hy⟩
      obtain ⟨y, hy⟩ := hok
      rw [hthr1, if_pos hbad] at hy
      cases hy
  · refine ⟨fun _ => h1, fun hno => ?_⟩
    exfalso
    apply hno
    have hbad : buyVols b v e = [] ∨ sellVols b v e = [] := by
      simp only [runsRule, List.getLast?_append, List.getLast?_singleton, Option.some_or] at h6
      by_contra hc
      rw [if_neg hc] at h6
      cases h6
    rcases List.eq_nil_or_concat cl with rfl | ⟨Q, a, rfl⟩
    · cases h4
      refine ⟨e, h2, h5, ?_⟩
      rw [buyVols_eq_nil, sellVols_eq_nil] at hbad
      exact hbad.symm
    · exfalso
      rw [List.concat_eq_append] at *
      have hgood : ¬ (buyVols b v a = [] ∨ sellVols b v a = []) := by
        intro hc
        simp only [runsRule, List.getLast?_append, List.getLast?_singleton, Option.some_or] at h4
        rw [if_pos hc] at h4
        cases h4
      have hae : a ≤ e := by
        have := h5.1
        rw [startAfter_snoc] at this
        omega
      apply hgood
      rw [buyVols_eq_nil, sellVols_eq_nil] at hbad ⊢
      rcases hbad with hbad | hbad
      · exact Or.inl fun i h1 h2 => hbad i h1 (by omega)
      · exact Or.inr fun i h1 h2 => hbad i h1 (by omega)

example : computeRunsBarSizes (K := ℚ) ⟨0, none, 1, none, 3⟩ ⟨1, some 1, none⟩ [1, 1, 1] [1, 1, 1] =
      .error .indexError ∧
    (computeRunsBarSizes (K := ℚ) ⟨0, none, 3, none, 3⟩ ⟨1, some 1, none⟩ [1, -1, 1, 1] [1, 1, 1, 1]).toOption.map
      (fun r => r.1) = some [3] := by decide +kernel

/-! ## C125 -/

/-- Full statement of C125: passing 0 for `b_ewma_span` means the default, as documented. -/
def ZeroSpanIsDefault (K : Type) [Field K] [LinearOrder K] [IsStrictOrderedRing K] : Prop :=
  ∀ (ETInit : ℕ) (ticks : List (Tick K)), 1 ≤ ETInit → ticks ≠ [] →
    aggregateImbalanceBars .tick 0 none 1 ETInit none none (some 0) ticks =
      aggregateImbalanceBars .tick 0 none 1 ETInit none none none ticks

/-- C125 fails: 0 is taken as a span of 0, which raises ZeroDivisionError at the first bar closing
after tick 1. -/
theorem C125_zero_span_counterexample : ¬ ZeroSpanIsDefault ℚ := by
  intro h
  have := h 3 [⟨0, 1, 1⟩, ⟨1, 2, 1⟩, ⟨2, 3, 1⟩, ⟨3, 2, 1⟩] (by decide) (by decide)
  have h1 : aggregateImbalanceBars (K := ℚ) .tick 0 none 1 3 none none (some 0)
      [⟨0, 1, 1⟩, ⟨1, 2, 1⟩, ⟨2, 3, 1⟩, ⟨3, 2, 1⟩] = .error .zeroDivision := by decide +kernel
  have h2 : (aggregateImbalanceBars (K := ℚ) .tick 0 none 1 3 none none none
      [⟨0, 1, 1⟩, ⟨1, 2, 1⟩, ⟨2, 3, 1⟩, ⟨3, 2, 1⟩]).toOption.isSome = true := by decide +kernel
  rw [← this, h1] at h2
  cases h2

/-- C125, what does hold (missing: the value 0): leaving the span out is the same as passing
`3 * E_T_init`. -/
theorem C125_default_span_partial (unit : BarUnit) (minSize : K) (maxSize : Option K) (b0 : K)
    (ETInit : ℕ) (eb : Option K) (TSpan : Option ℕ) (ticks : List (Tick K)) :
    aggregateImbalanceBars unit minSize maxSize b0 ETInit eb TSpan none ticks =
      aggregateImbalanceBars unit minSize maxSize b0 ETInit eb TSpan (some (3 * ETInit)) ticks := rfl

/-- C125, the failure in general: with span 0 every iteration that closes a bar at tick 2 or later
raises ZeroDivisionError. -/
theorem C125_zero_span_raises_partial (p : LoopParams K) (hb : p.bSpan = 0) (b : List K)
    (s : ImbState K) (i : ℕ) (hi : 2 ≤ i) (hib : i < b.length)
    (hc : s.threshold ≤ |s.theta + b.getD i 0| ∨ ReachesMax p.maxSize (s.size + |b.getD i 0|) ∨
      s.padding = true) (hs : p.minSize ≤ s.size + |b.getD i 0|) :
    imbStep p b s i = .error .zeroDivision := by
  have hget : b[i]? = some (b.getD i 0) := by
    rw [List.getD_eq_getElem _ _ hib, List.getElem?_eq_getElem hib]
  have hpy : pyGet b i = .ok (b.getD i 0) := (pyGet_eq_ok_iff _ _ _).2 hget
  unfold imbStep
  rw [hpy, py_bind_ok]
  rw [← geMax_iff] at hc
  simp only [if_pos hc, if_neg (not_lt.2 hs)]
  have hET := fastEwma_last (s.Ts ++ [((i - s.start + 1 : ℕ) : K)])
    (effTSpan p.TSpan (s.Ts ++ [((i - s.start + 1 : ℕ) : K)]).length)
    (by rw [effTSpan_eq]; exact lenSpan_pos _ _ (by simp)) (by simp)
  rw [hET, py_bind_ok, hb]
  obtain ⟨x, y, l, hl⟩ : ∃ x y l, b.take i = x :: y :: l := by
    match hb' : b.take i with
    | [] =>
      have := congrArg List.length hb'
      rw [List.length_take, min_eq_left hib.le, List.length_nil] at this
      omega
    | [x] =>
      have := congrArg List.length hb'
      rw [List.length_take, min_eq_left hib.le, List.length_singleton] at this
      omega
    | x :: y :: l => exact ⟨x, y, l, rfl⟩
  have hz : (1 : K) + (1 - 2 / ((0 : ℕ) + 1)) ^ 1 = 0 := by norm_num
  rw [hl]
  simp only [Nat.zero_min, fastEwma, ewmaAdjLoop, hz, if_true]
  rfl

example : ((imbInit (K := ℚ) ⟨0, none, 1, none, 0⟩ 1 1).threshold ≤ |1 + (1 : ℚ)|) ∧
    imbStep (K := ℚ) ⟨0, none, 1, none, 0⟩ [1, 1, 1] (imbInit ⟨0, none, 1, none, 0⟩ 1 1) 2 =
      .error .zeroDivision := by decide +kernel

end FinML.Bars
