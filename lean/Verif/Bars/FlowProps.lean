import Verif.Bars.LoopProps
import Verif.Bars.EwmaProps

/-! # Properties C09 (the flow) and C152: runs bars follow their rule -/

set_option linter.unusedSectionVars false

namespace FinML.Bars

variable {K : Type} [Field K] [LinearOrder K] [IsStrictOrderedRing K]

/-- Size of a tick in the units of the bars. -/
def tickQty : BarUnit → Tick K → K
  | .time, _ => 0
  | .tick, _ => 1
  | .volume, t => t.volume
  | .dollars, t => t.price * t.volume

/-- `d` is the direction of tick `i`: that of the last price change up to it, or `b0` without one. -/
def IsDirection (b0 : K) (ticks : List (Tick K)) (i : ℕ) (d : K) : Prop :=
  (∃ (k : ℕ) (x y : Tick K), k < i ∧ ticks[k]? = some x ∧ ticks[k + 1]? = some y ∧ x.price ≠ y.price ∧
      (∀ (j : ℕ) (a b : Tick K), k < j → j < i → ticks[j]? = some a → ticks[j + 1]? = some b → a.price = b.price) ∧
      d = if x.price < y.price then 1 else -1) ∨
    ((∀ (j : ℕ) (a b : Tick K), j < i → ticks[j]? = some a → ticks[j + 1]? = some b → a.price = b.price) ∧ d = b0)

theorem tickRule_direction (b0 : K) (ticks : List (Tick K)) (i : ℕ) (hi : i < ticks.length) :
    ∃ d, (tickRule b0 (ticks.map Tick.price))[i]? = some d ∧ IsDirection b0 ticks i d := by
  obtain ⟨h1, h2, h3⟩ := C58_tick_rule_sign b0 (ticks.map Tick.price)
  by_cases hc : ∀ (j : ℕ) (hj : j < i), ticks[j + 1].price = ticks[j].price
  · refine ⟨b0, h2 i (by simpa using hi) (by simpa using hc), Or.inr ⟨?_, rfl⟩⟩
    intro j a b hj ha hb
    have := hc j hj
    rw [List.getElem?_eq_getElem (by omega)] at ha hb
    cases ha
    cases hb
    exact this.symm
  · push Not at hc
    have hex : ∃ n, ∃ (hn : n < i), ticks[i - 1 - n + 1].price ≠ ticks[i - 1 - n].price := by
      obtain ⟨j, hj, hne⟩ := hc
      refine ⟨i - 1 - j, by omega, ?_⟩
      have e : i - 1 - (i - 1 - j) = j := by omega
      simpa only [e] using hne
    classical
    obtain ⟨hn, hne⟩ := Nat.find_spec hex
    set n := Nat.find hex with hdef
    refine ⟨_, h3 (i - 1 - n) i (by omega) (by simpa using hi) (by simpa using hne) ?_, Or.inl
      ⟨i - 1 - n, ticks[i - 1 - n], ticks[i - 1 - n + 1], by omega, List.getElem?_eq_getElem _,
        List.getElem?_eq_getElem _, fun h => hne h.symm, ?_, by simp⟩⟩
    · intro j hj hji
      by_contra hcon
      have := Nat.find_min hex (m := i - 1 - j) (by omega)
      apply this
      refine ⟨by omega, ?_⟩
      have e : i - 1 - (i - 1 - j) = j := by omega
      simpa only [e, List.getElem_map] using hcon
    · intro j a b hj hji ha hb
      rw [List.getElem?_eq_getElem (by omega)] at ha hb
      cases ha
      cases hb
      by_contra hcon
      have := Nat.find_min hex (m := i - 1 - j) (by omega)
      apply this
      refine ⟨by omega, ?_⟩
      have e : i - 1 - (i - 1 - j) = j := by omega
      simp only [e]
      exact fun h => hcon h.symm

/-- C09. The flow of tick `i` is its direction times its size in the units of the bars. -/
theorem C09_flow (unit : BarUnit) (hu : unit ≠ .time) (b0 : K) (ticks : List (Tick K)) :
    ∃ b, signedFlow unit b0 ticks = .ok b ∧ b.length = ticks.length ∧
      ∀ (i : ℕ) (t : Tick K), ticks[i]? = some t →
        ∃ d, IsDirection b0 ticks i d ∧ b[i]? = some (d * tickQty unit t) := by
  obtain ⟨b, h1, h2⟩ := signedFlow_ok unit hu b0 ticks
  refine ⟨b, h1, h2, ?_⟩
  intro i t ht
  have hi : i < ticks.length := (List.getElem?_eq_some_iff.1 ht).1
  obtain ⟨d, hd, hdir⟩ := tickRule_direction b0 ticks i hi
  refine ⟨d, hdir, ?_⟩
  cases unit with
  | time => exact absurd rfl hu
  | tick => cases h1; simpa [tickQty] using hd
  | volume =>
    cases h1
    rw [List.getElem?_zipWith, hd, List.getElem?_map, ht]
    rfl
  | dollars =>
    cases h1
    rw [List.getElem?_zipWith, hd, List.getElem?_map, ht]
    rfl

example : (signedFlow .dollars (1 : ℚ) loopTicks).toOption = some [1, 2, 6, -2, 3, 4, 15] ∧
    loopTicks[3]? = some ⟨3, 2, 1⟩ := by decide +kernel

/-- C152. The ends of runs bars are the ticks chosen by the runs rule, as in C09; the theta column holds the
larger of the quantities bought and sold in the bar so far, and the threshold column the threshold in
force. -/
theorem C152_runs_rule (p : LoopParams K) (hb : 1 ≤ p.bSpan) (r : RunsInit K) (b v : List K)
    (hbv : v.length = b.length) (ends : List ℕ) (Ts θ : List K) (thr : List (Option K))
    (h : computeRunsBarSizes p r b v = .ok (ends, Ts, θ, thr)) :
    ∃ closed, ValidClosed (runsRule p r b v) closed ∧
      (∃ x, (runsRule p r b v).thrOf closed = .ok x ∧
        NoClose (runsRule p r b v) x (startAfter closed) b.length) ∧
      (∀ e ∈ closed, e < b.length) ∧
      ends = (if startAfter closed < b.length then closed ++ [b.length - 1] else closed) ∧
      Ts = (barLens 0 ends).map ((↑) : ℕ → K) ∧
      θ.length = b.length ∧ thr.length = b.length ∧
      (∀ j < b.length, θ[j]? = some (max
        (∑ i ∈ Finset.Icc (startAfter (ends.filter (· < j))) j, if 0 ≤ b.getD i 0 then v.getD i 0 else 0)
        (∑ i ∈ Finset.Icc (startAfter (ends.filter (· < j))) j, if b.getD i 0 < 0 then v.getD i 0 else 0))) ∧
      ∀ j < b.length, ∃ x, thr[j]? = some x ∧
        (runsRule p r b v).thrOf (ends.filter (· < j)) = .ok x := by
  have hn : b ≠ [] := by rintro rfl; simp [computeRunsBarSizes, runsLoop, pyGet] at h
  rcases computeRuns_spec p hb r b v hbv hn with ⟨cl, θ', thr', h1, h2, h3, h4, h5, h6⟩ | ⟨_, _, _, h1, _⟩
  · rw [h1] at h
    cases h
    exact ⟨cl, h2.valid, h2.rest, fun e he => (h2.bound e he).2, rfl, rfl, h3, h4, h5, h6⟩
  · rw [h1] at h
    cases h

/-- Ticks among the first `m` whose direction satisfies `P`. -/
def headTicks (b : List K) (m : ℕ) (P : K → Prop) [DecidablePred P] : List ℕ :=
  (List.range (min m b.length)).filter fun i => P (b.getD i 0)

/-- Mean of a quantity over ticks; NaN without any. -/
def meanOver (v : List K) (is : List ℕ) : Option K :=
  if is = [] then none else some ((is.map fun i => v.getD i 0).sum / (is.length : K))

theorem zip_take_filter (b v : List K) (hbv : v.length = b.length) (m : ℕ) (P : K → Prop) [DecidablePred P] :
    (((b.take m).zip (v.take m)).filter fun z => P z.1).map Prod.snd =
      (headTicks b m P).map fun i => v.getD i 0 := by
  have hz : (b.take m).zip (v.take m) =
      (List.range (min m b.length)).map fun i => (b.getD i 0, v.getD i 0) := by
    apply List.ext_getElem
    · simp [hbv]
    · intro i h1 h2
      simp only [List.length_zip, List.length_take] at h1
      rw [List.getElem_zip, List.getElem_map, List.getElem_range, List.getElem_take, List.getElem_take,
        List.getD_eq_getElem _ _ (by omega), List.getD_eq_getElem _ _ (by omega)]
  rw [hz, List.filter_map, List.map_map]
  rfl

theorem take_filter_length (b : List K) (m : ℕ) (P : K → Prop) [DecidablePred P] :
    ((b.take m).filter fun z => P z).length = (headTicks b m P).length := by
  have hz : b.take m = (List.range (min m b.length)).map fun i => b.getD i 0 := by
    apply List.ext_getElem
    · simp
    · intro i h1 h2
      simp only [List.length_take] at h1
      rw [List.getElem_map, List.getElem_range, List.getElem_take, List.getD_eq_getElem _ _ (by omega)]
  rw [hz, List.filter_map, List.length_map]
  rfl

theorem meanNan_map (v : List K) (is : List ℕ) : meanNan (is.map fun i => v.getD i 0) = meanOver v is := by
  unfold meanNan meanOver mean
  rw [List.length_map]
  by_cases h : is = []
  · subst h; rfl
  · rw [if_neg h, if_neg (by simpa using h)]

/-- C152. `aggregate_runs_bars` applies the rule to the tick directions and the sizes of the ticks in the
units of the bars.  Expectations that are not given come from the first `E_T_init` ticks: the share of buys,
and the mean size of the buys and of the sells. -/
theorem C152_runs_start (unit : BarUnit) (minSize : K) (maxSize : Option K) (b0 : K)
    (ETInit : ℕ) (hE : 1 ≤ ETInit) (PInit EvBuyInit EvSellInit : Option K)
    (TSpan bSpan : Option ℕ) (hs : bSpan ≠ some 0) (ticks : List (Tick K)) (hn : ticks ≠ [])
    (bars : List (Bar K)) (ids : List ℕ) (θ : List K) (thr : List (Option K))
    (h : aggregateRunsBars unit minSize maxSize b0 ETInit PInit EvBuyInit EvSellInit TSpan bSpan
      ticks = .ok (bars, ids, θ, thr)) :
    ∃ (b : List K) (ends : List ℕ) (Ts : List K), unit ≠ .time ∧ b.length = ticks.length ∧
      (∀ i < ticks.length, ∃ d, b[i]? = some d ∧ IsDirection b0 ticks i d) ∧
      computeRunsBarSizes (imbParams minSize maxSize ETInit TSpan bSpan)
        ⟨PInit.getD (((headTicks b ETInit (0 < ·)).length : K) / ((min ETInit ticks.length : ℕ) : K)),
         EvBuyInit <|> meanOver (ticks.map (tickQty unit)) (headTicks b ETInit (0 < ·)),
         EvSellInit <|> meanOver (ticks.map (tickQty unit)) (headTicks b ETInit (· < 0))⟩
        b (ticks.map (tickQty unit)) = .ok (ends, Ts, θ, thr) ∧ CutAtEnds ticks ends bars ids := by
  have hpos : 0 < ticks.length := List.length_pos_iff.2 hn
  have hlen : (tickRule b0 (ticks.map Tick.price)).length = ticks.length := by simp
  have hspan : 1 ≤ (imbParams minSize maxSize ETInit TSpan bSpan).bSpan := by
    cases bSpan with
    | none => simp; omega
    | some k => simp at hs ⊢; omega
  have hq : unit ≠ .time ∧ tradedQty unit ticks = .ok (ticks.map (tickQty unit)) := by
    cases unit with
    | time => simp [aggregateRunsBars, tradedQty] at h
    | tick => exact ⟨by decide, rfl⟩
    | volume => exact ⟨by decide, rfl⟩
    | dollars => exact ⟨by decide, rfl⟩
  unfold aggregateRunsBars at h
  rw [hq.2, py_bind_ok] at h
  have htk : ¬ (PInit = none ∧ (tickRule b0 (ticks.map Tick.price)).take ETInit = []) := by
    rintro ⟨_, h0⟩
    have := congrArg List.length h0
    rw [List.length_take, List.length_nil] at this
    omega
  simp only [if_neg htk, py_bind_eq_ok, py_pure, Except.ok.injEq] at h
  obtain ⟨⟨ends, Ts, θ', thr'⟩, h1, ids', h2, bars', h3, h4⟩ := h
  cases h4
  have hvl : (ticks.map (tickQty unit)).length = (tickRule b0 (ticks.map Tick.price)).length := by
    rw [hlen, List.length_map]
  refine ⟨tickRule b0 (ticks.map Tick.price), ends, Ts, hq.1, hlen, fun i hi => tickRule_direction b0 ticks i hi, ?_, ?_⟩
  · rw [← h1]
    congr 2
    · rw [take_filter_length, List.length_take, hlen]
    · rw [zip_take_filter _ _ hvl, meanNan_map]
      cases EvBuyInit <;> rfl
    · rw [zip_take_filter _ _ hvl ETInit (· < 0), meanNan_map]
      cases EvSellInit <;> rfl
  · rcases computeRuns_spec _ hspan _ (tickRule b0 (ticks.map Tick.price)) (ticks.map (tickQty unit)) hvl
      (by rw [← List.length_pos_iff]; omega) with ⟨cl, θ1, thr1, k1, k2, _⟩ | ⟨_, _, _, k1, _⟩
    · rw [k1] at h1
      cases h1
      have htile := k2.tiles (by omega)
      rw [hlen] at htile
      obtain ⟨bars1, hid, hb1, hcut⟩ := htile.cut hn
      rw [hlen] at h2
      rw [hid] at h2
      cases h2
      rw [hb1] at h3
      cases h3
      rw [hlen]
      exact hcut
    · rw [k1] at h1
      cases h1

example : (aggregateRunsBars (K := ℚ) .volume 0 none 1 5 none none none none none (loopTicks ++ loopTicks)).toOption.map
    (fun r => (r.2.1.take 6, r.2.2.1.take 6, r.2.2.2.take 1)) =
      some ([0, 0, 0, 0, 0, 1], [1, 2, 4, 4, 5, 1], [some 5]) := by decide +kernel

end FinML.Bars
