import Verif.Filters.Model
import Verif.Micro.Model
import Verif.Py.GroupBy
import Verif.TimeSeries.EwmModel
import Verif.TimeSeries.Props

/-!
# Features of rolling windows: no look ahead, finite memory (C253)

`hull_ma`, `high_low_volatility`, `corwin_schultz_spread`, `tick_rule`, `volume_synchronized_pin` and the daily
returns.
-/

namespace FinML.Micro

open FinML.Bars FinML.TimeSeries

variable {α β γ : Type}

/-- Values already reported stay when observations are appended. -/
def Causal (f : List α → List β) : Prop := ∀ l more, (f (l ++ more)).take l.length = f l

/-- From the `L`-th observation of a piece on, the values do not depend on what came before the piece. -/
def Memory (L : ℕ) (f : List α → List β) : Prop :=
  ∀ pre l, (f (pre ++ l)).drop (pre.length + (L - 1)) = (f l).drop (L - 1)

/-- One value per observation. -/
def Aligned (f : List α → List β) : Prop := ∀ l, (f l).length = l.length

theorem Causal.split {f : List α → List β} (h : Causal f) (l more : List α) :
    f (l ++ more) = f l ++ (f (l ++ more)).drop l.length := by
  conv_lhs => rw [← List.take_append_drop l.length (f (l ++ more)), h l more]

theorem Causal.comp {f : List α → List β} {g : List β → List γ} (hf : Causal f) (ha : Aligned f)
    (hg : Causal g) : Causal (fun l => g (f l)) := by
  intro l more
  have := hg (f l) ((f (l ++ more)).drop l.length)
  rw [← hf.split, ha] at this
  exact this

theorem Memory.comp {L M : ℕ} {f : List α → List β} {g : List β → List γ} (hL : 1 ≤ L) (hM : 1 ≤ M)
    (hf : Memory L f) (ha : Aligned f) (hg : Memory M g) (hb : Aligned g) :
    Memory (L + M - 1) (fun l => g (f l)) := by
  intro pre l
  by_cases hl : l.length < L - 1
  · rw [List.drop_eq_nil_of_le (by rw [hb, ha, List.length_append]; omega),
      List.drop_eq_nil_of_le (by rw [hb, ha]; omega)]
  have h1 := hg ((f (pre ++ l)).take (pre.length + (L - 1))) ((f (pre ++ l)).drop (pre.length + (L - 1)))
  have h2 := hg ((f l).take (L - 1)) ((f l).drop (L - 1))
  rw [List.take_append_drop, List.length_take, ha, List.length_append, min_eq_left (by omega)] at h1
  rw [List.take_append_drop, List.length_take, ha, min_eq_left (by omega)] at h2
  rw [hf pre l] at h1
  have e1 : pre.length + (L + M - 1 - 1) = pre.length + (L - 1) + (M - 1) := by omega
  have e2 : L + M - 1 - 1 = L - 1 + (M - 1) := by omega
  show (g (f (pre ++ l))).drop _ = (g (f l)).drop _
  rw [e1, e2, h1, h2]

theorem aligned_map (f : α → β) : Aligned (fun l : List α => l.map f) := fun l => by simp

theorem causal_map (f : α → β) : Causal (fun l : List α => l.map f) := by
  intro l more
  simp

theorem memory_map (f : α → β) : Memory 1 (fun l : List α => l.map f) := by
  intro pre l
  simp [← List.map_drop]

theorem aligned_zipWith {δ : Type} {f : List α → List β} {g : List α → List γ} (op : β → γ → δ) (hf : Aligned f)
    (hg : Aligned g) : Aligned (fun l => List.zipWith op (f l) (g l)) := by
  intro l
  simp [hf l, hg l]

theorem causal_zipWith {δ : Type} {f : List α → List β} {g : List α → List γ} (op : β → γ → δ) (hf : Causal f)
    (hg : Causal g) : Causal (fun l => List.zipWith op (f l) (g l)) := by
  intro l more
  show (List.zipWith op (f (l ++ more)) (g (l ++ more))).take _ = _
  rw [List.take_zipWith, hf, hg]

theorem memory_mono {L M : ℕ} {f : List α → List β} (hf : Memory L f) (h : L ≤ M) : Memory M f := by
  intro pre l
  have e1 : pre.length + (M - 1) = pre.length + (L - 1) + (M - 1 - (L - 1)) := by omega
  have e2 : M - 1 = L - 1 + (M - 1 - (L - 1)) := by omega
  rw [e1, ← List.drop_drop, hf pre l, List.drop_drop, ← e2]

theorem memory_zipWith {δ : Type} {L : ℕ} {f : List α → List β} {g : List α → List γ} (op : β → γ → δ)
    (hf : Memory L f) (hg : Memory L g) : Memory L (fun l => List.zipWith op (f l) (g l)) := by
  intro pre l
  show (List.zipWith op (f (pre ++ l)) (g (pre ++ l))).drop _ = _
  rw [List.drop_zipWith, hf, hg, ← List.drop_zipWith]

theorem aligned_rolling (w : ℕ) (agg : List α → β) : Aligned (rolling w agg) := fun l => by simp [rolling]

theorem causal_rolling (w : ℕ) (agg : List α → β) : Causal (rolling w agg) := by
  intro l more
  unfold rolling
  rw [← List.map_take, List.take_range, List.length_append, min_eq_left (by omega)]
  apply List.map_congr_left
  intro i hi
  have hi := List.mem_range.1 hi
  unfold rollAt
  by_cases h : i + 1 < w
  · rw [if_pos h, if_pos h]
  have : ((l ++ more).drop (i + 1 - w)).take w = (l.drop (i + 1 - w)).take w := by
    rw [List.drop_append_of_le_length (by omega), List.take_append_of_le_length (by simp; omega)]
  rw [this]

theorem memory_rolling (w : ℕ) (hw : 1 ≤ w) (agg : List α → β) : Memory w (rolling w agg) := by
  intro pre l
  apply List.ext_getElem?
  intro i
  rw [List.getElem?_drop, List.getElem?_drop]
  unfold rolling
  rw [List.getElem?_map, List.getElem?_map]
  by_cases hi : w - 1 + i < l.length
  · rw [List.getElem?_range (by simp; omega), List.getElem?_range hi, Option.map_some, Option.map_some]
    congr 1
    unfold rollAt
    rw [if_neg (show ¬ (pre.length + (w - 1) + i + 1 < w) by omega),
      if_neg (show ¬ (w - 1 + i + 1 < w) by omega)]
    have : (pre ++ l).drop (pre.length + (w - 1) + i + 1 - w) = l.drop (w - 1 + i + 1 - w) := by
      rw [List.drop_append, List.drop_eq_nil_of_le (by omega), List.nil_append]
      congr 1
      omega
    rw [this]
  · rw [List.getElem?_eq_none (by simp; omega), List.getElem?_eq_none (by simp; omega)]
    rfl

/-- C253, Hull average: reported values stay, and a value depends on the last `n + ⌊√n⌋ - 1` observations only. -/
theorem C253_hull {K : Type} [Field K] [LinearOrder K] (n : ℕ) (hn : 2 ≤ n) :
    ∃ f : List K → List (Option K), (∀ l, FinML.Filters.hullMa l n = .ok (f l)) ∧ Aligned f ∧ Causal f ∧
      Memory (n + Nat.sqrt n - 1) f := by
  have hsq : 1 ≤ Nat.sqrt n := Nat.sqrt_pos.2 (by omega)
  have hx := aligned_map (some : K → Option K)
  have hcs := (causal_map (some : K → Option K)).comp hx (causal_rolling (n / 2) (FinML.Filters.meanW (n / 2)))
  have hcl := (causal_map (some : K → Option K)).comp hx (causal_rolling n (FinML.Filters.meanW n))
  have has : Aligned (fun l : List K => rolling (n / 2) (FinML.Filters.meanW (n / 2)) (l.map some)) := fun l => by
    rw [aligned_rolling, List.length_map]
  have hal : Aligned (fun l : List K => rolling n (FinML.Filters.meanW n) (l.map some)) := fun l => by
    rw [aligned_rolling, List.length_map]
  have hms := (memory_map (some : K → Option K)).comp le_rfl (by omega) hx
    (memory_rolling (n / 2) (by omega) (FinML.Filters.meanW (n / 2))) (aligned_rolling _ _)
  have hml := (memory_map (some : K → Option K)).comp le_rfl (by omega) hx
    (memory_rolling n (by omega) (FinML.Filters.meanW n)) (aligned_rolling _ _)
  refine ⟨fun l => rolling (Nat.sqrt n) (FinML.Filters.meanW (Nat.sqrt n)) (zipO (fun s l => 2 * s - l)
    (rolling (n / 2) (FinML.Filters.meanW (n / 2)) (l.map some)) (rolling n (FinML.Filters.meanW n) (l.map some))),
    ?_, ?_, ?_, ?_⟩
  · intro l
    unfold FinML.Filters.hullMa
    rw [if_neg (by omega)]
  · intro l
    rw [aligned_rolling]
    exact aligned_zipWith _ has hal l
  · exact (causal_zipWith _ hcs hcl).comp (aligned_zipWith _ has hal) (causal_rolling _ _)
  · refine Memory.comp (by omega) hsq (memory_zipWith _ (memory_mono hms (by omega)) (memory_mono hml (by omega)))
      (aligned_zipWith _ has hal) (memory_rolling _ hsq _) (aligned_rolling _ _)

/-- C253, range volatility: reported values stay, and a value depends on the bars of its window only. -/
theorem C253_high_low (window : ℕ) (hw : 1 ≤ window) :
    Aligned (fun bars => highLowVol bars window) ∧ Causal (fun bars => highLowVol bars window) ∧
      Memory window (fun bars => highLowVol bars window) := by
  have ha : Aligned (fun bars : List HL => rolling window (meanW window) (bars.map hlSq)) := fun l => by
    rw [aligned_rolling, List.length_map]
  refine ⟨?_, ?_, ?_⟩
  · intro l
    simp only [highLowVol, List.length_map]
    exact ha l
  · exact ((causal_map hlSq).comp (aligned_map _) (causal_rolling _ _)).comp ha (causal_map _)
  · have := ((memory_map hlSq).comp le_rfl hw (aligned_map _) (memory_rolling window hw (meanW window))
      (aligned_rolling _ _)).comp (by omega) le_rfl ha (memory_map (Option.map fun m => Real.sqrt (m / (4 * Real.log 2))))
      (aligned_map _)
    exact memory_mono this (by omega)

theorem aligned_beta (window : ℕ) : Aligned (fun bars => beta bars window) := fun l => by
  show (rolling _ _ _).length = _
  rw [aligned_rolling, aligned_rolling, List.length_map]

theorem causal_beta (window : ℕ) : Causal (fun bars => beta bars window) := by
  have := ((causal_map fun b : HL => hlRatioSq b.high b.low).comp (aligned_map _) (causal_rolling 2 List.sum)).comp
    (fun l => by rw [aligned_rolling, List.length_map]) (causal_rolling window (meanW window))
  exact this

theorem memory_beta (window : ℕ) (hw : 1 ≤ window) : Memory (window + 1) (fun bars => beta bars window) := by
  have := ((memory_map fun b : HL => hlRatioSq b.high b.low).comp le_rfl (by omega) (aligned_map _)
    (memory_rolling 2 (by omega) List.sum) (aligned_rolling _ _)).comp (by omega) hw
    (fun l => by rw [aligned_rolling, List.length_map]) (memory_rolling window hw (meanW window))
    (aligned_rolling _ _)
  exact memory_mono this (by omega)

theorem aligned_pair (agg : List ℝ → ℝ) (f : HL → Option ℝ) :
    Aligned (fun bars : List HL => rolling 2 agg (bars.map f)) := fun l => by
  rw [aligned_rolling, List.length_map]

theorem aligned_gamma : Aligned gamma :=
  aligned_zipWith _ (aligned_pair maxL fun b => some b.high) (aligned_pair minL fun b => some b.low)

theorem causal_gamma : Causal gamma :=
  causal_zipWith _ ((causal_map fun b : HL => some b.high).comp (aligned_map _) (causal_rolling 2 maxL))
    ((causal_map fun b : HL => some b.low).comp (aligned_map _) (causal_rolling 2 minL))

theorem memory_gamma : Memory 2 gamma :=
  memory_zipWith _ ((memory_map fun b : HL => some b.high).comp le_rfl (by omega) (aligned_map _)
      (memory_rolling 2 (by omega) maxL) (aligned_rolling _ _))
    ((memory_map fun b : HL => some b.low).comp le_rfl (by omega) (aligned_map _)
      (memory_rolling 2 (by omega) minL) (aligned_rolling _ _))

theorem rowsOf_prefix {f : List HL → List (Option ℝ)} (ha : Aligned f) (hf : Causal f) {index index' : List ℤ}
    {bars bars' : List HL} (hl : index.length = bars.length) :
    rowsOf index (f bars) <+: rowsOf (index ++ index') (f (bars ++ bars')) := by
  unfold rowsOf
  rw [hf.split, List.zip_append (by rw [ha, hl]), List.filterMap_append]
  exact List.prefix_append _ _

theorem zipWith_prefix {δ : Type} (op : α → β → δ) {a a' : List α} {b b' : List β} (ha : a <+: a') (hb : b <+: b')
    (h : a.length = b.length) : List.zipWith op a b <+: List.zipWith op a' b' := by
  obtain ⟨r, rfl⟩ := ha
  obtain ⟨s, rfl⟩ := hb
  rw [List.zipWith_append h]
  exact List.prefix_append _ _

/-- C253, Corwin–Schultz: the rows reported for the bars so far, their start times included, stay when bars are
added; spread and volatility depend on the last `window + 1` bars only. -/
theorem C253_corwin_schultz (window : ℕ) (hw : 1 ≤ window) :
    (∀ (index index' : List ℤ) (bars bars' : List HL), index.length = bars.length →
      spreadTable index bars window <+: spreadTable (index ++ index') (bars ++ bars') window ∧
      volTable index bars window <+: volTable (index ++ index') (bars ++ bars') window) ∧
    Memory (window + 1) (fun bars => spreadCol bars window) ∧ Memory (window + 1) (fun bars => volCol bars window) := by
  have hg : Memory (window + 1) gamma := memory_mono memory_gamma (by omega)
  have aa : Aligned (fun bars : List HL => zipO alphaOf (beta bars window) (gamma bars)) :=
    aligned_zipWith _ (aligned_beta window) aligned_gamma
  refine ⟨?_, ?_, memory_zipWith _ (memory_beta window hw) hg⟩
  · intro index index' bars bars' hl
    have h1 : rowsOf index (spreadCol bars window) <+: rowsOf (index ++ index') (spreadCol (bars ++ bars') window) :=
      rowsOf_prefix (f := fun bars => spreadCol bars window)
        (fun l => by simp only [spreadCol, List.length_map]; exact aa l)
        ((causal_zipWith _ (causal_beta window) causal_gamma).comp aa (causal_map _)) hl
    refine ⟨?_, rowsOf_prefix (f := fun bars => volCol bars window)
      (aligned_zipWith _ (aligned_beta window) aligned_gamma)
      (causal_zipWith _ (causal_beta window) causal_gamma) hl⟩
    unfold spreadTable
    have hle : (rowsOf index (spreadCol bars window)).length ≤ index.length := by
      unfold rowsOf
      refine (List.length_filterMap_le _ _).trans ?_
      rw [List.length_zip]
      omega
    refine zipWith_prefix _ h1 ?_ (by rw [List.length_take]; omega)
    obtain ⟨r, hr⟩ := h1
    rw [← hr, List.length_append, ← List.take_append_of_le_length (l₂ := index') hle,
      ← min_eq_left (Nat.le_add_right (rowsOf index (spreadCol bars window)).length r.length), ← List.take_take,
      min_eq_left (Nat.le_add_right _ _)]
    exact List.take_prefix _ _
  · have := (memory_zipWith _ (memory_beta window hw) hg).comp (by omega) le_rfl aa (memory_map (Option.map spreadOf))
      (aligned_map _)
    exact memory_mono this (by omega)

section Ticks

variable {K : Type} [Field K] [LinearOrder K]

theorem tickRuleFrom_append (prev p : K) (l more : List K) :
    tickRuleFrom prev p l <+: tickRuleFrom prev p (l ++ more) := by
  induction l generalizing prev p with
  | nil => exact List.nil_prefix
  | cons q l ih =>
    simp only [List.cons_append, tickRuleFrom]
    exact (List.prefix_cons_inj _).2 (ih _ _)

theorem tickRuleFrom_length (prev p : K) (l : List K) : (tickRuleFrom prev p l).length = l.length := by
  induction l generalizing prev p with
  | nil => rfl
  | cons q l ih => simp only [tickRuleFrom, List.length_cons, ih]

theorem tickRule_prefix (b0 : K) (l more : List K) : tickRule b0 l <+: tickRule b0 (l ++ more) := by
  cases l with
  | nil => exact List.nil_prefix
  | cons p ps => exact (List.prefix_cons_inj _).2 (tickRuleFrom_append _ _ _ _)

theorem tickRule_aligned (b0 : K) : Aligned (tickRule b0) := by
  intro l
  cases l with
  | nil => rfl
  | cons p ps => simp only [tickRule, List.length_cons, tickRuleFrom_length]

/-- C253, tick rule: reported directions stay when ticks are added. -/
theorem C253_tick_rule (b0 : K) : Aligned (tickRule b0) ∧ Causal (tickRule b0) := by
  refine ⟨tickRule_aligned b0, ?_⟩
  intro l more
  obtain ⟨r, hr⟩ := tickRule_prefix b0 l more
  rw [← hr, ← tickRule_aligned b0 l, List.take_left']
  rfl

theorem groupBy_append {ι δ : Type} [LinearOrder ι] (ids ids' : List ι) (xs xs' : List δ)
    (h : ids.length = xs.length) (hlt : ∀ a ∈ ids, ∀ b ∈ ids', a < b) :
    groupBy (ids ++ ids') (xs ++ xs') = groupBy ids xs ++ groupBy ids' xs' := by
  have hk : groupKeys (ids ++ ids') = groupKeys ids ++ groupKeys ids' := by
    refine sorted_ext (groupKeys_lt _) ?_ ?_
    · rw [List.pairwise_append]
      refine ⟨groupKeys_lt _, groupKeys_lt _, ?_⟩
      intro a ha b hb
      exact hlt a ((mem_groupKeys _ _).1 ha) b ((mem_groupKeys _ _).1 hb)
    · intro a
      simp [mem_groupKeys]
  rw [groupBy_def, groupBy_def, groupBy_def, hk, List.map_append, List.zip_append h]
  congr 1
  · apply List.map_congr_left
    intro k hk
    have hk := (mem_groupKeys _ _).1 hk
    rw [List.filter_append, (List.filter_eq_nil_iff (l := ids'.zip xs')).2, List.append_nil]
    intro p hp
    have := hlt k hk p.1 (List.of_mem_zip hp).1
    simpa using this.ne'
  · apply List.map_congr_left
    intro k hk
    have hk := (mem_groupKeys _ _).1 hk
    rw [List.filter_append, (List.filter_eq_nil_iff (l := ids.zip xs)).2, List.nil_append]
    intro p hp
    have := hlt p.1 (List.of_mem_zip hp).1 k hk
    simpa using this.ne

/-- C253, VPIN: the values of the bars so far stay when ticks of later bars are added. -/
theorem C253_vpin (ticks more : List (BTick K)) (volumePerBar : K) (n : ℕ) (b0 : K)
    (h : ∀ a ∈ ticks, ∀ b ∈ more, a.bar < b.bar) :
    vpin ticks volumePerBar n b0 <+: vpin (ticks ++ more) volumePerBar n b0 := by
  obtain ⟨r, hr⟩ := tickRule_prefix b0 (ticks.map fun t => t.price) (more.map fun t => t.price)
  have hlen : ticks.length = (tickRule b0 (ticks.map fun t => t.price)).length := by
    rw [tickRule_aligned, List.length_map]
  have hnet : List.zipWith netVolume (ticks ++ more) (tickRule b0 ((ticks ++ more).map fun t => t.price)) =
      List.zipWith netVolume ticks (tickRule b0 (ticks.map fun t => t.price)) ++ List.zipWith netVolume more r := by
    rw [List.map_append, ← hr, List.zipWith_append hlen]
  have hg := groupBy_append (ticks.map fun t => t.bar) (more.map fun t => t.bar)
    (List.zipWith netVolume ticks (tickRule b0 (ticks.map fun t => t.price))) (List.zipWith netVolume more r)
    (by rw [List.length_map, List.length_zipWith, ← hlen, min_self])
    (by
      intro a ha b hb
      obtain ⟨t, ht, rfl⟩ := List.mem_map.1 ha
      obtain ⟨u, hu, rfl⟩ := List.mem_map.1 hb
      exact h t ht u hu)
  simp only [vpin]
  rw [hnet, List.map_append (f := fun t : BTick K => t.bar), hg]
  generalize groupBy (ticks.map fun t => t.bar) _ = g
  generalize groupBy (more.map fun t => t.bar) _ = g'
  rw [List.map_append, List.map_append, (causal_rolling n List.sum).split, List.map_append,
    List.zip_append (by rw [List.length_map, List.length_map, aligned_rolling, List.length_map])]
  exact List.prefix_append _ _

end Ticks

section Daily

theorem searchLeft_append (l more : List ℤ) (v : ℤ) (h : ∀ b ∈ more, v ≤ b) :
    searchLeft (l ++ more) v = searchLeft l v := by
  induction l with
  | nil =>
    cases more with
    | nil => rfl
    | cons b more =>
      have := h b (by simp)
      simp [searchLeft, this]
  | cons a l ih => rw [List.cons_append, searchLeft_cons, searchLeft_cons, ih]

theorem dayPairs_prefix {index more : List ℤ} (hs : (index ++ more).Pairwise (· < ·)) (b : Bool) :
    dayPairs index b <+: dayPairs (index ++ more) b := by
  have hs' := List.pairwise_append.1 hs
  rw [dayPairs_eq _ hs, dayPairs_eq _ hs'.1, List.filter_append, List.map_append]
  have hsl : ∀ t ∈ index, searchLeft (index ++ more) (t - day) = searchLeft index (t - day) := by
    intro t ht
    apply searchLeft_append
    intro c hc
    have := hs'.2.2 t ht c hc
    unfold day
    omega
  have hlt : ∀ t ∈ index, searchLeft index (t - day) < index.length := by
    intro t ht
    rw [searchLeft_lt_length_iff _ (hs'.1.imp le_of_lt)]
    exact ⟨t, ht, by unfold day; omega⟩
  have hf : index.filter (fun t => decide (0 < searchLeft (index ++ more) (t - day))) =
      index.filter (fun t => decide (0 < searchLeft index (t - day))) := by
    apply List.filter_congr
    intro t ht
    rw [hsl t ht]
  rw [hf]
  refine ⟨_, congrArg (· ++ _) (List.map_congr_left ?_)⟩
  intro t ht
  have ht := List.mem_of_mem_filter ht
  rw [hsl t ht]
  have := hlt t ht
  congr 1
  rw [List.getD_append]
  split <;> omega

theorem closeAt_append {K : Type} (close more : List (ℤ × K)) (t : ℤ) (ht : t ∈ close.map Prod.fst) :
    closeAt (close ++ more) t = closeAt close t := by
  unfold closeAt
  rw [List.find?_append]
  cases hf : close.find? (fun p => decide (p.1 = t)) with
  | none =>
    rw [List.find?_eq_none] at hf
    obtain ⟨q, hq, hqt⟩ := List.mem_map.1 ht
    exact absurd hqt (by simpa using hf q hq)
  | some q => rfl

theorem mem_dayPairs {index : List ℤ} (hs : index.Pairwise (· < ·)) {b : Bool} {p : ℤ × ℤ}
    (hp : p ∈ dayPairs index b) : p.1 ∈ index ∧ p.2 ∈ index := by
  have h1 : p.1 ∈ (dayPairs index b).map Prod.fst := List.mem_map.2 ⟨p, hp, rfl⟩
  cases b with
  | true =>
    have h2 := C31_intraday_pairs _ hs
    exact ⟨h2.1.1.subset h1, (h2.2 p hp).1.1.1⟩
  | false =>
    have h2 := C31_daily_pairs_partial _ hs
    exact ⟨h2.1.1.subset h1, (h2.2 p hp).1.1.1⟩

theorem mapM_prefix {δ ε : Type} (f g : δ → Py ε) (a b : List δ) (u v : List ε) (hfg : ∀ x ∈ a, f x = g x)
    (hu : a.mapM f = .ok u) (hv : (a ++ b).mapM g = .ok v) : u <+: v := by
  rw [mapM_eq_ok_iff] at hu hv
  induction hu generalizing v with
  | nil => exact List.nil_prefix
  | cons h _ ih =>
    rw [List.cons_append] at hv
    cases hv with
    | cons h' t' =>
      rw [hfg _ (by simp), h'] at h
      cases h
      exact (List.prefix_cons_inj _).2 (ih _ (fun x hx => hfg x (by simp [hx])) t')

/-- C253, daily returns: reported returns stay when bars are added. -/
theorem C253_daily_returns {K : Type} [Field K] [LinearOrder K] {close more : List (ℤ × K)}
    (hs : ((close ++ more).map Prod.fst).Pairwise (· < ·)) (isIntraday : Bool) {v v' : List (Option K)}
    (h : dailyReturns close isIntraday = .ok v) (h' : dailyReturns (close ++ more) isIntraday = .ok v') :
    v <+: v' := by
  rw [List.map_append] at hs
  unfold dailyReturns at h h'
  obtain ⟨r, hr⟩ := dayPairs_prefix hs isIntraday
  rw [List.map_append, ← hr] at h'
  refine mapM_prefix _ _ _ _ _ _ ?_ h h'
  intro p hp
  have hm := mem_dayPairs (List.pairwise_append.1 hs).1 hp
  rw [closeAt_append close more p.1 hm.1, closeAt_append close more p.2 hm.2]

theorem ewmRun_prefix (q : ℝ) (s : EwmState) (l more : List (Option ℝ)) :
    ewmRun q s l <+: ewmRun q s (l ++ more) := by
  induction l generalizing s with
  | nil => exact List.nil_prefix
  | cons x l ih => exact (List.prefix_cons_inj _).2 (ih _)

/-- C253, daily volatility: reported values stay when bars are added. -/
theorem C253_daily_volatility {close more : List (ℤ × ℝ)}
    (hs : ((close ++ more).map Prod.fst).Pairwise (· < ·)) (span : ℝ) (isIntraday : Bool)
    {v v' : List (Label × Option ℝ)} (h : dailyVolatility close span isIntraday = .ok v)
    (h' : dailyVolatility (close ++ more) span isIntraday = .ok v') : v <+: v' := by
  unfold dailyVolatility at h h'
  obtain ⟨r, hr, h⟩ := py_bind_eq_ok.1 h
  obtain ⟨e, he, h⟩ := py_bind_eq_ok.1 h
  obtain ⟨r', hr', h'⟩ := py_bind_eq_ok.1 h'
  obtain ⟨e', he', h'⟩ := py_bind_eq_ok.1 h'
  cases h
  cases h'
  obtain ⟨s, rfl⟩ := C253_daily_returns hs isIntraday hr hr'
  unfold ewmStd at he he'
  split at he
  · cases he
  rename_i hsp
  rw [if_neg hsp] at he'
  cases he
  cases he'
  obtain ⟨s', hs'⟩ := ewmRun_prefix (1 - 2 / (span + 1)) ewmInit r s
  rw [← hs', List.zipIdx_append, List.map_append]
  exact List.prefix_append _ _

end Daily

/-! Cases that meet the hypotheses. -/

example : FinML.Filters.hullMa [(1 : ℚ), 2, 3, 4, 5] 4 = .ok [none, none, none, none, some 5] ∧
    FinML.Filters.hullMa [(1 : ℚ), 2, 3, 4, 5, 7] 4 = .ok [none, none, none, none, some 5, some (51 / 8)] := by
  have hq : Nat.sqrt 4 = 2 := Nat.sqrt_eq' 2
  unfold FinML.Filters.hullMa
  rw [hq]
  decide +kernel

example : vpin [(⟨10, 5, 0⟩ : BTick ℚ), ⟨11, 3, 1⟩] 4 1 1 = [(0, some (5 / 4)), (1, some (3 / 4))] ∧
    vpin [(⟨10, 5, 0⟩ : BTick ℚ), ⟨11, 3, 1⟩, ⟨10, 7, 2⟩] 4 1 1 =
      [(0, some (5 / 4)), (1, some (3 / 4)), (2, some (7 / 4))] := by decide +kernel

example : dailyReturns [(0, (10 : ℚ)), (2 * day, 11)] true = .ok [some (1 / 10)] ∧
    dailyReturns [(0, (10 : ℚ)), (2 * day, 11), (4 * day, 22)] true = .ok [some (1 / 10), some 1] := by
  decide +kernel

end FinML.Micro
