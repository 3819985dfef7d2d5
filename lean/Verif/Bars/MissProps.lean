import Verif.Bars.MissModel
import Verif.Bars.Lemmas
import Mathlib.Data.Rat.Floor
import Mathlib.Data.List.ReduceOption

/-!
# Bars of ticks with missing values (C346)

`np.sum`, `np.max` and `np.min` of a Series skip missing values, so a volume without price counts in the divisor of the VWAP
only; `groupby` drops the ticks without bar id.
-/

namespace FinML.Bars

set_option linter.unusedSectionVars false

variable {K : Type} [Field K] [LinearOrder K] [IsStrictOrderedRing K]

/-- A tick without missing values. -/
def Tick.complete (t : Tick K) : MTick K := ⟨t.time, some t.price, some t.volume⟩

/-- A bar without missing values. -/
def Bar.complete (b : Bar K) : MBar K :=
  ⟨b.time, some b.op, some b.high, some b.low, some b.close, b.volume, b.vwap⟩

/-- The tick, if both its price and its volume are known. -/
def MTick.tick? (t : MTick K) : Option (Tick K) :=
  match t.price, t.volume with
  | some p, some v => some ⟨t.time, p, v⟩
  | _, _ => none

/-- The ticks with known price and volume. -/
def priced (ticks : List (MTick K)) : List (Tick K) := ticks.filterMap MTick.tick?

/-- C346, full claim on the VWAP: it is between the low and the high of its bar. -/
def VwapWithin (K : Type) [Field K] [LinearOrder K] [IsStrictOrderedRing K] [FloorRing K] : Prop :=
  ∀ (f : K) (ticks : List (MTick K)) (bars : List (MBar K)) (ids : List (Option BarId)), 0 < f →
    (∀ t ∈ ticks, ∀ p ∈ t.price, 0 < p) → (∀ t ∈ ticks, ∀ v ∈ t.volume, 0 ≤ v) →
    aggregateVolumeBarsM f ticks = .ok (bars, ids) →
    ∀ b ∈ bars, ∀ w ∈ b.vwap, ∀ lo ∈ b.low, ∀ hi ∈ b.high, lo ≤ w ∧ w ≤ hi

/-- C346, full claim on the prices: each known price is between the low and the high of some bar. -/
def PricesKept (K : Type) [Field K] [LinearOrder K] [IsStrictOrderedRing K] [FloorRing K] : Prop :=
  ∀ (f : K) (ticks : List (MTick K)) (bars : List (MBar K)) (ids : List (Option BarId)), 0 < f →
    (∀ t ∈ ticks, ∀ v ∈ t.volume, 0 ≤ v) → aggregateVolumeBarsM f ticks = .ok (bars, ids) →
    ∀ t ∈ ticks, ∀ p ∈ t.price, ∃ b ∈ bars, ∃ lo ∈ b.low, ∃ hi ∈ b.high, lo ≤ p ∧ p ≤ hi

/-- C346.  A trade without price takes the VWAP to 5 in a bar whose only price is 10. -/
theorem C346_vwap_counterexample : ¬ VwapWithin ℚ := by
  intro h
  have hr : aggregateVolumeBarsM (10 : ℚ) [⟨0, none, some 1⟩, ⟨1, some 10, some 1⟩] =
      .ok ([⟨0, none, some 10, some 10, some 10, 2, some 5⟩], [some (barId 0), some (barId 0)]) := by
    decide +kernel
  have := h 10 _ _ _ (by norm_num) (by decide +kernel) (by decide +kernel) hr _ (List.mem_singleton.2 rfl) 5 rfl 10 rfl 10 rfl
  norm_num at this

/-- C346.  The price of a trade without volume is in no bar. -/
theorem C346_prices_counterexample : ¬ PricesKept ℚ := by
  intro h
  have hr : aggregateVolumeBarsM (10 : ℚ) [⟨0, some 10, some 1⟩, ⟨1, some 20, none⟩] =
      .ok ([⟨0, some 10, some 10, some 10, some 10, 1, some 10⟩], [some (barId 0), none]) := by
    decide +kernel
  obtain ⟨b, hb, lo, hlo, hi, hhi, -, h2⟩ := h 10 _ _ _ (by norm_num) (by decide +kernel) hr ⟨1, some 20, none⟩ (by simp) 20 rfl
  rw [List.mem_singleton] at hb
  subst hb
  cases hhi
  norm_num at h2

/-! ## One bar -/

theorem skipMax_iff (l : List (Option K)) (m : K) : skipMax l = some m ↔ npMax l.reduceOption = .ok m := by
  unfold skipMax npMax
  cases l.reduceOption <;> simp

theorem skipMin_iff (l : List (Option K)) (m : K) : skipMin l = some m ↔ npMin l.reduceOption = .ok m := by
  unfold skipMin npMin
  cases l.reduceOption <;> simp

theorem mem_priced {ticks : List (MTick K)} {t : Tick K} (h : t ∈ priced ticks) : t.complete ∈ ticks := by
  rw [priced, List.mem_filterMap] at h
  obtain ⟨⟨time, p, v⟩, h1, h2⟩ := h
  cases p <;> cases v <;> simp [MTick.tick?] at h2
  subst h2
  exact h1

theorem dollars_priced (ticks : List (MTick K)) : skipSum (ticks.map MTick.dollars) = dollarsOf (priced ticks) := by
  induction ticks with
  | nil => rfl
  | cons t ts ih =>
    obtain ⟨time, p, v⟩ := t
    unfold skipSum dollarsOf priced at *
    cases p <;> cases v <;> simp [MTick.dollars, MTick.tick?, List.filterMap_cons, List.reduceOption_cons_of_some, List.reduceOption_cons_of_none, ih]

theorem volume_priced (ticks : List (MTick K)) (hv : ∀ t ∈ ticks, ∀ v ∈ t.volume, 0 ≤ v) :
    volumeOf (priced ticks) ≤ skipSum (ticks.map MTick.volume) ∧
    ((∀ t ∈ ticks, t.price = none → ∀ v ∈ t.volume, v = 0) →
      skipSum (ticks.map MTick.volume) = volumeOf (priced ticks)) := by
  induction ticks with
  | nil => exact ⟨le_rfl, fun _ => rfl⟩
  | cons t ts ih =>
    obtain ⟨h1, h2⟩ := ih fun t ht => hv t (by simp [ht])
    have h0 := hv t (by simp)
    obtain ⟨time, p, v⟩ := t
    unfold skipSum volumeOf priced at *
    cases p <;> cases v
    · exact ⟨by simpa [MTick.tick?, List.filterMap_cons, List.reduceOption_cons_of_some, List.reduceOption_cons_of_none] using h1, fun h => by simpa [MTick.tick?, List.filterMap_cons, List.reduceOption_cons_of_some, List.reduceOption_cons_of_none] using h2 fun t ht => h t (by simp [ht])⟩
    · have h0 := h0 _ rfl
      refine ⟨by simpa [MTick.tick?, List.filterMap_cons, List.reduceOption_cons_of_some, List.reduceOption_cons_of_none] using h1.trans (le_add_of_nonneg_left h0), fun h => ?_⟩
      have := h _ (List.mem_cons_self) rfl _ rfl
      simpa [MTick.tick?, List.filterMap_cons, List.reduceOption_cons_of_some, List.reduceOption_cons_of_none, this] using h2 fun t ht => h t (by simp [ht])
    · exact ⟨by simpa [MTick.tick?, List.filterMap_cons, List.reduceOption_cons_of_some, List.reduceOption_cons_of_none] using h1, fun h => by simpa [MTick.tick?, List.filterMap_cons, List.reduceOption_cons_of_some, List.reduceOption_cons_of_none] using h2 fun t ht => h t (by simp [ht])⟩
    · refine ⟨by simpa [MTick.tick?, List.filterMap_cons, List.reduceOption_cons_of_some, List.reduceOption_cons_of_none] using h1, fun h => ?_⟩
      simpa [MTick.tick?, List.filterMap_cons, List.reduceOption_cons_of_some, List.reduceOption_cons_of_none] using h2 fun t ht => h t (by simp [ht])

theorem dollars_bounds (l : List (Tick K)) (lo hi : K) (h : ∀ t ∈ l, 0 ≤ t.volume ∧ lo ≤ t.price ∧ t.price ≤ hi) :
    lo * volumeOf l ≤ dollarsOf l ∧ dollarsOf l ≤ hi * volumeOf l := by
  induction l with
  | nil => simp [volumeOf, dollarsOf]
  | cons t ts ih =>
    obtain ⟨h1, h2⟩ := ih fun t ht => h t (by simp [ht])
    obtain ⟨a, b, c⟩ := h t (by simp)
    have e1 := mul_le_mul_of_nonneg_right b a
    have e2 := mul_le_mul_of_nonneg_right c a
    unfold volumeOf dollarsOf at *
    simp only [List.map_cons, List.sum_cons, mul_add]
    exact ⟨add_le_add e1 h1, add_le_add e2 h2⟩

/-- C346, the rest of the row: open and close are those of the first and last tick, also if unknown; high and low are the
extremes of the known prices, and the volume is what is known of it. -/
theorem C346_row (ticks : List (MTick K)) (b : MBar K) (h : barStatsM ticks = .ok b) :
    (∃ t, ticks.head? = some t ∧ b.time = t.time ∧ b.op = t.price) ∧ (∃ t, ticks.getLast? = some t ∧ b.close = t.price) ∧
    (∀ v, b.high = some v ↔ (∃ t ∈ ticks, t.price = some v) ∧ ∀ t ∈ ticks, ∀ p ∈ t.price, p ≤ v) ∧
    (∀ v, b.low = some v ↔ (∃ t ∈ ticks, t.price = some v) ∧ ∀ t ∈ ticks, ∀ p ∈ t.price, v ≤ p) ∧
    b.volume = (ticks.filterMap MTick.volume).sum := by
  unfold barStatsM at h
  rw [py_bind_eq_ok] at h
  obtain ⟨first, hf, h⟩ := h
  rw [py_bind_eq_ok] at h
  obtain ⟨last, hl, h⟩ := h
  cases h
  have hmem : ∀ p : K, p ∈ (ticks.map MTick.price).reduceOption ↔ ∃ t ∈ ticks, t.price = some p := by
    intro p
    rw [List.reduceOption_mem_iff, List.mem_map]
  refine ⟨⟨first, ?_, rfl, rfl⟩, ⟨last, ?_, rfl⟩, fun v => ?_, fun v => ?_, ?_⟩
  · cases ticks with
    | nil => cases hf
    | cons t ts => cases hf; rfl
  · unfold pyLast at hl
    cases hg : ticks.getLast? with
    | none => rw [hg] at hl; cases hl
    | some t => rw [hg] at hl; cases hl; rfl
  · rw [skipMax_iff, npMax_eq_ok_iff]
    refine and_congr (hmem v) ⟨fun h t ht p hp => h ((hmem p).2 ⟨t, ht, hp⟩), fun h p hp => ?_⟩
    obtain ⟨t, ht, hp⟩ := (hmem p).1 hp
    exact h t ht p hp
  · rw [skipMin_iff, npMin_eq_ok_iff]
    refine and_congr (hmem v) ⟨fun h t ht p hp => h ((hmem p).2 ⟨t, ht, hp⟩), fun h p hp => ?_⟩
    obtain ⟨t, ht, hp⟩ := (hmem p).1 hp
    exact h t ht p hp
  · simp only [skipSum, List.reduceOption, List.filterMap_map]
    rfl

/-- C346, the VWAP as far as it holds.  It is the dollars of the ticks with price and volume, over all known volume: zero
without prices, never above the high, and at least the low if no traded volume lacks its price (missing from the full claim:
volumes without price, which pull it down). -/
theorem C346_vwap_partial (ticks : List (MTick K)) (b : MBar K) (h : barStatsM ticks = .ok b)
    (hp : ∀ t ∈ ticks, ∀ p ∈ t.price, 0 ≤ p) (hv : ∀ t ∈ ticks, ∀ v ∈ t.volume, 0 ≤ v) (w : K) (hw : w ∈ b.vwap) :
    w * b.volume = dollarsOf (priced ticks) ∧ (priced ticks = [] → w = 0) ∧ (∀ hi ∈ b.high, w ≤ hi) ∧
    ((∀ t ∈ ticks, t.price = none → ∀ v ∈ t.volume, v = 0) → ∀ lo ∈ b.low, lo ≤ w) := by
  unfold barStatsM at h
  rw [py_bind_eq_ok] at h
  obtain ⟨first, -, h⟩ := h
  rw [py_bind_eq_ok] at h
  obtain ⟨last, -, h⟩ := h
  cases h
  simp only [vwapM, fdiv, Option.mem_def] at hw
  split_ifs at hw with h0
  cases hw
  simp only
  obtain ⟨v1, v2⟩ := volume_priced ticks hv
  have hpv : ∀ t ∈ priced ticks, 0 ≤ t.volume ∧ 0 ≤ t.price := fun t ht =>
    ⟨hv _ (mem_priced ht) _ rfl, hp _ (mem_priced ht) _ rfl⟩
  have hnn : 0 ≤ volumeOf (priced ticks) := List.sum_nonneg (by simpa using fun t ht => (hpv t ht).1)
  have hpos := lt_of_le_of_ne (hnn.trans v1) (Ne.symm h0)
  rw [dollars_priced]
  refine ⟨div_mul_cancel₀ _ h0, fun he => by rw [he]; simp [dollarsOf], fun hi hhi => ?_, fun hz lo hlo => ?_⟩
  · rw [Option.mem_def, skipMax_iff, npMax_eq_ok_iff] at hhi
    have hm : ∀ t ∈ priced ticks, t.price ≤ hi := fun t ht => hhi.2 (by
      simpa [List.reduceOption_mem_iff] using ⟨_, mem_priced ht, rfl⟩)
    have hhi0 : 0 ≤ hi := by
      have := hhi.1
      simp only [Set.mem_ofPred_eq, List.reduceOption_mem_iff, List.mem_map] at this
      obtain ⟨t, ht, hh⟩ := this
      exact hp t ht hi hh
    rw [div_le_iff₀ hpos]
    exact (dollars_bounds (priced ticks) 0 hi fun t ht => ⟨(hpv t ht).1, (hpv t ht).2, hm t ht⟩).2.trans
      (mul_le_mul_of_nonneg_left v1 hhi0)
  · rw [Option.mem_def, skipMin_iff, npMin_eq_ok_iff] at hlo
    have hm : ∀ t ∈ priced ticks, lo ≤ t.price := fun t ht => hlo.2 (by
      simpa [List.reduceOption_mem_iff] using ⟨_, mem_priced ht, rfl⟩)
    rw [le_div_iff₀ hpos, v2 hz]
    have hb := dollars_bounds (priced ticks) lo ((priced ticks).map Tick.price).sum fun t ht =>
      ⟨(hpv t ht).1, hm t ht, List.single_le_sum (by simpa using fun t ht => (hpv t ht).2) _ (List.mem_map.2 ⟨t, ht, rfl⟩)⟩
    exact hb.1

example : barStatsM [⟨0, some (8 : ℚ), some 1⟩, ⟨1, none, some 2⟩, ⟨2, some 12, none⟩] =
    .ok ⟨0, some 8, some 12, some 8, some 12, 3, some (8 / 3)⟩ := by decide +kernel

/-! ## All bars -/

variable [FloorRing K]

theorem keyed_skip (f : K) (q : MTick K → Option K) (ticks : List (MTick K)) (s : K) :
    keyed ((cumsumSkip s (ticks.map q)).map fun c => c.bind fun c => floorDivM c f) ticks =
      keyed ((cumsumSkip s ((ticks.filter fun t => (q t).isSome).map q)).map fun c => c.bind fun c => floorDivM c f)
        (ticks.filter fun t => (q t).isSome) := by
  unfold keyed
  induction ticks generalizing s with
  | nil => rfl
  | cons t ts ih =>
    cases hq : q t with
    | none =>
      simp only [List.map_cons, hq, cumsumSkip, Option.bind_none, List.zip_cons_cons, Option.isSome_none,
        Bool.false_eq_true, not_false_eq_true, List.filter_cons_of_neg]
      rw [List.filterMap_cons_none rfl, ih]
    | some x =>
      simp only [List.map_cons, hq, cumsumSkip, List.zip_cons_cons, Option.isSome_some, List.filter_cons_of_pos,
        List.filterMap_cons]
      rw [ih]

theorem groupTicksM_skip (f : K) (q : MTick K → Option K) (ticks : List (MTick K)) :
    groupTicksM (cumIdsM f (ticks.map q)) ticks =
      groupTicksM (cumIdsM f ((ticks.filter fun t => (q t).isSome).map q)) (ticks.filter fun t => (q t).isSome) := by
  unfold groupTicksM cumIdsM
  rw [keyed_skip f q ticks 0]

theorem groupKeys_mono {ι κ : Type} [LinearOrder ι] [LinearOrder κ] {g : ι → κ} (hg : StrictMono g) (ids : List ι) :
    groupKeys (ids.map g) = (groupKeys ids).map g := by
  have h1 : ((groupKeys ids).map g).Pairwise (· < ·) := (groupKeys_lt ids).map g fun a b h => hg h
  refine List.Perm.eq_of_pairwise' (r := (· ≤ ·)) ((groupKeys_lt _).imp le_of_lt) (h1.imp le_of_lt) ?_
  rw [List.perm_ext_iff_of_nodup (groupKeys_nodup _) (h1.imp ne_of_lt)]
  intro k
  simp only [mem_groupKeys, List.mem_map]

theorem groupBy_mono {ι κ α : Type} [LinearOrder ι] [LinearOrder κ] {g : ι → κ} (hg : StrictMono g) (ids : List ι)
    (xs : List α) : groupBy (ids.map g) xs = (groupBy ids xs).map fun p => (g p.1, p.2) := by
  rw [groupBy_def, groupBy_def, groupKeys_mono hg, List.map_map, List.map_map]
  apply List.map_congr_left
  intro k _
  simp only [Function.comp]
  rw [List.zip_map_left, List.filter_map, List.map_map]
  congr 1
  congr 1
  apply List.filter_congr
  intro p _
  simp [hg.injective.eq_iff]

theorem groupBy_map_right {ι α β : Type} [LinearOrder ι] (g : α → β) (ids : List ι) (xs : List α) :
    groupBy ids (xs.map g) = (groupBy ids xs).map fun p => (p.1, p.2.map g) := by
  rw [groupBy_def, groupBy_def, List.map_map]
  apply List.map_congr_left
  intro k _
  simp only [Function.comp]
  rw [List.zip_map_right, List.filter_map, List.map_map, List.map_map]
  rfl

omit [FloorRing K] in
theorem barStatsM_complete (ticks : List (Tick K)) :
    barStatsM (ticks.map Tick.complete) = (computeBarStats ticks).map Bar.complete := by
  cases ticks with
  | nil => rfl
  | cons t ts =>
    have hl : ∀ l : List (Tick K), (l.map fun t => (Tick.complete t).price).reduceOption = l.map Tick.price := by
      intro l
      induction l with
      | nil => rfl
      | cons a l ih => simp [Tick.complete, List.reduceOption_cons_of_some] at ih ⊢; exact ih
    have hv : ∀ l : List (Tick K), (l.map fun t => (Tick.complete t).volume).reduceOption = l.map Tick.volume := by
      intro l
      induction l with
      | nil => rfl
      | cons a l ih => simp [Tick.complete, List.reduceOption_cons_of_some] at ih ⊢; exact ih
    have hd : ∀ l : List (Tick K), (l.map fun t => (Tick.complete t).dollars).reduceOption =
        l.map fun t => t.price * t.volume := by
      intro l
      induction l with
      | nil => rfl
      | cons a l ih => simp [Tick.complete, MTick.dollars, List.reduceOption_cons_of_some] at ih ⊢; exact ih
    have e1 : pyGet ((t :: ts).map Tick.complete) 0 = .ok t.complete := rfl
    have e2 : pyGet (t :: ts) 0 = .ok t := rfl
    have e3 : pyLast (t :: ts) = .ok ((t :: ts).getLast (by simp)) := by
      rw [pyLast_eq_ok_iff, List.getLast?_eq_some_getLast]
    have e4 : pyLast ((t :: ts).map Tick.complete) = .ok (((t :: ts).getLast (by simp)).complete) := by
      rw [pyLast_eq_ok_iff, List.getLast?_map, List.getLast?_eq_some_getLast (by simp)]
      rfl
    have e5 : npMax ((t :: ts).map Tick.price) = .ok ((ts.map Tick.price).foldl max t.price) := rfl
    have e6 : npMin ((t :: ts).map Tick.price) = .ok ((ts.map Tick.price).foldl min t.price) := rfl
    unfold barStatsM computeBarStats
    rw [e1, e2, e3, e4, e5, e6]
    simp only [py_bind_ok, py_pure, Except.map]
    simp only [vwapM, computeVwap, skipMax, skipMin, skipSum, List.map_map, Function.comp_def, hl, hv, hd]
    rfl

omit [FloorRing K] in
theorem keyed_complete {ι : Type} (ids : List ι) (ticks : List (MTick K)) :
    keyed (ids.map some) ticks = ids.zip ticks := by
  unfold keyed
  rw [List.zip_map_left, List.filterMap_map]
  exact List.filterMap_some

theorem mapM_map_complete {α β γ δ : Type} (g : α → β) (f : β → Py γ) (f' : α → Py δ) (k : δ → γ)
    (h : ∀ a, f (g a) = (f' a).map k) (l : List α) : (l.map g).mapM f = (l.mapM f').map (List.map k) := by
  induction l with
  | nil => rfl
  | cons a l ih =>
    rw [List.map_cons, mapM_cons_py, mapM_cons_py, ih, h]
    cases f' a <;> cases l.mapM f' <;> rfl

/-- Ids that are whole numbers, and no missing values. -/
theorem groupTicksM_complete (ids : List ℤ) (ticks : List (Tick K)) (h : ids.length = ticks.length) :
    groupTicksM (ids.map fun k => some (barId k)) (ticks.map Tick.complete) =
      (groupTicksToBars ids ticks).map (List.map Bar.complete) := by
  have hg : StrictMono barId := fun a b hab =>
    WithBot.coe_lt_coe.2 (WithTop.coe_lt_coe.2 hab)
  have e : ids.map (fun k => some (barId k)) = (ids.map barId).map some := by
    rw [List.map_map]
    rfl
  unfold groupTicksM groupTicksToBars
  rw [e, keyed_complete, List.map_fst_zip (by simp [h]), List.map_snd_zip (by simp [h]),
    groupBy_mono hg, groupBy_map_right, List.map_map]
  exact mapM_map_complete _ (fun g : BarId × List (MTick K) => barStatsM g.2) (fun a : ℤ × List (Tick K) => computeBarStats a.2) _
    (fun a => barStatsM_complete a.2) _

theorem cumIdsM_complete (f : K) (hf : f ≠ 0) (q : List K) :
    cumIdsM f (q.map some) = (cumIds f q).map fun k => some (barId k) := by
  unfold cumIdsM cumIds cumsum
  generalize (0 : K) = s
  induction q generalizing s with
  | nil => rfl
  | cons x xs ih =>
    simp only [List.map_cons, cumsumSkip, cumsumFrom, ih, Option.bind_some]
    simp only [floorDivM, if_neg hf, floorDiv]

/-- C346.  Volume bars are those of the ticks with a volume; exactly the ticks without one get no bar.  (Missing from the full
claim: their prices.) -/
theorem C346_prices_partial (f : K) (ticks : List (MTick K)) :
    (aggregateVolumeBarsM f ticks).map Prod.fst =
      (aggregateVolumeBarsM f (ticks.filter fun t => t.volume.isSome)).map Prod.fst ∧
    (f ≠ 0 → ∀ bars ids, aggregateVolumeBarsM f ticks = .ok (bars, ids) →
      ids.map Option.isSome = ticks.map fun t => t.volume.isSome) := by
  constructor
  · unfold aggregateVolumeBarsM
    simp only
    rw [groupTicksM_skip f MTick.volume ticks]
    cases groupTicksM (cumIdsM f ((ticks.filter fun t => t.volume.isSome).map MTick.volume))
      (ticks.filter fun t => t.volume.isSome) <;> rfl
  · intro hf bars ids h
    unfold aggregateVolumeBarsM at h
    rw [py_bind_eq_ok] at h
    obtain ⟨res, -, h⟩ := h
    cases h
    unfold cumIdsM
    generalize (0 : K) = s
    induction ticks generalizing s with
    | nil => rfl
    | cons t ts ih =>
      cases hv : t.volume with
      | none => simpa [cumsumSkip, hv] using ih s
      | some v => simpa [cumsumSkip, hv, floorDivM, hf] using ih (s + v)

theorem filter_dollars (ticks : List (MTick K)) :
    (ticks.filter fun t => t.dollars.isSome) = (priced ticks).map Tick.complete := by
  unfold priced
  induction ticks with
  | nil => rfl
  | cons t ts ih =>
    obtain ⟨time, p, v⟩ := t
    cases p <;> cases v <;> simp [MTick.dollars, MTick.tick?, Tick.complete, List.filterMap_cons] <;>
      simpa [MTick.dollars, Tick.complete] using ih

/-- C346.  Dollar bars are the dollar bars of the ticks with price and volume, so C06 and C01 hold for these. -/
theorem C346_dollar_bars (f : K) (hf : f ≠ 0) (ticks : List (MTick K)) :
    aggregateDollarBarsM f ticks = (aggregateDollarBars f (priced ticks)).map (List.map Bar.complete) := by
  unfold aggregateDollarBarsM aggregateDollarBars
  rw [groupTicksM_skip f MTick.dollars ticks, filter_dollars, if_neg hf]
  have e : ((priced ticks).map Tick.complete).map MTick.dollars =
      ((priced ticks).map fun t => t.volume * t.price).map some := by
    rw [List.map_map, List.map_map]
    apply List.map_congr_left
    intro t _
    simp [MTick.dollars, Tick.complete, mul_comm]
  rw [e, cumIdsM_complete f hf, groupTicksM_complete]
  rw [cumIds_length, List.length_map]

/-- C346.  Without missing values this is the model of C01 to C06. -/
theorem C346_complete (f : K) (hf : f ≠ 0) (ticks : List (Tick K)) :
    aggregateVolumeBarsM f (ticks.map Tick.complete) = (aggregateVolumeBars f ticks).map (fun r =>
      (r.1.map Bar.complete, r.2.map fun k => some (barId k))) ∧
    aggregateTickBarsM f (ticks.map Tick.complete) = (aggregateTickBars f ticks).map (List.map Bar.complete) := by
  constructor
  · unfold aggregateVolumeBarsM aggregateVolumeBars
    have e : (ticks.map Tick.complete).map MTick.volume = (ticks.map Tick.volume).map some := by
      rw [List.map_map, List.map_map]
      rfl
    rw [if_neg hf, e, cumIdsM_complete f hf]
    simp only
    rw [groupTicksM_complete _ _ (by rw [cumIds_length, List.length_map])]
    cases groupTicksToBars (cumIds f (ticks.map Tick.volume)) ticks <;> rfl
  · unfold aggregateTickBarsM aggregateTickBars
    rw [if_neg hf, List.length_map]
    have := groupTicksM_complete ((List.range ticks.length).map fun i : ℕ => floorDiv (i : K) f) ticks (by simp)
    rw [← this, List.map_map]
    simp only [floorDivM, if_neg hf, floorDiv, Function.comp_def]

end FinML.Bars
