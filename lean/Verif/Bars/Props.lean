import Verif.Bars.Lemmas
import Mathlib.Data.Rat.Floor

/-! # Properties C01-C06, C14, C15: ticks to bars -/

set_option linter.unusedSectionVars false

namespace FinML.Bars

variable {K : Type} [Field K] [LinearOrder K] [IsStrictOrderedRing K]

/-- Ticks used in the non-vacuity examples. -/
def sampleTicks : List (Tick ℚ) :=
  [⟨0, 10, 2⟩, ⟨1, 12, 1⟩, ⟨1, 11, 3⟩, ⟨5, 9, 1⟩, ⟨6, 9, 2⟩]

/-! ## C01 -/

/-- C01.  Summarising a group of ticks succeeds exactly for non-empty groups, and the result is the
(unique) OHLCV/VWAP summary of the group. -/
theorem C01_bar_stats_sound (ticks : List (Tick K)) :
    (∀ b, computeBarStats ticks = .ok b ↔ IsBarOf ticks b) ∧
    (ticks ≠ [] → ∃ b, computeBarStats ticks = .ok b) ∧
    (ticks = [] → computeBarStats ticks = .error .indexError) := by
  refine ⟨computeBarStats_iff ticks, computeBarStats_ok ticks, ?_⟩
  rintro rfl; rfl

/-- C01.  With non-negative volumes and positive total volume, Low ≤ Open, Close, VWAP ≤ High. -/
theorem C01_bar_bounds (ticks : List (Tick K)) (b : Bar K) (h : computeBarStats ticks = .ok b)
    (hv : ∀ t ∈ ticks, 0 ≤ t.volume) (hpos : 0 < volumeOf ticks) :
    ∃ w, b.vwap = some w ∧ b.low ≤ w ∧ w ≤ b.high ∧ b.low ≤ b.op ∧ b.op ≤ b.high ∧
      b.low ≤ b.close ∧ b.close ≤ b.high := by
  have hb := (computeBarStats_iff ticks b).1 h
  obtain ⟨w, hw, hw2⟩ := hb.vwap_some hpos.ne'
  have hlo : ∀ t ∈ ticks, b.low ≤ t.price := fun t ht => hb.low.2 ⟨t, ht, rfl⟩
  have hhi : ∀ t ∈ ticks, t.price ≤ b.high := fun t ht => hb.high.2 ⟨t, ht, rfl⟩
  obtain ⟨h1, h2⟩ := weighted_sum_bounds ticks (fun t => t.price) (fun t => t.volume) b.low b.high
    hv hlo hhi
  change b.low * volumeOf ticks ≤ dollarsOf ticks at h1
  change dollarsOf ticks ≤ b.high * volumeOf ticks at h2
  rw [← hw2] at h1 h2
  obtain ⟨f, hf, hfp⟩ := Option.map_eq_some_iff.1 hb.opens
  obtain ⟨l, hl, hlp⟩ := Option.map_eq_some_iff.1 hb.closes
  have hfm : f ∈ ticks := List.mem_of_head? hf
  have hlm : l ∈ ticks := List.mem_of_getLast? hl
  exact ⟨w, hw, le_of_mul_le_mul_right h1 hpos, le_of_mul_le_mul_right h2 hpos,
    hfp ▸ hlo f hfm, hfp ▸ hhi f hfm, hlp ▸ hlo l hlm, hlp ▸ hhi l hlm⟩

example : (∀ t ∈ sampleTicks, 0 ≤ t.volume) ∧ 0 < volumeOf sampleTicks ∧
    (computeBarStats sampleTicks).toOption.map Bar.vwap = some (some (92 / 9)) := by decide +kernel

/-! ## C02 -/

/-- C02.  For any ids (one per tick) the bars are, in strictly increasing order of the ids that
occur, the summaries of the ticks carrying each id; the call never fails. -/
theorem C02_bars_by_id {ι : Type} [LinearOrder ι] (ids : List ι) (ticks : List (Tick K))
    (h : ids.length = ticks.length) :
    ∃ bars keys, groupTicksToBars ids ticks = .ok bars ∧
      keys.Pairwise (· < ·) ∧ (∀ k, k ∈ keys ↔ k ∈ ids) ∧
      List.Forall₂ (fun k b => IsBarOf (((ids.zip ticks).filter fun p => p.1 = k).map Prod.snd) b)
        keys bars := by
  obtain ⟨bars, hb⟩ := groupTicksToBars_ok ids ticks h
  refine ⟨bars, groupKeys ids, hb, groupKeys_lt ids, mem_groupKeys ids, ?_⟩
  have := (groupTicksToBars_iff ids ticks bars).1 hb
  rw [groupBy_def, List.forall₂_map_left_iff] at this
  exact this

/-- C02.  Every tick is in exactly one bar: the groups summarised by the bars are together a
permutation of the stream; total volume is conserved, and so are the dollars `Volume * VWAP` when
no bar has zero volume. -/
theorem C02_conservation {ι : Type} [LinearOrder ι] (ids : List ι) (ticks : List (Tick K))
    (h : ids.length = ticks.length) (bars : List (Bar K))
    (hb : groupTicksToBars ids ticks = .ok bars) :
    (∃ groups : List (List (Tick K)), groups.flatten.Perm ticks ∧
      List.Forall₂ IsBarOf groups bars) ∧
    (bars.map Bar.volume).sum = volumeOf ticks ∧
    ((∀ b ∈ bars, b.volume ≠ 0) →
      ∃ ws : List K, bars.map Bar.vwap = ws.map some ∧
        (List.zipWith (· * ·) (bars.map Bar.volume) ws).sum = dollarsOf ticks) := by
  have hf := (groupTicksToBars_iff ids ticks bars).1 hb
  have hp : (((groupBy ids ticks).map Prod.snd).flatten).Perm ticks := by
    rw [← List.flatMap_def]; exact groupBy_perm ids ticks h
  have hf' : List.Forall₂ IsBarOf ((groupBy ids ticks).map Prod.snd) bars := by
    rw [List.forall₂_map_left_iff]; exact hf
  refine ⟨⟨_, hp, hf'⟩, ?_, ?_⟩
  · rw [sum_volume_of_forall₂ hf']
    exact (hp.map _).sum_eq
  · intro hne
    have key : ∀ (ps : List (List (Tick K))) (bs : List (Bar K)), List.Forall₂ IsBarOf ps bs →
        (∀ b ∈ bs, b.volume ≠ 0) → ∃ ws : List K, bs.map Bar.vwap = ws.map some ∧
        (List.zipWith (· * ·) (bs.map Bar.volume) ws).sum = dollarsOf ps.flatten := by
      intro ps bs h
      induction h with
      | nil => intro _; exact ⟨[], rfl, rfl⟩
      | @cons p b ps bs h1 _ ih =>
        intro hne
        obtain ⟨ws, e1, e2⟩ := ih fun b hb => hne b (by simp [hb])
        obtain ⟨w, hw, hw2⟩ := h1.vwap_some (by rw [← h1.volume]; exact hne b (by simp))
        refine ⟨w :: ws, by simp [hw, e1], ?_⟩
        simp only [List.map_cons, List.zipWith_cons_cons, List.sum_cons, e2, List.flatten_cons,
          dollarsOf_append, h1.volume]
        rw [← hw2, mul_comm]
    obtain ⟨ws, e1, e2⟩ := key _ _ hf' hne
    refine ⟨ws, e1, e2.trans ?_⟩
    exact (hp.map _).sum_eq

/-- C02.  If ids never decrease along the stream, the bars are the summaries of consecutive pieces
of the stream, in order. -/
theorem C02_contiguous {ι : Type} [LinearOrder ι] (ids : List ι) (ticks : List (Tick K))
    (h : ids.length = ticks.length) (hs : ids.Pairwise (· ≤ ·)) :
    ∃ bars pieces, groupTicksToBars ids ticks = .ok bars ∧ IsCut ticks pieces bars := by
  obtain ⟨bars, hb⟩ := groupTicksToBars_ok ids ticks h
  exact ⟨bars, _, hb, isCut_of_sorted ids ticks h hs bars hb⟩

example : ([0, 0, 1, 2, 2] : List ℤ).length = sampleTicks.length ∧
    ([0, 0, 1, 2, 2] : List ℤ).Pairwise (· ≤ ·) ∧
    (groupTicksToBars ([0, 0, 1, 2, 2] : List ℤ) sampleTicks).toOption.map
      (fun bars => bars.map Bar.volume) = some [3, 3, 3] := by decide +kernel

/-! ## C03 -/

section Floor
variable [FloorRing K]

/-- C03.  With an integer `freq ≥ 1` there are `ceil(n/freq)` bars and bar `k` summarises exactly
the ticks number `k*freq, ..., min((k+1)*freq, n) - 1`. -/
theorem C03_tick_bars (f : ℕ) (hf : 1 ≤ f) (ticks : List (Tick K)) :
    ∃ bars, aggregateTickBars (f : K) ticks = .ok bars ∧
      bars.length = (ticks.length + f - 1) / f ∧
      ∀ k (hk : k < bars.length),
        IsBarOf ((ticks.drop (k * f)).take f) bars[k] ∧
        ((ticks.drop (k * f)).take f).length = min f (ticks.length - k * f) ∧
        0 < ((ticks.drop (k * f)).take f).length ∧
        (k + 1 < bars.length → ((ticks.drop (k * f)).take f).length = f) := by
  have hids : ((List.range ticks.length).map fun i : ℕ => floorDiv (i : K) (f : K)) =
      ((List.range ticks.length).map (· / f)).map ((↑) : ℕ → ℤ) := by
    rw [List.map_map]
    apply List.map_congr_left
    intro i _
    exact floorDiv_natCast i f hf
  have hne : (f : K) ≠ 0 := by exact_mod_cast (show f ≠ 0 by omega)
  set c := (ticks.length + f - 1) / f with hc
  have hg : groupBy (((List.range ticks.length).map (· / f)).map ((↑) : ℕ → ℤ)) ticks =
      (List.range c).map fun k : ℕ => ((k : ℤ), (ticks.drop (k * f)).take f) := by
    have hp := groupBy_pieces
      ((List.range c).map fun k : ℕ => ((k : ℤ), (ticks.drop (k * f)).take f)) (by
        rw [List.map_map, List.pairwise_map]
        exact List.pairwise_lt_range.imp fun h => by simpa using h)
      (by
        intro p hp
        rw [List.mem_map] at hp
        obtain ⟨k, hk, rfl⟩ := hp
        have := block_pos ticks.length f k hf (by simpa using hk)
        intro h0
        have h1 := congrArg List.length h0
        simp at h1
        omega)
    rw [List.flatMap_map, List.flatMap_map] at hp
    simp only at hp
    rw [flatMap_blocks f c ticks (ceil_blocks _ _ hf)] at hp
    rw [← hp]
    congr 1
    rw [← flatMap_blocks f c ((List.range ticks.length).map (· / f))
      (by simpa using ceil_blocks ticks.length f hf), List.map_flatMap]
    apply List.flatMap_congr
    intro k _
    rw [block_const]
    simp
  have hlen : (((List.range ticks.length).map (· / f)).map ((↑) : ℕ → ℤ)).length =
      ticks.length := by simp
  obtain ⟨bars, hb⟩ := groupTicksToBars_ok _ ticks hlen
  have hF := (groupTicksToBars_iff _ ticks bars).1 hb
  rw [hg, List.forall₂_map_left_iff] at hF
  have hbl : bars.length = c := by
    have := hF.length_eq
    simpa using this.symm
  refine ⟨bars, ?_, hbl, ?_⟩
  · unfold aggregateTickBars
    rw [if_neg hne, hids, hb]
  · intro k hk
    have hkc : k < c := hbl ▸ hk
    have h1 := (List.forall₂_iff_get.1 hF).2 k (by simpa using hkc) hk
    simp only [List.get_eq_getElem, List.getElem_range] at h1
    have hpos := block_pos ticks.length f k hf hkc
    refine ⟨h1, by simp, by simp; omega, ?_⟩
    intro hk1
    have := block_pos ticks.length f (k + 1) hf (by rw [hbl] at hk1; exact hk1)
    rw [Nat.add_mul] at this
    simp; omega

example : (aggregateTickBars ((2 : ℕ) : ℚ) sampleTicks).toOption.map
    (fun bars => bars.map Bar.close) = some [12, 9, 9] := by decide +kernel

/-! ## C04, C05, C06 -/

/-- C04.  With non-negative volumes and `freq > 0` the volume bars are consecutive runs of ticks
with strictly increasing ids; at every tick of the bar with id `k` the volume traded since the
start of the stream is in `[k*freq, (k+1)*freq)`, and the volume of the bar is below `freq` plus the
volume of its first tick. -/
theorem C04_volume_bars (f : K) (hf : 0 < f) (ticks : List (Tick K))
    (hv : ∀ t ∈ ticks, 0 ≤ t.volume) :
    ∃ bars ids, ∃ pieces : List (ℤ × List (Tick K)),
      aggregateVolumeBars f ticks = .ok (bars, ids) ∧
      IsCut ticks (pieces.map Prod.snd) bars ∧
      (pieces.map Prod.fst).Pairwise (· < ·) ∧
      ids = (pieces.flatMap fun p => List.replicate p.2.length p.1) ∧
      ∀ (pre : List (ℤ × List (Tick K))) (k : ℤ) (g : List (Tick K)) (post : List (ℤ × List (Tick K))),
        pieces = pre ++ (k, g) :: post →
        (∀ u v, g = u ++ v → u ≠ [] →
          (k : K) * f ≤ volumeOf (pre.flatMap Prod.snd ++ u) ∧
          volumeOf (pre.flatMap Prod.snd ++ u) < ((k : K) + 1) * f) ∧
        ∀ t, g.head? = some t → volumeOf g < f + t.volume := by
  obtain ⟨pieces, h0, h1, h2, h3, h4, h5⟩ := cumGroups Tick.volume f hf ticks hv
  have hlen : (cumIds f (ticks.map Tick.volume)).length = ticks.length := by simp [cumIds_length]
  obtain ⟨bars, hb⟩ := groupTicksToBars_ok _ ticks hlen
  refine ⟨bars, _, pieces, ?_, ?_, h1, h3, ?_⟩
  · unfold aggregateVolumeBars
    rw [if_neg hf.ne']
    simp only [hb, py_bind_ok, py_pure]
  · have := isCut_of_sorted _ ticks hlen (cumIds_sorted f hf _ (by
      intro x hx
      rw [List.mem_map] at hx
      obtain ⟨a, ha, rfl⟩ := hx
      exact hv a ha)) bars hb
    rwa [h0] at this
  · intro pre k g post hp
    refine ⟨h5 pre k g post hp, ?_⟩
    intro t ht
    obtain ⟨l, hl⟩ := List.head?_eq_some_iff.1 ht
    exact cumGroups_first Tick.volume f pre k g t l hl (h5 pre k g post hp)

example : (∀ t ∈ sampleTicks, 0 ≤ t.volume) ∧
    (aggregateVolumeBars 4 sampleTicks).toOption.map (fun r => (r.1.map Bar.volume, r.2)) =
      some ([3, 4, 2], [0, 0, 1, 1, 2]) := by decide +kernel

/-- C05, what is claimed: every volume bar but the last has traded at least `freq`. -/
def VolumeBarsComplete (K : Type) [Field K] [LinearOrder K] [IsStrictOrderedRing K] [FloorRing K] :
    Prop :=
  ∀ (f : K) (ticks : List (Tick K)) (bars : List (Bar K)) (ids : List ℤ), 0 < f →
    (∀ t ∈ ticks, 0 ≤ t.volume) → aggregateVolumeBars f ticks = .ok (bars, ids) →
    ∀ b ∈ bars.dropLast, f ≤ b.volume

/-- C05 is false: six unit trades with `freq = 3` give bars of 2, 3 and 1 trades; the first bar is
closed one trade early. -/
theorem C05_volume_bar_counterexample : ¬ VolumeBarsComplete ℚ := by
  intro h
  have hr : aggregateVolumeBars (3 : ℚ) (List.replicate 6 ⟨0, 1, 1⟩) =
      .ok ([⟨0, 1, 1, 1, 1, 2, some 1⟩, ⟨0, 1, 1, 1, 1, 3, some 1⟩, ⟨0, 1, 1, 1, 1, 1, some 1⟩],
        [0, 0, 1, 1, 1, 2]) := by decide +kernel
  have := h 3 _ _ _ (by norm_num) (by decide +kernel) hr ⟨0, 1, 1, 1, 1, 2, some 1⟩ (by simp)
  norm_num at this

/-- C05, the part that holds: the rule the code does follow.  The bar with id `k` stops right before
the tick that takes the volume traded since the start of the stream to `(k+1)*freq` or more (that
tick opens the next bar).  Missing for C05: the tick reaching the multiple should belong to the bar
it completes. -/
theorem C05_volume_bar_closing_partial (f : K) (hf : 0 < f) (ticks : List (Tick K))
    (hv : ∀ t ∈ ticks, 0 ≤ t.volume) :
    ∃ bars ids, ∃ pieces : List (ℤ × List (Tick K)),
      aggregateVolumeBars f ticks = .ok (bars, ids) ∧ IsCut ticks (pieces.map Prod.snd) bars ∧
      ∀ (pre : List (ℤ × List (Tick K))) (k : ℤ) (g : List (Tick K)) (k' : ℤ)
        (g' : List (Tick K)) (post : List (ℤ × List (Tick K))), pieces = pre ++ (k, g) :: (k', g') :: post →
        volumeOf (pre.flatMap Prod.snd ++ g) < ((k : K) + 1) * f ∧
        ∀ t, g'.head? = some t →
          ((k : K) + 1) * f ≤ volumeOf (pre.flatMap Prod.snd ++ g ++ [t]) := by
  obtain ⟨bars, ids, pieces, h1, h2, h3, h4, h5⟩ := C04_volume_bars f hf ticks hv
  refine ⟨bars, ids, pieces, h1, h2, ?_⟩
  intro pre k g k' g' post hp
  have hg : g ≠ [] := h2.nonempty g (by rw [hp]; simp)
  refine ⟨((h5 pre k g _ hp).1 g [] (by simp) hg).2, ?_⟩
  intro t ht
  obtain ⟨l, hl⟩ := List.head?_eq_some_iff.1 ht
  have h6 := ((h5 (pre ++ [(k, g)]) k' g' post (by rw [hp]; simp)).1 [t] l (by simp [hl])
    (by simp)).1
  have hk : k + 1 ≤ k' := by
    rw [hp, List.map_append, List.pairwise_append] at h3
    have := h3.2.1
    simp only [List.map_cons, List.pairwise_cons] at this
    have := this.1 k' (by simp)
    omega
  have hk' : (k : K) + 1 ≤ k' := by exact_mod_cast hk
  have h7 := mul_le_mul_of_nonneg_right hk' hf.le
  simp only [List.flatMap_append, List.flatMap_cons, List.flatMap_nil, List.append_nil] at h6
  exact h7.trans h6

example : (∀ t ∈ (List.replicate 6 ⟨0, 1, 1⟩ : List (Tick ℚ)), 0 ≤ t.volume) ∧
    (aggregateVolumeBars (3 : ℚ) (List.replicate 6 ⟨0, 1, 1⟩)).toOption.map
      (fun r => r.1.length) = some 3 := by decide +kernel

/-- C06.  Dollar bars: as C04 for traded dollars; total dollars are conserved. -/
theorem C06_dollar_bars (f : K) (hf : 0 < f) (ticks : List (Tick K))
    (hv : ∀ t ∈ ticks, 0 ≤ t.price * t.volume) :
    ∃ bars, ∃ pieces : List (ℤ × List (Tick K)),
      aggregateDollarBars f ticks = .ok bars ∧
      IsCut ticks (pieces.map Prod.snd) bars ∧
      (pieces.map Prod.fst).Pairwise (· < ·) ∧
      (pieces.map fun p => dollarsOf p.2).sum = dollarsOf ticks ∧
      ∀ (pre : List (ℤ × List (Tick K))) (k : ℤ) (g : List (Tick K)) (post : List (ℤ × List (Tick K))),
        pieces = pre ++ (k, g) :: post →
        (∀ u v, g = u ++ v → u ≠ [] →
          (k : K) * f ≤ dollarsOf (pre.flatMap Prod.snd ++ u) ∧
          dollarsOf (pre.flatMap Prod.snd ++ u) < ((k : K) + 1) * f) ∧
        ∀ t, g.head? = some t → dollarsOf g < f + t.price * t.volume := by
  have hq : (fun t : Tick K => t.volume * t.price) = fun t => t.price * t.volume := by
    funext t; rw [mul_comm]
  obtain ⟨pieces, h0, h1, h2, h3, h4, h5⟩ :=
    cumGroups (fun t : Tick K => t.price * t.volume) f hf ticks hv
  have hlen : (cumIds f (ticks.map fun t => t.price * t.volume)).length = ticks.length := by
    simp [cumIds_length]
  obtain ⟨bars, hb⟩ := groupTicksToBars_ok _ ticks hlen
  refine ⟨bars, pieces, ?_, ?_, h1, ?_, ?_⟩
  · unfold aggregateDollarBars
    rw [if_neg hf.ne', hq, hb]
  · have := isCut_of_sorted _ ticks hlen (cumIds_sorted f hf _ (by
      intro x hx
      rw [List.mem_map] at hx
      obtain ⟨a, ha, rfl⟩ := hx
      exact hv a ha)) bars hb
    rwa [h0] at this
  · rw [h4]
    clear h0 h1 h2 h3 h4 h5
    induction pieces with
    | nil => rfl
    | cons p ps ih => simp [dollarsOf_append, ih]
  · intro pre k g post hp
    refine ⟨h5 pre k g post hp, ?_⟩
    intro t ht
    obtain ⟨l, hl⟩ := List.head?_eq_some_iff.1 ht
    exact cumGroups_first (fun t : Tick K => t.price * t.volume) f pre k g t l hl
      (h5 pre k g post hp)

example : (∀ t ∈ sampleTicks, 0 ≤ t.price * t.volume) ∧
    (aggregateDollarBars 40 sampleTicks).toOption.map (fun bars => bars.map Bar.volume) =
      some [3, 4, 2] := by decide +kernel

/-! ## C14 -/

/-- C14.  Merging bars with `resample_time_to_volume_bars` gives the bars of the underlying ticks:
if `bars` were built from consecutive pieces of a stream with non-negative volumes, the result is
built from coarser consecutive pieces of the same stream, each a union of adjacent fine pieces, and
no merged bar exceeds `freq` plus the volume of its first fine bar. -/
theorem C14_resample (f : K) (hf : 0 < f) (ticks : List (Tick K)) (pieces : List (List (Tick K)))
    (bars : List (Bar K)) (hc : IsCut ticks pieces bars) (hv : ∀ t ∈ ticks, 0 ≤ t.volume) :
    ∃ res ids, ∃ coarse : List (List (List (Tick K))),
      resampleTimeToVolumeBars f bars = .ok (res, ids) ∧
      coarse.flatten = pieces ∧ IsCut ticks (coarse.map List.flatten) res ∧
      (res.map Bar.volume).sum = (bars.map Bar.volume).sum ∧
      (∀ g ∈ coarse, ∀ p, g.head? = some p → volumeOf g.flatten < f + volumeOf p) := by
  have hvp : ∀ p ∈ pieces, ∀ t ∈ p, 0 ≤ t.volume := by
    intro p hp t ht
    apply hv
    rw [← hc.flatten, List.mem_flatten]
    exact ⟨p, hp, ht⟩
  have hvol : ∀ b ∈ bars, 0 ≤ b.volume := by
    intro b hb
    obtain ⟨i, hi, rfl⟩ := List.mem_iff_getElem.1 hb
    have h2 := List.forall₂_iff_get.1 hc.bars
    have h3 := h2.2 i (h2.1 ▸ hi) hi
    rw [List.get_eq_getElem, List.get_eq_getElem] at h3
    rw [h3.volume]
    apply List.sum_nonneg
    intro x hx
    rw [List.mem_map] at hx
    obtain ⟨t, ht, rfl⟩ := hx
    exact hvp _ (List.getElem_mem _) t ht
  obtain ⟨gs, h0, h1, h2, h3, h4, h5⟩ := cumGroups Bar.volume f hf bars hvol
  -- split the pieces along the groups of bars
  have split : ∀ (gs : List (ℤ × List (Bar K))) (ps : List (List (Tick K))),
      (∀ p ∈ ps, ∀ t ∈ p, 0 ≤ t.volume) → (∀ g ∈ gs, g.2 ≠ []) →
      List.Forall₂ IsBarOf ps (gs.flatMap Prod.snd) →
      ∃ coarse : List (List (List (Tick K))), coarse.flatten = ps ∧ (∀ g ∈ coarse, g ≠ []) ∧
        List.Forall₂ (fun c (g : ℤ × List (Bar K)) => List.Forall₂ IsBarOf c g.2) coarse gs := by
    intro gs
    induction gs with
    | nil =>
      intro ps _ _ h
      cases h
      exact ⟨[], rfl, by simp, .nil⟩
    | cons g gs ih =>
      intro ps hps hg h
      rw [List.flatMap_cons] at h
      obtain ⟨a, b, ha, hb, rfl⟩ : ∃ a b, List.Forall₂ IsBarOf a g.2 ∧
          List.Forall₂ IsBarOf b (gs.flatMap Prod.snd) ∧ ps = a ++ b := by
        refine ⟨ps.take g.2.length, ps.drop g.2.length, ?_, ?_,
          (List.take_append_drop _ _).symm⟩
        · simpa using List.forall₂_take g.2.length h
        · simpa using List.forall₂_drop g.2.length h
      obtain ⟨coarse, e1, e2, e3⟩ := ih b (fun p hp => hps p (by simp [hp]))
        (fun g hg' => hg g (by simp [hg'])) hb
      refine ⟨a :: coarse, by simp [e1], ?_, .cons ha e3⟩
      intro c hc
      rcases List.mem_cons.1 hc with rfl | hc
      · intro h0
        rw [h0] at ha
        cases hg2 : g.2 with
        | nil => exact hg g (by simp) hg2
        | cons x y => rw [hg2] at ha; cases ha
      · exact e2 c hc
  obtain ⟨coarse, e1, e2, e3⟩ := split gs pieces hvp h2 (h4 ▸ hc.bars)
  have hres : ∃ res, gs.mapM (fun g => resampleBarStats g.2) = .ok res ∧
      List.Forall₂ (fun (c : List (List (Tick K))) B => IsBarOf c.flatten B) coarse res := by
    have hvc : ∀ c ∈ coarse, ∀ p ∈ c, ∀ t ∈ p, 0 ≤ t.volume := by
      intro c hc' p hp
      exact hvp p (e1 ▸ List.mem_flatten.2 ⟨c, hc', hp⟩)
    clear h0 h1 h2 h3 h4 h5 e1
    induction e3 with
    | nil => exact ⟨[], rfl, .nil⟩
    | @cons c g cs gs hcg _ ih =>
      obtain ⟨res, r1, r2⟩ := ih (fun g hg => e2 g (by simp [hg]))
        (fun c hc' => hvc c (by simp [hc']))
      obtain ⟨B, b1, b2⟩ := resampleBarStats_spec c g.2 (e2 c (by simp)) hcg (hvc c (by simp))
      refine ⟨B :: res, ?_, .cons b2 r2⟩
      rw [mapM_cons_py, b1, r1]; rfl
  obtain ⟨res, r1, r2⟩ := hres
  have hcut : IsCut ticks (coarse.map List.flatten) res := by
    refine ⟨?_, ?_, ?_⟩
    · rw [← hc.flatten, ← e1]
      induction coarse with
      | nil => rfl
      | cons a l _ => simp [List.flatten_flatten]
    · intro p hp
      rw [List.mem_map] at hp
      obtain ⟨c, hc', rfl⟩ := hp
      have hne := e2 c hc'
      obtain ⟨q, qs, rfl⟩ := List.exists_cons_of_ne_nil hne
      have hq : q ≠ [] := hc.nonempty q (e1 ▸ List.mem_flatten.2 ⟨q :: qs, hc', by simp⟩)
      simp [hq]
    · rw [List.forall₂_map_left_iff]; exact r2
  refine ⟨res, cumIds f (bars.map Bar.volume), coarse, ?_, e1, hcut, ?_, ?_⟩
  · unfold resampleTimeToVolumeBars groupResampledBars
    rw [if_neg hf.ne']
    simp only [h0, r1, py_bind_ok, py_pure]
  · rw [sum_volume_of_forall₂ hcut.bars, sum_volume_of_forall₂ hc.bars, hcut.flatten, hc.flatten]
  · intro c hc' p hp
    obtain ⟨i, hi, rfl⟩ := List.mem_iff_getElem.1 hc'
    have hgl := List.forall₂_iff_get.1 e3
    have hig : i < gs.length := hgl.1 ▸ hi
    have h6 := hgl.2 i hi hig
    rw [List.get_eq_getElem, List.get_eq_getElem] at h6
    have hsplit : gs = gs.take i ++ ((gs[i]).1, (gs[i]).2) :: gs.drop (i + 1) := by
      simp
    obtain ⟨l, hl⟩ := List.head?_eq_some_iff.1 hp
    rw [hl] at h6
    rcases hgi : (gs[i]).2 with _ | ⟨b0, bl⟩
    · rw [hgi] at h6; cases h6
    rw [hgi] at h6
    have h7 := cumGroups_first Bar.volume f (gs.take i) (gs[i]).1 (gs[i]).2 b0 bl hgi
      (h5 _ _ _ _ hsplit)
    have h8 : qty Bar.volume (gs[i]).2 = volumeOf (coarse[i]).flatten := by
      rw [hl, hgi]; exact sum_volume_of_forall₂ h6
    have h9 : b0.volume = volumeOf p := by cases h6 with | cons a _ => exact a.volume
    rw [h8, h9] at h7
    exact h7

end Floor

/-- Fine bars of the sample ticks: pieces of sizes 1, 1, 1, 2. -/
example : (groupTicksToBars ([0, 1, 2, 3, 3] : List ℤ) sampleTicks >>=
      resampleTimeToVolumeBars 5).toOption.map
      (fun r => (r.1.map Bar.volume, r.1.map Bar.close, r.2)) =
    some ([3, 6], [12, 9], [0, 0, 1, 1]) := by decide +kernel

/-! ## C15 -/

/-- The tick falls into the interval number `b` of length `freq`. -/
def InInterval (freq b : ℤ) (t : Tick K) : Prop := b * freq ≤ t.time ∧ t.time < (b + 1) * freq

instance (freq b : ℤ) (t : Tick K) : Decidable (InInterval freq b t) := by
  unfold InInterval; infer_instance

/-- C15, what is claimed: time bars exist for every non-empty stream. -/
def TimeBarsTotal (K : Type) [Field K] [LinearOrder K] : Prop :=
  ∀ (freq : ℤ) (ticks : List (Tick K)), 0 < freq → ticks ≠ [] →
    ∃ bars, aggregateTimeBars freq ticks = .ok bars

/-- C15 is false: ticks at times 0 and 2 with interval 1 leave the interval [1,2) empty and the call
raises IndexError. -/
theorem C15_time_bars_gap_counterexample : ¬ TimeBarsTotal ℚ := by
  intro h
  obtain ⟨bars, hb⟩ := h 1 [⟨0, 1, 1⟩, ⟨2, 1, 1⟩] (by norm_num) (by simp)
  have : aggregateTimeBars 1 ([⟨0, 1, 1⟩, ⟨2, 1, 1⟩] : List (Tick ℚ)) = .error .indexError := by
    decide +kernel
  rw [this] at hb
  cases hb

/-- C15, the part that holds.  Let `lo`, `hi` be the numbers of the intervals of the earliest and
latest tick.  If every interval in between contains a tick there is one bar per interval, stamped
with the left edge and summarising exactly its ticks; otherwise the call raises IndexError.
Missing for C15: a result for streams with an empty interval. -/
theorem C15_time_bars_partial (freq : ℤ) (hf : 0 < freq) (ticks : List (Tick K)) (lo hi : ℤ)
    (hlo : (∃ t ∈ ticks, InInterval freq lo t) ∧ ∀ t ∈ ticks, lo * freq ≤ t.time)
    (hhi : (∃ t ∈ ticks, InInterval freq hi t) ∧ ∀ t ∈ ticks, t.time < (hi + 1) * freq) :
    ((∀ b, lo ≤ b → b ≤ hi → ∃ t ∈ ticks, InInterval freq b t) →
      ∃ bars, aggregateTimeBars freq ticks = .ok bars ∧ (bars.length : ℤ) = hi - lo + 1 ∧
        ∀ i (h : i < bars.length), bars[i].time = (lo + i) * freq ∧
          IsSummary (ticks.filter fun t => InInterval freq (lo + i) t) bars[i]) ∧
    ((∃ b, lo ≤ b ∧ b ≤ hi ∧ ∀ t ∈ ticks, ¬ InInterval freq b t) →
      aggregateTimeBars freq ticks = .error .indexError) := by
  have hdiv : ∀ (x b : ℤ), x / freq = b ↔ b * freq ≤ x ∧ x < (b + 1) * freq := by
    intro x b
    constructor
    · rintro rfl
      exact ⟨Int.ediv_mul_le x hf.ne', Int.lt_ediv_add_one_mul_self x hf⟩
    · rintro ⟨h1, h2⟩
      have h3 : b ≤ x / freq := (Int.le_ediv_iff_mul_le hf).2 h1
      have h4 : x / freq < b + 1 := (Int.ediv_lt_iff_lt_mul hf).2 h2
      omega
  obtain ⟨⟨tl, htl, htl2⟩, hlo2⟩ := hlo
  obtain ⟨⟨th, hth, hth2⟩, hhi2⟩ := hhi
  cases ticks with
  | nil => simp at htl
  | cons t0 rest =>
    have hmin := foldl_min_isLeast t0.time (rest.map Tick.time)
    have hmax := foldl_max_isGreatest t0.time (rest.map Tick.time)
    rw [← List.map_cons (f := Tick.time)] at hmin hmax
    have elo : (rest.map Tick.time).foldl min t0.time / freq = lo := by
      rw [hdiv]
      obtain ⟨m1, m2⟩ := hmin
      have m1' : ∃ t ∈ t0 :: rest, t.time = (rest.map Tick.time).foldl min t0.time := by
        exact List.mem_map.1 m1
      obtain ⟨t, ht, hte⟩ := m1'
      refine ⟨hte ▸ hlo2 t ht, lt_of_le_of_lt (m2 ?_) htl2.2⟩
      exact List.mem_map.2 ⟨tl, htl, rfl⟩
    have ehi : (rest.map Tick.time).foldl max t0.time / freq = hi := by
      rw [hdiv]
      obtain ⟨m1, m2⟩ := hmax
      have m1' : ∃ t ∈ t0 :: rest, t.time = (rest.map Tick.time).foldl max t0.time := by
        exact List.mem_map.1 m1
      obtain ⟨t, ht, hte⟩ := m1'
      refine ⟨le_trans hth2.1 (m2 ?_), hte ▸ hhi2 t ht⟩
      exact List.mem_map.2 ⟨th, hth, rfl⟩
    have hfil : ∀ b, ((t0 :: rest).filter fun t => decide (t.time / freq = b)) =
        (t0 :: rest).filter fun t => decide (InInterval freq b t) := by
      intro b
      apply List.filter_congr
      intro t _
      simp only [InInterval, hdiv]
    have hle : lo ≤ hi := by
      by_contra hc
      have h1 := hlo2 th hth
      have h2 := hth2.2
      have h3 : (hi + 1) * freq ≤ lo * freq :=
        mul_le_mul_of_nonneg_right (by omega) hf.le
      omega
    have hm : aggregateTimeBars freq (t0 :: rest) =
        ((List.range (hi - lo + 1).toNat).map fun i => lo + ((i : ℕ) : ℤ)).mapM fun b => (do
          let bar ← computeBarStats ((t0 :: rest).filter fun t => decide (InInterval freq b t))
          return { bar with time := b * freq }) := by
      have hneg : ¬ freq ≤ 0 := by omega
      simp only [aggregateTimeBars, if_neg hneg, elo, ehi, hfil]
    constructor
    · intro hall
      have hbar : ∀ b, ∃ bar, lo ≤ b → b ≤ hi →
          (computeBarStats ((t0 :: rest).filter fun t => decide (InInterval freq b t)) = .ok bar)
          := by
        intro b
        by_cases hb : lo ≤ b ∧ b ≤ hi
        · obtain ⟨t, ht, hti⟩ := hall b hb.1 hb.2
          obtain ⟨bar, hbar⟩ := computeBarStats_ok
            ((t0 :: rest).filter fun t => decide (InInterval freq b t)) (by
              intro h0
              have : t ∈ (t0 :: rest).filter fun t => decide (InInterval freq b t) :=
                List.mem_filter.2 ⟨ht, by simpa using hti⟩
              rw [h0] at this
              simp at this)
          exact ⟨bar, fun _ _ => hbar⟩
        · exact ⟨⟨0, 0, 0, 0, 0, 0, none⟩, fun h1 h2 => absurd ⟨h1, h2⟩ hb⟩
      choose bar hbar using hbar
      refine ⟨((List.range (hi - lo + 1).toNat).map fun i => lo + ((i : ℕ) : ℤ)).map
        fun b => { bar b with time := b * freq }, ?_, ?_, ?_⟩
      · rw [hm]
        apply mapM_ok_of_forall
        intro b hb
        rw [List.mem_map] at hb
        obtain ⟨i, hi', rfl⟩ := hb
        rw [List.mem_range] at hi'
        rw [hbar _ (by omega) (by omega)]
        rfl
      · simp only [List.length_map, List.length_range]
        omega
      · intro i hi'
        simp only [List.length_map, List.length_range] at hi'
        simp only [List.getElem_map, List.getElem_range]
        refine ⟨trivial, ?_⟩
        have := (computeBarStats_iff _ _).1 (hbar (lo + i) (by omega) (by omega))
        exact ⟨this.opens, this.closes, this.high, this.low, this.volume, this.vwap_none,
          this.vwap_some⟩
    · rintro ⟨b, hb1, hb2, hb3⟩
      rw [hm]
      -- every element either succeeds or raises IndexError; interval `b` raises
      have hel : ∀ c : ℤ, (∃ x, (do
          let bar ← computeBarStats ((t0 :: rest).filter fun t => decide (InInterval freq c t))
          return { bar with time := c * freq } : Py (Bar K)) = .ok x) ∨
          (do
          let bar ← computeBarStats ((t0 :: rest).filter fun t => decide (InInterval freq c t))
          return { bar with time := c * freq } : Py (Bar K)) = .error .indexError := by
        intro c
        by_cases h0 : ((t0 :: rest).filter fun t => decide (InInterval freq c t)) = []
        · right; rw [h0]; rfl
        · left
          obtain ⟨x, hx⟩ := computeBarStats_ok _ h0
          rw [hx]; exact ⟨_, rfl⟩
      have hbn : (do
          let bar ← computeBarStats ((t0 :: rest).filter fun t => decide (InInterval freq b t))
          return { bar with time := b * freq } : Py (Bar K)) = .error .indexError := by
        have : ((t0 :: rest).filter fun t => decide (InInterval freq b t)) = [] := by
          rw [List.filter_eq_nil_iff]
          intro t ht
          simpa using hb3 t ht
        rw [this]; rfl
      have hmem : b ∈ (List.range (hi - lo + 1).toNat).map fun i => lo + ((i : ℕ) : ℤ) := by
        rw [List.mem_map]
        refine ⟨(b - lo).toNat, by rw [List.mem_range]; omega, by omega⟩
      generalize (List.range (hi - lo + 1).toNat).map (fun i => lo + ((i : ℕ) : ℤ)) = l at hmem
      induction l with
      | nil => simp at hmem
      | cons c l ih =>
        rw [mapM_cons_py]
        rcases hel c with ⟨x, hx⟩ | hx
        · rw [hx]
          rcases List.mem_cons.1 hmem with rfl | hmem
          · rw [hx] at hbn; cases hbn
          · rw [ih hmem]; rfl
        · rw [hx]; rfl

example : (aggregateTimeBars 2 ([⟨0, 1, 1⟩, ⟨1, 5, 1⟩, ⟨3, 2, 1⟩] : List (Tick ℚ))).toOption.map
    (fun bars => (bars.map Bar.time, bars.map Bar.high)) = some ([0, 2], [5, 2]) := by decide +kernel

end FinML.Bars
