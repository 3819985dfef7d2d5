import Verif.Micro.MergeProps
import Verif.Bars.Props

/-! # VPIN of the library's own volume bars (C343) -/

set_option linter.unusedSectionVars false

namespace FinML.Micro

open Bars (Tick Bar aggregateVolumeBars volumeOf)

/-- The frame with bar ids that `aggregate_volume_bars(..., return_bar_id=True)` returns, as the argument of
`volume_synchronized_pin`. -/
def pinTicks {K : Type} (ticks : List (Tick K)) (ids : List ℤ) : List (BTick K) :=
  List.zipWith (fun t k => ⟨t.price, t.volume, k⟩) ticks ids

/-- C343, full claim: a probability of informed trading of volume bars is at most 1. -/
def PinAtMostOne (K : Type) [Field K] [LinearOrder K] [IsStrictOrderedRing K] [FloorRing K] : Prop :=
  ∀ (ticks : List (Tick K)) (f b0 : K) (n : ℕ) (bars : List (Bar K)) (ids : List ℤ), 0 < f → 1 ≤ n →
    (b0 = 1 ∨ b0 = -1) → (∀ t ∈ ticks, 0 ≤ t.volume ∧ t.volume ≤ f) → aggregateVolumeBars f ticks = .ok (bars, ids) →
    ∀ (i : ℕ) v, ((vpin (pinTicks ticks ids) f n b0).map Prod.snd)[i]? = some (some v) → v ≤ 1

/-- C343 fails: bars of 10 with trades of 1, 10 and 8; the second bar has the volume 18, and 1.8 is no probability. -/
theorem C343_counterexample : ¬ PinAtMostOne ℚ := by
  intro h
  have hr : aggregateVolumeBars (10 : ℚ) [⟨0, 1, 1⟩, ⟨1, 2, 10⟩, ⟨2, 3, 8⟩] =
      .ok ([⟨0, 1, 1, 1, 1, 1, some 1⟩, ⟨1, 2, 3, 2, 3, 18, some (22 / 9)⟩], [0, 1, 1]) := by decide +kernel
  have := h _ 10 1 1 _ _ (by norm_num) le_rfl (.inl rfl) (by decide +kernel) hr 1 (9 / 5) (by decide +kernel)
  norm_num at this

section Bound

variable {K : Type} [Field K] [LinearOrder K] [IsStrictOrderedRing K]

theorem pin_volumes (ticks : List (Tick K)) (ids : List ℤ) (hl : ids.length = ticks.length) :
    (pinTicks ticks ids).map (fun t => t.volume) = ticks.map Tick.volume ∧
      (pinTicks ticks ids).map (fun t => t.bar) = ids := by
  unfold pinTicks
  induction ticks generalizing ids with
  | nil => simp only [List.length_nil, List.length_eq_zero_iff] at hl; simp [hl]
  | cons t ts ih =>
    cases ids with
    | nil => simp at hl
    | cons k ks =>
      obtain ⟨h1, h2⟩ := ih ks (by simpa using hl)
      simp [h1, h2]

theorem pin_barVolume (ticks : List (Tick K)) (ids : List ℤ) (k : ℤ) :
    barVolume (pinTicks ticks ids) k = volumeOf (((ids.zip ticks).filter fun p => p.1 = k).map Prod.snd) := by
  unfold barVolume pinTicks volumeOf
  induction ticks generalizing ids with
  | nil => simp
  | cons t ts ih =>
    cases ids with
    | nil => simp
    | cons j ks =>
      rw [List.zipWith_cons_cons, List.zip_cons_cons, List.filter_cons, List.filter_cons]
      by_cases h : j = k
      · simp only [h, decide_true, if_true, List.map_cons, List.sum_cons]
        rw [ih ks]
      · simp only [h, decide_false]
        exact ih ks

/-- Bars of at most `B` have VPIN of at most `B` over the nominal volume. -/
theorem vpin_le (ticks : List (BTick K)) (vpb b0 B : K) (n : ℕ) (hn : 1 ≤ n) (hv : 0 < vpb) (hb : b0 = 1 ∨ b0 = -1)
    (hvol : ∀ t ∈ ticks, 0 ≤ t.volume) (hB : ∀ k ∈ barIds ticks, barVolume ticks k ≤ B) (i : ℕ) (v : K)
    (h : ((vpin ticks vpb n b0).map Prod.snd)[i]? = some (some v)) : 0 ≤ v ∧ v ≤ B / vpb := by
  have hn0 : (0 : K) < n := by exact_mod_cast hn
  obtain ⟨col, h1, h2⟩ := vpin_eq ticks vpb b0 n hn hv hb
  rw [h1, List.map_snd_zip (by rw [h2.1])] at h
  have hi : i < (barIds ticks).length := by
    by_contra hc
    rw [List.getElem?_eq_none (by rw [h2.1]; omega)] at h
    cases h
  have h3 := h2.2 i hi
  rw [h] at h3
  split_ifs at h3 with hlo
  · cases h3
  · simp only [Option.some.injEq] at h3
    subst h3
    refine ⟨by positivity, ?_⟩
    have : ∀ j ∈ Finset.range n, |imbalance ticks b0 ((barIds ticks).getD (i + 1 - n + j) 0)| ≤ B := by
      intro j hj
      rw [Finset.mem_range] at hj
      refine (imbalance_le ticks b0 hb hvol _).trans (hB _ ?_)
      rw [List.getD_eq_getElem _ _ (by omega)]
      exact List.getElem_mem _
    have hle := (Finset.abs_sum_le_sum_abs (fun j => imbalance ticks b0 ((barIds ticks).getD (i + 1 - n + j) 0))
      (Finset.range n)).trans (Finset.sum_le_sum this)
    rw [Finset.sum_const, Finset.card_range, nsmul_eq_mul] at hle
    rw [div_le_div_iff₀ (by positivity) hv]
    calc _ ≤ (n : K) * B * vpb := mul_le_mul_of_nonneg_right hle hv.le
      _ = B * (n * vpb) := by ring

variable [FloorRing K]

/-- Every bar of the frame is one of the runs of ticks of C04. -/
theorem pin_bars (ticks : List (Tick K)) (f : K) (hf : 0 < f) (hv : ∀ t ∈ ticks, 0 ≤ t.volume) (bars : List (Bar K))
    (ids : List ℤ) (h : aggregateVolumeBars f ticks = .ok (bars, ids)) :
    ids.length = ticks.length ∧ ∀ k ∈ ids, ∃ g t, barVolume (pinTicks ticks ids) k = volumeOf g ∧ (∀ x ∈ g, x ∈ ticks) ∧
      t ∈ g ∧ volumeOf g < f + t.volume := by
  obtain ⟨bars', ids', pieces, h1, h2, h3, h4, h5⟩ := Bars.C04_volume_bars f hf ticks hv
  rw [h] at h1
  cases h1
  have hflat : ticks = pieces.flatMap Prod.snd := by rw [← h2.flatten, List.flatMap_def]
  refine ⟨?_, ?_⟩
  · rw [h4, hflat]
    simp [List.length_flatMap]
  · intro k hk
    rw [h4, List.mem_flatMap] at hk
    obtain ⟨⟨k', g⟩, hp, hk'⟩ := hk
    rw [List.mem_replicate] at hk'
    obtain ⟨-, rfl⟩ := hk'
    obtain ⟨pre, post, hsplit⟩ := List.append_of_mem hp
    have hg : g ≠ [] := h2.nonempty g (List.mem_map.2 ⟨_, hp, rfl⟩)
    obtain ⟨t, l, rfl⟩ := List.exists_cons_of_ne_nil hg
    refine ⟨t :: l, t, ?_, ?_, by simp, (h5 pre _ _ post hsplit).2 t rfl⟩
    · rw [pin_barVolume]
      conv_lhs => rw [h4, hflat]
      rw [filter_zip_pieces pieces (h3.imp fun h => h.ne) _ _ hp]
    · intro x hx
      rw [hflat]
      exact List.mem_flatMap.2 ⟨_, hp, hx⟩

/-- C343, what holds: VPIN of volume bars is at least 0 and at most 1 plus the largest trade over the volume of a bar (missing:
at most 1). -/
theorem C343_pin_partial (ticks : List (Tick K)) (f b0 vmax : K) (n : ℕ) (bars : List (Bar K)) (ids : List ℤ) (hf : 0 < f)
    (hn : 1 ≤ n) (hb : b0 = 1 ∨ b0 = -1) (hv : ∀ t ∈ ticks, 0 ≤ t.volume ∧ t.volume ≤ vmax)
    (h : aggregateVolumeBars f ticks = .ok (bars, ids)) (i : ℕ) (v : K)
    (hi : ((vpin (pinTicks ticks ids) f n b0).map Prod.snd)[i]? = some (some v)) : 0 ≤ v ∧ v ≤ 1 + vmax / f := by
  obtain ⟨hl, hbars⟩ := pin_bars ticks f hf (fun t ht => (hv t ht).1) bars ids h
  obtain ⟨e1, e2⟩ := pin_volumes ticks ids hl
  rw [show 1 + vmax / f = (f + vmax) / f by rw [add_div, div_self hf.ne']]
  refine vpin_le _ f b0 _ n hn hf hb ?_ ?_ i v hi
  · intro t ht
    have : t.volume ∈ ticks.map Tick.volume := by rw [← e1]; exact List.mem_map.2 ⟨t, ht, rfl⟩
    obtain ⟨u, hu, hu'⟩ := List.mem_map.1 this
    rw [← hu']
    exact (hv u hu).1
  · intro k hk
    rw [barIds_eq, mem_groupKeys, e2] at hk
    obtain ⟨g, t, h1, h2, h3, h4⟩ := hbars k hk
    rw [h1]
    have := (hv t (h2 t h3)).2
    linarith

/-- C343.  If all trades have the same size and a bar is a whole number of trades, VPIN is at most 1. -/
theorem C343_equal_trades (ticks : List (Tick K)) (f b0 c : K) (m n : ℕ) (bars : List (Bar K)) (ids : List ℤ) (hm : 1 ≤ m)
    (hc : 0 < c) (hf : f = m * c) (hn : 1 ≤ n) (hb : b0 = 1 ∨ b0 = -1) (hv : ∀ t ∈ ticks, t.volume = c)
    (h : aggregateVolumeBars f ticks = .ok (bars, ids)) (i : ℕ) (v : K)
    (hi : ((vpin (pinTicks ticks ids) f n b0).map Prod.snd)[i]? = some (some v)) : 0 ≤ v ∧ v ≤ 1 := by
  have hm0 : (0 : K) < m := by exact_mod_cast hm
  have hf0 : 0 < f := by rw [hf]; positivity
  obtain ⟨hl, hbars⟩ := pin_bars ticks f hf0 (fun t ht => by rw [hv t ht]; exact hc.le) bars ids h
  obtain ⟨e1, e2⟩ := pin_volumes ticks ids hl
  rw [← div_self hf0.ne']
  refine vpin_le _ f b0 _ n hn hf0 hb ?_ ?_ i v hi
  · intro t ht
    have : t.volume ∈ ticks.map Tick.volume := by rw [← e1]; exact List.mem_map.2 ⟨t, ht, rfl⟩
    obtain ⟨u, hu, hu'⟩ := List.mem_map.1 this
    rw [← hu', hv u hu]
    exact hc.le
  · intro k hk
    rw [barIds_eq, mem_groupKeys, e2] at hk
    obtain ⟨g, t, h1, h2, h3, h4⟩ := hbars k hk
    have hg : volumeOf g = g.length * c := by
      have : g.map Tick.volume = List.replicate g.length c := by
        rw [List.eq_replicate_iff]
        refine ⟨by simp, fun x hx => ?_⟩
        obtain ⟨u, hu, rfl⟩ := List.mem_map.1 hx
        exact hv u (h2 u hu)
      unfold volumeOf
      rw [this, List.sum_replicate, nsmul_eq_mul]
    rw [hg, hv t (h2 t h3), hf] at h4
    have h5 : (g.length : K) < m + 1 := by
      by_contra hcon
      push Not at hcon
      have := mul_le_mul_of_nonneg_right hcon hc.le
      linarith
    have h6 : g.length ≤ m := by
      have : g.length < m + 1 := by exact_mod_cast h5
      omega
    rw [h1, hg, hf]
    exact mul_le_mul_of_nonneg_right (by exact_mod_cast h6) hc.le

end Bound

/-- Six trades of 1 in bars of 3. -/
example : (aggregateVolumeBars (3 : ℚ) ((List.range 6).map fun i : ℕ => ⟨(i : ℤ), (i : ℚ), 1⟩)).toOption.map Prod.snd =
      some [0, 0, 1, 1, 1, 2] ∧
    (vpin (pinTicks ((List.range 6).map fun i : ℕ => ⟨(i : ℤ), (i : ℚ), 1⟩) [0, 0, 1, 1, 1, 2]) 3 1 1).map Prod.snd =
      [some (2 / 3), some 1, some (1 / 3)] := by
  decide +kernel

end FinML.Micro
