import Verif.Bars.MissProps
import Mathlib.Data.List.TakeWhile

/-!
# Frequencies that are not positive (C347)

pandas gives the bar ids ∞ and NaN for `freq = 0` and ids that fall with time for `freq < 0`; `groupby` sorts them.
-/

namespace FinML.Bars

set_option linter.unusedSectionVars false

variable {K : Type} [Field K] [LinearOrder K] [IsStrictOrderedRing K] [FloorRing K]

/-- C347, the full claim: a frequency that is not positive raises. -/
def RefusesFreq (K : Type) [Field K] [LinearOrder K] [IsStrictOrderedRing K] [FloorRing K] : Prop :=
  ∀ (f : K) (ticks : List (MTick K)), f ≤ 0 → ticks ≠ [] → ∃ e, aggregateVolumeBarsM f ticks = .error e

/-- C347.  Zero gives one bar of everything, a negative frequency the bars in reverse order of time. -/
theorem C347_counterexample : ¬ RefusesFreq ℚ ∧
    aggregateVolumeBarsM (-1 : ℚ) [⟨0, some 10, some 1⟩, ⟨1, some 20, some 1⟩] =
      .ok ([⟨1, some 20, some 20, some 20, some 20, 1, some 20⟩, ⟨0, some 10, some 10, some 10, some 10, 1, some 10⟩],
        [some (barId (-1)), some (barId (-2))]) := by
  refine ⟨fun h => ?_, by decide +kernel⟩
  have hr : aggregateVolumeBarsM (0 : ℚ) [⟨0, some 10, some 1⟩, ⟨1, some 20, some 1⟩] =
      .ok ([⟨0, some 10, some 20, some 10, some 20, 2, some 15⟩], [some ⊤, some ⊤]) := by
    decide +kernel
  obtain ⟨e, he⟩ := h 0 [⟨0, some 10, some 1⟩, ⟨1, some 20, some 1⟩] le_rfl (by simp)
  rw [hr] at he
  cases he

theorem groupBy_const {ι α : Type} [LinearOrder ι] (k : ι) (xs : List α) (h : xs ≠ []) :
    groupBy (xs.map fun _ => k) xs = [(k, xs)] := by
  have hk : groupKeys (xs.map fun _ => k) = [k] := by
    refine List.Perm.eq_of_pairwise' (r := (· ≤ ·)) ((groupKeys_lt _).imp le_of_lt) (List.pairwise_singleton _ _) ?_
    rw [List.perm_ext_iff_of_nodup (groupKeys_nodup _) (List.nodup_singleton _)]
    intro a
    rw [mem_groupKeys]
    cases xs with
    | nil => exact absurd rfl h
    | cons x xs => simp [eq_comm]
  rw [groupBy_def, hk]
  simp only [List.map_cons, List.map_nil, List.cons.injEq, Prod.mk.injEq, true_and, and_true]
  clear h hk
  induction xs with
  | nil => rfl
  | cons x xs ih => simpa using ih

/-- One bar, with the id of all ticks. -/
theorem groupTicksM_one {ids : List (Option BarId)} {ticks : List (MTick K)} (rest : List (Tick K)) (k : BarId)
    (h : keyed ids ticks = rest.map fun t => (k, t.complete)) :
    (rest = [] → groupTicksM ids ticks = .ok []) ∧
    (rest ≠ [] → ∃ b, IsBarOf rest b ∧ groupTicksM ids ticks = .ok [b.complete]) := by
  unfold groupTicksM
  rw [h, List.map_map, List.map_map]
  constructor
  · rintro rfl
    rfl
  · intro hne
    have e : (rest.map (Prod.fst ∘ fun t : Tick K => (k, t.complete))) = (rest.map Tick.complete).map fun _ => k := by
      rw [List.map_map]
      rfl
    have e2 : rest.map (Prod.snd ∘ fun t : Tick K => (k, t.complete)) = rest.map Tick.complete := rfl
    rw [e, e2, groupBy_const k _ (by simpa using hne)]
    obtain ⟨b, hb⟩ := computeBarStats_ok rest hne
    refine ⟨b, (computeBarStats_iff _ _).1 hb, ?_⟩
    rw [mapM_cons_py, barStatsM_complete, hb]
    rfl

theorem keyed_zero (ticks : List (Tick K)) (hv : ∀ t ∈ ticks, 0 ≤ t.volume) (s : K) (hs : 0 ≤ s) :
    keyed ((cumsumSkip s ((ticks.map Tick.complete).map MTick.volume)).map fun c => c.bind fun c => floorDivM c 0)
        (ticks.map Tick.complete) =
      (if 0 < s then ticks else ticks.dropWhile fun t => t.volume = 0).map fun t => (⊤, t.complete) := by
  induction ticks generalizing s with
  | nil => simp [keyed]
  | cons t ts ih =>
    have h0 := hv t (by simp)
    have h1 := ih (fun t ht => hv t (by simp [ht])) (s + t.volume) (add_nonneg hs h0)
    have e : cumsumSkip s (((t :: ts).map Tick.complete).map MTick.volume) =
        some (s + t.volume) :: cumsumSkip (s + t.volume) ((ts.map Tick.complete).map MTick.volume) := rfl
    rw [e]
    simp only [keyed, List.map_cons, List.zip_cons_cons, Option.bind_some, List.filterMap_cons] at h1 ⊢
    rw [h1]
    by_cases hp : 0 < s + t.volume
    · rw [if_pos hp]
      have e2 : (if 0 < s then t :: ts else (t :: ts).dropWhile fun t => t.volume = 0) = t :: ts := by
        split_ifs with h
        · rfl
        · have : t.volume ≠ 0 := by
            intro h'
            rw [h', add_zero] at hp
            exact h hp
          simp [this]
      rw [e2]
      simp [floorDivM, hp]
    · have hz : s = 0 ∧ t.volume = 0 := by
        have := not_lt.1 hp
        exact ⟨by linarith, by linarith⟩
      rw [hz.1, hz.2, if_neg (by simp), if_neg (lt_irrefl _)]
      simp [floorDivM, hz.2]

/-- C347, what `freq = 0` gives.  One volume bar of all ticks from the first trade on, and one tick bar of all ticks but the
first (missing from the full claim: the error). -/
theorem C347_zero_partial (ticks : List (Tick K)) (hv : ∀ t ∈ ticks, 0 ≤ t.volume) :
    ((∀ t ∈ ticks, t.volume = 0) → (aggregateVolumeBarsM 0 (ticks.map Tick.complete)).map Prod.fst = .ok []) ∧
    (∀ zeros first rest, ticks = zeros ++ first :: rest → (∀ t ∈ zeros, t.volume = 0) → 0 < first.volume →
      ∃ b, IsBarOf (first :: rest) b ∧
        (aggregateVolumeBarsM 0 (ticks.map Tick.complete)).map Prod.fst = .ok [b.complete]) ∧
    ∀ first second rest, ticks = first :: second :: rest →
      ∃ b, IsBarOf (second :: rest) b ∧ aggregateTickBarsM 0 (ticks.map Tick.complete) = .ok [b.complete] := by
  have hk := keyed_zero ticks hv 0 le_rfl
  rw [if_neg (lt_irrefl _)] at hk
  have hone := groupTicksM_one _ _ hk
  have hfst : ∀ r, groupTicksM (cumIdsM 0 ((ticks.map Tick.complete).map MTick.volume)) (ticks.map Tick.complete) = .ok r →
      (aggregateVolumeBarsM 0 (ticks.map Tick.complete)).map Prod.fst = .ok r := by
    intro r hr
    unfold aggregateVolumeBarsM
    simp only
    rw [hr]
    rfl
  refine ⟨fun h => hfst _ (hone.1 ?_), ?_, ?_⟩
  · rw [List.dropWhile_eq_nil_iff]
    simpa using h
  · rintro zeros first rest rfl hz hpos
    have e : (zeros ++ first :: rest).dropWhile (fun t => t.volume = 0) = first :: rest := by
      rw [List.dropWhile_append_of_pos (by simpa using hz)]
      simp [hpos.ne']
    rw [e] at hone
    obtain ⟨b, h1, h2⟩ := hone.2 (by simp)
    exact ⟨b, h1, hfst _ h2⟩
  · rintro first second rest rfl
    have hk' : keyed ((List.range ((first :: second :: rest).map (Tick.complete (K := K))).length).map fun i : ℕ =>
        floorDivM (i : K) 0) ((first :: second :: rest).map Tick.complete) =
        (second :: rest).map fun t => ((⊤ : BarId), t.complete) := by
      rw [List.length_map, List.length_cons, List.range_succ_eq_map, List.map_cons, List.map_map]
      unfold keyed
      rw [List.map_cons, List.zip_cons_cons, List.filterMap_cons_none (by simp [floorDivM])]
      have e : (List.range (second :: rest).length).map ((fun i : ℕ => floorDivM (i : K) 0) ∘ Nat.succ) =
          (second :: rest).map fun _ => some (⊤ : BarId) := by
        rw [List.map_const', ← List.length_range (n := (second :: rest).length), ← List.map_const',
          List.length_range]
        apply List.map_congr_left
        intro i _
        simp [floorDivM]
      rw [e]
      generalize second :: rest = l
      induction l with
      | nil => rfl
      | cons x xs ih => simpa using ih
    exact (groupTicksM_one _ _ hk').2 (by simp)

theorem groupBy_anti {ι κ α : Type} [LinearOrder ι] [LinearOrder κ] {g : ι → κ} (hg : StrictAnti g) (ids : List ι)
    (xs : List α) : groupBy (ids.map g) xs = ((groupBy ids xs).map fun p => (g p.1, p.2)).reverse := by
  have hk : groupKeys (ids.map g) = ((groupKeys ids).map g).reverse := by
    have h1 : ((groupKeys ids).map g).reverse.Pairwise (· < ·) := by
      rw [List.pairwise_reverse]
      exact (groupKeys_lt ids).map g fun a b h => hg h
    refine List.Perm.eq_of_pairwise' (r := (· ≤ ·)) ((groupKeys_lt _).imp le_of_lt) (h1.imp le_of_lt) ?_
    rw [List.perm_ext_iff_of_nodup (groupKeys_nodup _) (h1.imp ne_of_lt)]
    intro k
    simp only [mem_groupKeys, List.mem_map, List.mem_reverse]
  rw [groupBy_def, groupBy_def, hk, ← List.map_reverse, ← List.map_reverse, ← List.map_reverse, List.map_map, List.map_map]
  apply List.map_congr_left
  intro k _
  simp only [Function.comp]
  rw [List.zip_map_left, List.filter_map, List.map_map]
  congr 1
  congr 1
  apply List.filter_congr
  intro p _
  simp [hg.injective.eq_iff]

/-- C347, what `freq < 0` gives.  The stream is cut where the traded volume exceeds a multiple of `-freq`, and the bars come
out in reverse order of time (missing from the full claim: the error). -/
theorem C347_negative_partial (f : K) (hf : f < 0) (ticks : List (Tick K)) (hv : ∀ t ∈ ticks, 0 ≤ t.volume) :
    ∃ bars pieces ids, aggregateVolumeBars f ticks = .ok (bars.reverse, ids) ∧ IsCut ticks pieces bars ∧
      ∀ i < ticks.length, ids[i]? = some (-⌈volumeOf (ticks.take (i + 1)) / -f⌉) := by
  have hid : ∀ i < ticks.length, (cumIds f (ticks.map Tick.volume))[i]? =
      some (-⌈volumeOf (ticks.take (i + 1)) / -f⌉) := by
    intro i hi
    rw [getElem?_cumIds f _ i (by simpa using hi), ← Int.floor_neg, div_neg, neg_neg, volumeOf, List.map_take]
    rfl
  have hlen : (cumIds f (ticks.map Tick.volume)).length = ticks.length := by simp [cumIds_length]
  set ids := cumIds f (ticks.map Tick.volume) with hids
  have hs : (ids.map fun k => -k).Pairwise (· ≤ ·) := by
    rw [List.pairwise_iff_getElem]
    intro i j hi hj hij
    rw [List.length_map, hlen] at hi hj
    have e1 := hid i hi
    have e2 := hid j hj
    rw [List.getElem?_eq_getElem (by omega), Option.some_inj] at e1 e2
    rw [List.getElem_map, List.getElem_map, e1, e2, neg_neg, neg_neg]
    apply Int.ceil_mono
    apply div_le_div_of_nonneg_right _ (by linarith)
    have : ticks.take (j + 1) = ticks.take (i + 1) ++ (ticks.take (j + 1)).drop (i + 1) := by
      conv_lhs => rw [← List.take_append_drop (i + 1) (ticks.take (j + 1)), List.take_take, min_eq_left (by omega)]
    rw [this, volumeOf_append]
    refine le_add_of_nonneg_right (List.sum_nonneg ?_)
    intro x hx
    rw [List.mem_map] at hx
    obtain ⟨t, ht, rfl⟩ := hx
    exact hv t (List.mem_of_mem_take (List.mem_of_mem_drop ht))
  obtain ⟨bars, hb⟩ := groupTicksToBars_ok (ids.map fun k => -k) ticks (by simpa using hlen)
  refine ⟨bars, _, ids, ?_, isCut_of_sorted _ ticks (by simpa using hlen) hs bars hb, hid⟩
  have hb' := (groupTicksToBars_iff _ _ _).1 hb
  rw [groupBy_anti (g := fun k : ℤ => -k) (fun a b h => neg_lt_neg h)] at hb'
  have hb2 := List.forall₂_reverse_iff.2 hb'
  rw [List.reverse_reverse, List.forall₂_map_left_iff] at hb2
  have := (groupTicksToBars_iff ids ticks _).2 hb2
  unfold aggregateVolumeBars
  rw [if_neg hf.ne]
  simp only
  rw [this]
  rfl

example : aggregateVolumeBars (-3 : ℚ) [⟨0, 10, 2⟩, ⟨1, 12, 1⟩, ⟨2, 11, 3⟩] =
    .ok ([⟨2, 11, 11, 11, 11, 3, some 11⟩, ⟨0, 10, 12, 10, 12, 3, some (32 / 3)⟩], [-1, -1, -2]) := by decide +kernel

end FinML.Bars
