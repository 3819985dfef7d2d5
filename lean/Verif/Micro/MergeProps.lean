import Verif.Micro.FlowProps

/-! # VPIN of merged bars (C342) -/

set_option linter.unusedSectionVars false

namespace FinML.Micro

open Bars (tickRule)

section Merge

variable {K : Type} [Field K] [LinearOrder K] [IsStrictOrderedRing K]

/-- The same ticks in larger bars: the first `n` bars are bar 0, the next `n` bars are bar 1, and so on. -/
def merged (n : ℕ) (ticks : List (BTick K)) : List (BTick K) :=
  ticks.map fun t => ⟨t.price, t.volume, (((barIds ticks).idxOf t.bar / n : ℕ) : ℤ)⟩

theorem barIds_eq (ticks : List (BTick K)) : barIds ticks = groupKeys (ticks.map fun t => t.bar) := rfl

theorem mem_barIds (ticks : List (BTick K)) (k : ℤ) : k ∈ barIds ticks ↔ ∃ t ∈ ticks, t.bar = k := by
  rw [barIds_eq, mem_groupKeys, List.mem_map]

theorem barIds_nodup (ticks : List (BTick K)) : (barIds ticks).Nodup :=
  (groupKeys_lt _).imp fun h => h.ne

theorem merged_barIds (n : ℕ) (hn : 1 ≤ n) (ticks : List (BTick K)) :
    barIds (merged n ticks) = (List.range (((barIds ticks).length + n - 1) / n)).map fun j : ℕ => (j : ℤ) := by
  refine sorted_ext (groupKeys_lt _) ?_ ?_
  · rw [List.pairwise_map]
    exact List.pairwise_lt_range.imp fun h => by exact_mod_cast h
  · intro a
    rw [mem_barIds]
    simp only [merged, List.mem_map, List.mem_range, exists_exists_and_eq_and]
    constructor
    · rintro ⟨t, ht, rfl⟩
      refine ⟨_, ?_, rfl⟩
      have := List.idxOf_lt_length_iff.2 ((mem_barIds ticks t.bar).2 ⟨t, ht, rfl⟩)
      rw [Nat.lt_iff_add_one_le, Nat.le_div_iff_mul_le hn]
      have := Nat.div_mul_le_self ((barIds ticks).idxOf t.bar) n
      rw [add_mul, one_mul]
      omega
    · rintro ⟨j, hj, rfl⟩
      have hlt : n * j < (barIds ticks).length := by
        rw [Nat.lt_iff_add_one_le, Nat.le_div_iff_mul_le hn, add_mul, one_mul, mul_comm] at hj
        omega
      obtain ⟨t, ht, hb⟩ := (mem_barIds ticks _).1 (List.getElem_mem hlt)
      refine ⟨t, ht, ?_⟩
      rw [hb, (barIds_nodup ticks).idxOf_getElem, Nat.mul_div_cancel_left _ hn]

theorem sum_blocks {α : Type} (l : List α) (ids : List ℤ) (hd : ids.Nodup) (bar : α → ℤ) (v : α → K) (n j : ℕ) (hn : 1 ≤ n)
    (hj : n * (j + 1) ≤ ids.length) (hl : ∀ p ∈ l, bar p ∈ ids) :
    ((l.filter fun p => (((ids.idxOf (bar p) / n : ℕ) : ℤ)) = (j : ℤ)).map v).sum =
      ∑ k ∈ Finset.range n, ((l.filter fun p => bar p = ids.getD (n * j + k) 0).map v).sum := by
  induction l with
  | nil => simp
  | cons p l ih =>
    have ih := ih fun q hq => hl q (by simp [hq])
    have hp := hl p (by simp)
    have hi := List.idxOf_lt_length_iff.2 hp
    have hg : ∀ k, k < n → (bar p = ids.getD (n * j + k) 0 ↔ ids.idxOf (bar p) = n * j + k) := by
      intro k hk
      have hlt : n * j + k < ids.length := by rw [mul_add, mul_one] at hj; omega
      rw [List.getD_eq_getElem _ _ hlt]
      constructor
      · intro h
        rw [h, hd.idxOf_getElem]
      · intro h
        have := List.getElem_idxOf hi
        rw [← this]
        simp only [h]
    have hsum : ∀ k ∈ Finset.range n, (((p :: l).filter fun p => bar p = ids.getD (n * j + k) 0).map v).sum =
        (if ids.idxOf (bar p) = n * j + k then v p else 0) +
          ((l.filter fun p => bar p = ids.getD (n * j + k) 0).map v).sum := by
      intro k hk
      rw [List.filter_cons]
      by_cases h : ids.idxOf (bar p) = n * j + k
      · rw [if_pos h, if_pos (by simpa using (hg k (Finset.mem_range.1 hk)).2 h), List.map_cons, List.sum_cons]
      · rw [if_neg h, if_neg (by simpa using fun h' => h ((hg k (Finset.mem_range.1 hk)).1 h')), zero_add]
    rw [Finset.sum_congr rfl hsum, Finset.sum_add_distrib, ← ih, List.filter_cons]
    by_cases h : ids.idxOf (bar p) / n = j
    · rw [if_pos (by simp only [decide_eq_true_eq]; exact_mod_cast h), List.map_cons, List.sum_cons]
      congr 1
      have e := Nat.div_add_mod (ids.idxOf (bar p)) n
      have hlt := Nat.mod_lt (ids.idxOf (bar p)) hn
      rw [h] at e
      rw [Finset.sum_eq_single (ids.idxOf (bar p) % n)]
      · rw [if_pos e.symm]
      · intro k _ hk
        rw [if_neg (by omega)]
      · intro h'
        exact absurd (Finset.mem_range.2 hlt) h'
    · rw [if_neg (by simp only [decide_eq_true_eq]; exact_mod_cast h), Finset.sum_eq_zero, zero_add]
      intro k hk
      rw [if_neg]
      intro h'
      apply h
      rw [h', Nat.mul_add_div hn, Nat.div_eq_of_lt (Finset.mem_range.1 hk), add_zero]

theorem merged_imbalance (n : ℕ) (hn : 1 ≤ n) (ticks : List (BTick K)) (b0 : K) (j : ℕ)
    (hj : n * (j + 1) ≤ (barIds ticks).length) :
    imbalance (merged n ticks) b0 (j : ℤ) =
      ∑ k ∈ Finset.range n, imbalance ticks b0 ((barIds ticks).getD (n * j + k) 0) := by
  have hf : flags (merged n ticks) b0 = flags ticks b0 := by
    unfold flags merged
    rw [List.map_map]
    rfl
  have h := sum_blocks (ticks.zip (flags ticks b0)) (barIds ticks) (barIds_nodup ticks) (fun p => p.1.bar)
    (fun p => p.1.volume * p.2) n j hn hj
    (fun p hp => (mem_barIds ticks _).2 ⟨p.1, (List.of_mem_zip hp).1, rfl⟩)
  unfold imbalance
  rw [← h, hf]
  unfold merged
  rw [List.zip_map_left, List.filter_map, List.map_map]
  rfl

theorem vpin_get (ticks : List (BTick K)) (vpb b0 : K) (n : ℕ) (hn : 1 ≤ n) (hv : 0 < vpb) (hb : b0 = 1 ∨ b0 = -1) (i : ℕ)
    (hi : i < (barIds ticks).length) (hlo : n ≤ i + 1) :
    ((vpin ticks vpb n b0).map Prod.snd)[i]? = some (some
      (|∑ j ∈ Finset.range n, imbalance ticks b0 ((barIds ticks).getD (i + 1 - n + j) 0)| / ((n : K) * vpb))) := by
  obtain ⟨col, h1, h2⟩ := vpin_eq ticks vpb b0 n hn hv hb
  rw [h1, List.map_snd_zip (by rw [h2.1]), h2.2 i hi, if_neg (by omega)]

/-- C342.  VPIN over `n` bars is VPIN over a single bar of `n` times the volume: at the last of each `n` bars it is the value
of the merged bar. -/
theorem C342_merged (ticks : List (BTick K)) (vpb b0 : K) (n : ℕ) (hn : 1 ≤ n) (hv : 0 < vpb) (hb : b0 = 1 ∨ b0 = -1)
    (j : ℕ) (hj : n * (j + 1) ≤ (barIds ticks).length) :
    ∃ v, ((vpin ticks vpb n b0).map Prod.snd)[n * (j + 1) - 1]? = some (some v) ∧
      ((vpin (merged n ticks) ((n : K) * vpb) 1 b0).map Prod.snd)[j]? = some (some v) := by
  have hpos : 1 ≤ n * (j + 1) := Nat.mul_pos hn (by omega)
  have hle : n ≤ n * (j + 1) := Nat.le_mul_of_pos_right n (by omega)
  have hn0 : (0 : K) < n := by exact_mod_cast hn
  refine ⟨_, vpin_get ticks vpb b0 n hn hv hb _ (by omega) (by omega), ?_⟩
  have hk : j < ((barIds ticks).length + n - 1) / n := by
    rw [Nat.lt_iff_add_one_le, Nat.le_div_iff_mul_le hn, mul_comm]
    omega
  rw [vpin_get (merged n ticks) ((n : K) * vpb) b0 1 le_rfl (by positivity) hb j
    (by rw [merged_barIds n hn]; simpa using hk) (by omega)]
  rw [merged_barIds n hn, Finset.sum_range_one, show j + 1 - 1 + 0 = j by omega,
    List.getD_eq_getElem _ _ (by simpa using hk), List.getElem_map, List.getElem_range, merged_imbalance n hn ticks b0 j hj,
    Nat.cast_one, one_mul]
  rw [show n * (j + 1) - 1 + 1 - n = n * j by rw [mul_add, mul_one]; omega]

/-- C342.  In larger bars VPIN never gains: the value of the merged bar is at most the mean of the values of its parts. -/
theorem C342_subadditive (ticks : List (BTick K)) (vpb b0 : K) (n : ℕ) (hn : 1 ≤ n) (hv : 0 < vpb) (hb : b0 = 1 ∨ b0 = -1)
    (j : ℕ) (hj : n * (j + 1) ≤ (barIds ticks).length) :
    ∃ v, ∃ u : ℕ → K, ((vpin (merged n ticks) ((n : K) * vpb) 1 b0).map Prod.snd)[j]? = some (some v) ∧
      (∀ k < n, ((vpin ticks vpb 1 b0).map Prod.snd)[n * j + k]? = some (some (u k))) ∧
      v ≤ (∑ k ∈ Finset.range n, u k) / n := by
  have hn0 : (0 : K) < n := by exact_mod_cast hn
  have hk : j < ((barIds ticks).length + n - 1) / n := by
    rw [Nat.lt_iff_add_one_le, Nat.le_div_iff_mul_le hn, mul_comm]
    omega
  refine ⟨_, fun k => |imbalance ticks b0 ((barIds ticks).getD (n * j + k) 0)| / vpb, vpin_get (merged n ticks) ((n : K) * vpb) b0 1 le_rfl (by positivity) hb j
    (by rw [merged_barIds n hn]; simpa using hk) (by omega), ?_, ?_⟩
  · intro k hkn
    rw [vpin_get ticks vpb b0 1 le_rfl hv hb _ (by rw [mul_add, mul_one] at hj; omega) (by omega), Finset.sum_range_one,
      Nat.cast_one, one_mul]
    rfl
  · rw [merged_barIds n hn, Finset.sum_range_one, show j + 1 - 1 + 0 = j by omega,
      List.getD_eq_getElem _ _ (by simpa using hk), List.getElem_map, List.getElem_range,
      merged_imbalance n hn ticks b0 j hj, Nat.cast_one, one_mul, ← Finset.sum_div, div_div, mul_comm vpb]
    exact div_le_div_of_nonneg_right (Finset.abs_sum_le_sum_abs _ _) (by positivity)

end Merge

/-- Four bars; in pairs the second pair trades 3 up and 1 down of 4. -/
example : (vpin (merged 2 [⟨1, 2, 5⟩, ⟨2, 2, 7⟩, ⟨3, 2, 8⟩, ⟨4, 1, 9⟩, ⟨3, 1, 9⟩] : List (BTick ℚ)) 4 1 1).map Prod.snd =
    [some 1, some (1 / 2)] ∧
    ((vpin ([⟨1, 2, 5⟩, ⟨2, 2, 7⟩, ⟨3, 2, 8⟩, ⟨4, 1, 9⟩, ⟨3, 1, 9⟩] : List (BTick ℚ)) 2 2 1).map Prod.snd) =
    [none, some 1, some 1, some (1 / 2)] := by
  decide +kernel

end FinML.Micro
