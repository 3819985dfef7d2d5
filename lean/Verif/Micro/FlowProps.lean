import Verif.Micro.Props
import Verif.Bars.EwmaProps
import Verif.Py.GroupBy
import Mathlib.Data.Rat.Floor

/-! # Properties C62-C64: VPIN and price impact regressions -/

set_option linter.unusedSectionVars false

namespace FinML.Micro

open Bars (tickRule)

/-! ## C62 -/

section Vpin

variable {K : Type} [Field K] [LinearOrder K] [IsStrictOrderedRing K]

/-- Flag of each tick. -/
def flags (ticks : List (BTick K)) (b0 : K) : List K := tickRule b0 (ticks.map fun t => t.price)

/-- Buy volume minus sell volume of bar `k`. -/
def imbalance (ticks : List (BTick K)) (b0 : K) (k : ℤ) : K :=
  (((ticks.zip (flags ticks b0)).filter fun p => p.1.bar = k).map fun p => p.1.volume * p.2).sum

/-- Volume of bar `k`. -/
def barVolume (ticks : List (BTick K)) (k : ℤ) : K :=
  ((ticks.filter fun t => t.bar = k).map fun t => t.volume).sum

/-- The bars in order. -/
def barIds (ticks : List (BTick K)) : List ℤ := (ticks.map fun t => t.bar).dedup.insertionSort (· ≤ ·)

theorem flags_length (ticks : List (BTick K)) (b0 : K) : (flags ticks b0).length = ticks.length := by
  simp [flags]

theorem netVolume_eq (t : BTick K) (a : K) (h : a = 1 ∨ a = -1) : netVolume t a = t.volume * a := by
  have hne : (1 : K) ≠ -1 := by
    intro h; have : (1 : K) + 1 = 0 := by linear_combination h
    have h2 : (0 : K) < 1 + 1 := by positivity
    linarith
  unfold netVolume
  rcases h with rfl | rfl
  · rw [if_pos rfl, if_neg hne]; ring
  · rw [if_neg (Ne.symm hne), if_pos rfl]; ring

theorem filter_zip_sum {β : Type} (ticks : List (BTick K)) (fl : List K) (f : BTick K → K → β) (k : ℤ) :
    (((ticks.map fun t => t.bar).zip (List.zipWith f ticks fl)).filter fun p => p.1 = k).map Prod.snd =
      ((ticks.zip fl).filter fun p => p.1.bar = k).map fun p => f p.1 p.2 := by
  induction ticks generalizing fl with
  | nil => simp
  | cons t ts ih =>
    cases fl with
    | nil => simp
    | cons a fl =>
      simp only [List.map_cons, List.zipWith_cons_cons, List.zip_cons_cons, List.filter_cons]
      by_cases h : t.bar = k
      · simp [h, ih fl]
      · simp [h, ih fl]

theorem net_sum (ticks : List (BTick K)) (b0 : K) (hb : b0 = 1 ∨ b0 = -1) (k : ℤ) :
    ((((ticks.map fun t => t.bar).zip
      (List.zipWith netVolume ticks (flags ticks b0))).filter fun p => p.1 = k).map Prod.snd).sum =
    imbalance ticks b0 k := by
  rw [filter_zip_sum]
  unfold imbalance
  congr 1
  apply List.map_congr_left
  intro p hp
  have h1 := (List.of_mem_zip (List.mem_filter.1 hp).1).2
  exact netVolume_eq _ _ (Bars.C58_tick_rule_flags b0 hb _ _ h1)

/-- The value of VPIN at every bar. -/
theorem vpin_eq (ticks : List (BTick K)) (vpb b0 : K) (n : ℕ) (hn : 1 ≤ n) (hv : 0 < vpb)
    (hb : b0 = 1 ∨ b0 = -1) :
    ∃ col, vpin ticks vpb n b0 = (barIds ticks).zip col ∧
      Has col (barIds ticks).length (n - 1) (fun i =>
        |∑ j ∈ Finset.range n, imbalance ticks b0 ((barIds ticks).getD (i + 1 - n + j) 0)| /
          ((n : K) * vpb)) := by
  have hn0 : (n : K) * vpb ≠ 0 := by
    have : (0 : K) < n := by exact_mod_cast hn
    positivity
  have hkeys : (groupBy (ticks.map fun t => t.bar)
      (List.zipWith netVolume ticks (flags ticks b0))).map Prod.fst = barIds ticks := by
    unfold groupBy barIds
    rw [List.map_map]
    exact List.map_id _
  have hsums : (groupBy (ticks.map fun t => t.bar)
      (List.zipWith netVolume ticks (flags ticks b0))).map (fun p => some p.2.sum) =
      ((barIds ticks).map (imbalance ticks b0)).map some := by
    unfold groupBy barIds
    rw [List.map_map, List.map_map]
    apply List.map_congr_left
    intro k _
    simp only [Function.comp_apply]
    rw [net_sum ticks b0 hb k]
  have h1 := has_map_some ((barIds ticks).map (imbalance ticks b0)) 0
  rw [← hsums, List.length_map] at h1
  have h2 := has_rolling h1 n hn List.sum
  have h3 := has_map h2 (fun v => |v| / ((n : K) * vpb))
  refine ⟨(rolling n List.sum ((groupBy (ticks.map fun t => t.bar)
      (List.zipWith netVolume ticks (flags ticks b0))).map fun p => some p.2.sum)).map
      fun s => s.bind fun v => fdiv |v| ((n : K) * vpb), ?_, ?_⟩
  · unfold vpin
    simp only
    unfold flags at hkeys
    rw [hkeys]
    rfl
  · have heq : (fun s : Option K => s.bind fun v => fdiv |v| ((n : K) * vpb)) =
        Option.map fun v => |v| / ((n : K) * vpb) := by
      funext s
      cases s with
      | none => rfl
      | some v => simp [fdiv, hn0]
    rw [heq]
    rw [Nat.zero_add] at h3
    refine has_congr h3 ?_
    intro i hi hlo
    rw [list_range_map_sum]
    congr 2
    refine Finset.sum_congr rfl ?_
    intro j hj
    rw [Finset.mem_range] at hj
    rw [List.getD_eq_getElem?_getD, List.getElem?_map, List.getElem?_eq_getElem (by omega),
      List.getD_eq_getElem?_getD, List.getElem?_eq_getElem (by omega)]
    rfl

/-- C62, full claim: VPIN is the mean absolute imbalance of the last `n` bars over the bar volume. -/
def VpinMean : Prop := ∀ (ticks : List (BTick ℚ)) (vpb b0 : ℚ) (n : ℕ), 1 ≤ n → 0 < vpb →
  (b0 = 1 ∨ b0 = -1) → ∀ (i : ℕ) v, ((vpin ticks vpb n b0).map Prod.snd)[i]? = some (some v) →
    v = (∑ j ∈ Finset.range n, |imbalance ticks b0 ((barIds ticks).getD (i + 1 - n + j) 0)|) / ((n : ℚ) * vpb)

/-- C62, counterexample: one bar of buys and one of sells have VPIN 0. -/
theorem C62_vpin_counterexample : ¬ VpinMean := by
  intro h
  have h1 := h [⟨1, 10, 0⟩, ⟨2, 10, 0⟩, ⟨1, 20, 1⟩] 20 1 2 (by norm_num) (by norm_num) (Or.inl rfl) 1 0
    (by decide +kernel)
  have h2 : imbalance [⟨(1 : ℚ), 10, 0⟩, ⟨2, 10, 0⟩, ⟨1, 20, 1⟩] 1 0 = 20 := by decide +kernel
  have h3 : imbalance [⟨(1 : ℚ), 10, 0⟩, ⟨2, 10, 0⟩, ⟨1, 20, 1⟩] 1 1 = -20 := by decide +kernel
  have h4 : barIds [⟨(1 : ℚ), 10, 0⟩, ⟨2, 10, 0⟩, ⟨1, 20, 1⟩] = [0, 1] := by decide +kernel
  rw [h4] at h1
  simp only [Finset.sum_range_succ, Finset.sum_range_zero] at h1
  norm_num [h2, h3] at h1

theorem imbalance_le (ticks : List (BTick K)) (b0 : K) (hb : b0 = 1 ∨ b0 = -1)
    (hvol : ∀ t ∈ ticks, 0 ≤ t.volume) (k : ℤ) : |imbalance ticks b0 k| ≤ barVolume ticks k := by
  have hfl : ∀ x ∈ flags ticks b0, x = 1 ∨ x = -1 := Bars.C58_tick_rule_flags b0 hb _
  have hlen := flags_length ticks b0
  unfold imbalance barVolume
  generalize flags ticks b0 = fl at *
  induction ticks generalizing fl with
  | nil => simp
  | cons t ts ih =>
    cases fl with
    | nil => simp at hlen
    | cons a fl =>
      have hrec := ih (fun t ht => hvol t (by simp [ht])) fl (fun x hx => hfl x (by simp [hx]))
        (by simpa using hlen)
      have ht := hvol t (by simp)
      rw [List.zip_cons_cons, List.filter_cons, List.filter_cons]
      by_cases hk : t.bar = k
      · simp only [hk, decide_true, if_true, List.map_cons, List.sum_cons]
        refine (abs_add_le _ _).trans (add_le_add ?_ hrec)
        rcases hfl a (by simp) with rfl | rfl
        · rw [mul_one, abs_of_nonneg ht]
        · rw [mul_neg_one, abs_neg, abs_of_nonneg ht]
      · simp only [hk, decide_false]
        exact hrec

/-- C62, what holds: one value per bar, missing for the first `n - 1` bars; the value is at most the
mean absolute imbalance, equal to it when the imbalances of the window have the same sign (so always
for `n = 1`), and in [0,1] if no bar exceeds `volume_per_bar` (missing: equality for imbalances of both
signs). -/
theorem C62_vpin_partial (ticks : List (BTick K)) (vpb b0 : K) (n : ℕ) (hn : 1 ≤ n) (hv : 0 < vpb)
    (hb : b0 = 1 ∨ b0 = -1) (hvol : ∀ t ∈ ticks, 0 ≤ t.volume) :
    (vpin ticks vpb n b0).map Prod.fst = barIds ticks ∧
    ∀ (i : ℕ) o, ((vpin ticks vpb n b0).map Prod.snd)[i]? = some o →
      (o = none ↔ i + 1 < n) ∧ ∀ v, o = some v →
        let imb := fun j : ℕ => imbalance ticks b0 ((barIds ticks).getD (i + 1 - n + j) 0)
        let full := (∑ j ∈ Finset.range n, |imb j|) / ((n : K) * vpb)
        0 ≤ v ∧ v ≤ full ∧ (((∀ j < n, 0 ≤ imb j) ∨ (∀ j < n, imb j ≤ 0)) → v = full) ∧
        ((∀ k ∈ barIds ticks, barVolume ticks k ≤ vpb) → v ≤ 1) := by
  have hn0 : (0 : K) < n := by exact_mod_cast hn
  have hd : 0 < (n : K) * vpb := by positivity
  obtain ⟨col, h1, h2⟩ := vpin_eq ticks vpb b0 n hn hv hb
  rw [h1, List.map_fst_zip (by rw [h2.1]), List.map_snd_zip (by rw [h2.1])]
  refine ⟨rfl, ?_⟩
  intro i o ho
  have hi : i < (barIds ticks).length := by
    by_contra hc
    rw [List.getElem?_eq_none (by rw [h2.1]; omega)] at ho
    cases ho
  have h3 := h2.2 i hi
  rw [ho] at h3
  simp only [Option.some.injEq] at h3
  constructor
  · rw [h3]
    by_cases hlo : i < n - 1
    · simp [hlo]; omega
    · simp [hlo]; omega
  · intro v hov
    rw [hov] at h3
    have hlo : ¬ i < n - 1 := by
      intro hc; rw [if_pos hc] at h3; cases h3
    rw [if_neg hlo] at h3
    simp only [Option.some.injEq] at h3
    subst h3
    simp only
    have hle : |∑ j ∈ Finset.range n, imbalance ticks b0 ((barIds ticks).getD (i + 1 - n + j) 0)| ≤
        ∑ j ∈ Finset.range n, |imbalance ticks b0 ((barIds ticks).getD (i + 1 - n + j) 0)| :=
      Finset.abs_sum_le_sum_abs _ _
    refine ⟨by positivity, by gcongr, ?_, ?_⟩
    · intro hsign
      congr 1
      rcases hsign with hs | hs
      · rw [abs_of_nonneg (Finset.sum_nonneg fun j hj => hs j (Finset.mem_range.1 hj))]
        exact Finset.sum_congr rfl fun j hj => (abs_of_nonneg (hs j (Finset.mem_range.1 hj))).symm
      · rw [abs_of_nonpos (Finset.sum_nonpos fun j hj => hs j (Finset.mem_range.1 hj)),
          ← Finset.sum_neg_distrib]
        exact Finset.sum_congr rfl fun j hj => (abs_of_nonpos (hs j (Finset.mem_range.1 hj))).symm
    · intro hbar
      rw [div_le_one hd]
      refine hle.trans ?_
      have : ∀ j ∈ Finset.range n,
          |imbalance ticks b0 ((barIds ticks).getD (i + 1 - n + j) 0)| ≤ vpb := by
        intro j hj
        rw [Finset.mem_range] at hj
        refine (imbalance_le ticks b0 hb hvol _).trans (hbar _ ?_)
        rw [List.getD_eq_getElem _ _ (by omega)]
        exact List.getElem_mem _
      refine (Finset.sum_le_sum this).trans ?_
      rw [Finset.sum_const, Finset.card_range, nsmul_eq_mul]

example : vpin [⟨(1 : ℚ), 10, 0⟩, ⟨2, 10, 0⟩, ⟨1, 5, 1⟩, ⟨3, 15, 1⟩, ⟨4, 20, 2⟩] 20 2 1 =
    [(0, none), (1, some (3 / 4)), (2, some (3 / 4))] := by decide +kernel

end Vpin

/-! ## C63 -/

theorem map_getD (l : List ℝ) (f : ℝ → ℝ) (i : ℕ) (hi : i < l.length) (d : ℝ) :
    (l.map f).getD i d = f (l.getD i d) := by
  simp [List.getD_eq_getElem?_getD, hi]

/-- C63, Kyle.  If every price change is `c + λ · signed volume` and the signed volumes are not all
equal, the result is `λ`. -/
theorem C63_kyle (ols : List (List ℝ) → List ℝ → List ℝ) (hols : IsOls ols) (prices volumes : List ℝ)
    (b0 c lam : ℝ) (hlen : volumes.length = prices.length) (x : ℕ → ℝ)
    (hx : ∀ i, x i = volumes.getD (i + 1) 0 * (tickRule b0 prices).getD (i + 1) 0)
    (hlin : ∀ i, i + 1 < prices.length → prices.getD (i + 1) 0 - prices.getD i 0 = c + lam * x i)
    (hne : ∃ i j, i + 1 < prices.length ∧ j + 1 < prices.length ∧ x i ≠ x j) :
    kyleLambda ols prices volumes b0 = .ok lam := by
  have htl : (tickRule b0 prices).length = prices.length := Bars.tickRule_length _ _
  have hs : (List.zipWith (· * ·) volumes (tickRule b0 prices)).tail =
      (List.range (prices.length - 1)).map x := by
    apply list_eq_range _ _ _ (by simp [hlen])
    intro i hi
    rw [List.getElem?_tail, List.getElem?_zipWith, List.getElem?_eq_getElem (by omega),
      List.getElem?_eq_getElem (by omega)]
    simp [hx, List.getD_eq_getElem?_getD, hlen, show i + 1 < prices.length by omega]
  unfold kyleLambda
  simp only
  rw [hs]
  obtain ⟨i, j, hi, hj, hij⟩ := hne
  obtain ⟨X, h1, h2⟩ := ols_line ols hols ((List.range (prices.length - 1)).map x) (diff1 prices) c lam
    (by simp [diff1_length]) (by
      intro i u v hu hv
      have hi : i < prices.length - 1 := by
        by_contra hc
        rw [List.getElem?_eq_none (by simp; omega)] at hu
        cases hu
      rw [List.getElem?_map, List.getElem?_range hi] at hu
      cases hu
      rw [diff1_getD _ _ (by omega)] at hv
      cases hv
      exact hlin i (by omega))
    ⟨x i, List.mem_map.2 ⟨i, List.mem_range.2 (by omega), rfl⟩, x j,
      List.mem_map.2 ⟨j, List.mem_range.2 (by omega), rfl⟩, hij⟩
  rw [h1, py_bind_ok, h2]

/-- C63, Amihud.  Likewise for absolute log returns on dollar volume. -/
theorem C63_amihud (ols : List (List ℝ) → List ℝ → List ℝ) (hols : IsOls ols)
    (closes vwaps volumes : List ℝ) (c lam : ℝ) (hlen : volumes.length = closes.length)
    (hlen' : vwaps.length = closes.length) (hpos : ∀ v ∈ closes, 0 < v)
    (hlin : ∀ i, i + 1 < closes.length → |Real.log (closes.getD (i + 1) 0 / closes.getD i 0)| =
      c + lam * (vwaps.getD (i + 1) 0 * volumes.getD (i + 1) 0))
    (hne : ∃ i j, i + 1 < closes.length ∧ j + 1 < closes.length ∧
      vwaps.getD (i + 1) 0 * volumes.getD (i + 1) 0 ≠ vwaps.getD (j + 1) 0 * volumes.getD (j + 1) 0) :
    amihudLambda ols closes vwaps volumes = .ok lam := by
  have hs : (List.zipWith (· * ·) vwaps volumes).tail =
      (List.range (closes.length - 1)).map
        fun i : ℕ => vwaps.getD (i + 1) 0 * volumes.getD (i + 1) 0 := by
    apply list_eq_range _ _ _ (by simp [hlen, hlen'])
    intro i hi
    rw [List.getElem?_tail, List.getElem?_zipWith, List.getElem?_eq_getElem (by omega),
      List.getElem?_eq_getElem (by omega)]
    simp [List.getD_eq_getElem?_getD, hlen, hlen', show i + 1 < closes.length by omega]
  unfold amihudLambda
  rw [if_neg (by push Not; exact hpos), hs]
  obtain ⟨i, j, hi, hj, hij⟩ := hne
  obtain ⟨X, h1, h2⟩ := ols_line ols hols ((List.range (closes.length - 1)).map
      fun i : ℕ => vwaps.getD (i + 1) 0 * volumes.getD (i + 1) 0)
    ((diff1 (closes.map Real.log)).map fun x => |x|) c lam
    (by simp [diff1_length]) (by
      intro i u v hu hv
      have hi : i < closes.length - 1 := by
        by_contra hc
        rw [List.getElem?_eq_none (by simp; omega)] at hu
        cases hu
      rw [List.getElem?_map, List.getElem?_range hi] at hu
      cases hu
      rw [List.getElem?_map, diff1_getD _ _ (by simp; omega)] at hv
      cases hv
      rw [map_getD _ _ _ (by omega), map_getD _ _ _ (by omega), ← Real.log_div]
      · exact hlin i (by omega)
      · apply (hpos _ _).ne'
        rw [List.getD_eq_getElem _ _ (by omega)]
        exact List.getElem_mem _
      · apply (hpos _ _).ne'
        rw [List.getD_eq_getElem _ _ (by omega)]
        exact List.getElem_mem _)
    ⟨_, List.mem_map.2 ⟨i, List.mem_range.2 (by omega), rfl⟩, _,
      List.mem_map.2 ⟨j, List.mem_range.2 (by omega), rfl⟩, hij⟩
  rw [h1, py_bind_ok, h2]

/-- Close of bar `k`: the price of its last tick. -/
noncomputable def closeOf (ticks : List (BTick ℝ)) (k : ℤ) : ℝ :=
  (((ticks.filter fun t => t.bar = k).map fun t => t.price).getLast?).getD 0

/-- Signed root-dollar flow of bar `k`. -/
noncomputable def flowOf (ticks : List (BTick ℝ)) (b0 : ℝ) (k : ℤ) : ℝ :=
  (((ticks.zip (flags ticks b0)).filter fun p => p.1.bar = k).map
    fun p => Real.sqrt (p.1.volume * p.1.price) * p.2).sum

theorem filter_price (ticks : List (BTick ℝ)) (k : ℤ) :
    (((ticks.map fun t => t.bar).zip (ticks.map fun t => t.price)).filter fun p => p.1 = k).map Prod.snd =
      (ticks.filter fun t => t.bar = k).map fun t => t.price := by
  induction ticks with
  | nil => rfl
  | cons t ts ih =>
    simp only [List.map_cons, List.zip_cons_cons, List.filter_cons]
    by_cases h : t.bar = k
    · simp [h, ih]
    · simp [h, ih]

/-- C63, Hasbrouck.  Likewise for log returns between the closes of consecutive bars on the signed
root-dollar flow of the later bar. -/
theorem C63_hasbrouck (ols : List (List ℝ) → List ℝ → List ℝ) (hols : IsOls ols)
    (ticks : List (BTick ℝ)) (b0 c lam : ℝ) (hpos : ∀ t ∈ ticks, 0 < t.price ∧ 0 ≤ t.volume)
    (k : ℕ → ℤ) (hk : ∀ i, k i = (barIds ticks).getD i 0)
    (hlin : ∀ i, i + 1 < (barIds ticks).length →
      Real.log (closeOf ticks (k (i + 1)) / closeOf ticks (k i)) = c + lam * flowOf ticks b0 (k (i + 1)))
    (hne : ∃ i j, i + 1 < (barIds ticks).length ∧ j + 1 < (barIds ticks).length ∧
      flowOf ticks b0 (k (i + 1)) ≠ flowOf ticks b0 (k (j + 1))) :
    hasbrouckLambda ols ticks b0 = .ok lam := by
  have hclose : (groupBy (ticks.map fun t => t.bar) (ticks.map fun t => t.price)).map
      (fun g => lastD g.2) = (barIds ticks).map (closeOf ticks) := by
    unfold groupBy barIds
    rw [List.map_map]
    apply List.map_congr_left
    intro q _
    simp only [Function.comp_apply]
    rw [filter_price]
    unfold lastD closeOf
    rw [List.getLastD_eq_getLast?]
  have hflow : (groupBy (ticks.map fun t => t.bar)
      (List.zipWith (fun (t : BTick ℝ) a => Real.sqrt (t.volume * t.price) * a) ticks
        (tickRule b0 (ticks.map fun t => t.price)))).map (fun g => g.2.sum) =
      (barIds ticks).map (flowOf ticks b0) := by
    unfold groupBy barIds
    rw [List.map_map]
    apply List.map_congr_left
    intro q _
    simp only [Function.comp_apply]
    rw [filter_zip_sum]
    rfl
  have hcpos : ∀ q ∈ barIds ticks, 0 < closeOf ticks q := by
    intro q hq
    unfold barIds at hq
    rw [List.mem_insertionSort, List.mem_dedup, List.mem_map] at hq
    obtain ⟨t, ht, rfl⟩ := hq
    unfold closeOf
    have hne : ((ticks.filter fun s => s.bar = t.bar).map fun s => s.price) ≠ [] := by
      have : t ∈ ticks.filter fun s => s.bar = t.bar := by
        rw [List.mem_filter]; exact ⟨ht, by simp⟩
      simp only [ne_eq, List.map_eq_nil_iff]
      exact List.ne_nil_of_mem this
    rw [List.getLast?_eq_some_getLast hne, Option.getD_some]
    obtain ⟨s, hs, hs'⟩ := List.mem_map.1 (List.getLast_mem hne)
    rw [← hs']
    exact (hpos s (List.mem_filter.1 hs).1).1
  have hget : ∀ (f : ℤ → ℝ) i, i < (barIds ticks).length →
      ((barIds ticks).map f)[i]? = some (f (k i)) := by
    intro f i hi
    rw [List.getElem?_map, List.getElem?_eq_getElem hi, hk, List.getD_eq_getElem _ _ hi]
    rfl
  unfold hasbrouckLambda
  rw [if_neg (by
    rintro ⟨t, ht, h⟩
    have := hpos t ht
    rcases h with h | h <;> linarith)]
  simp only
  rw [hclose, hflow]
  obtain ⟨i, j, hi, hj, hij⟩ := hne
  have hmem : ∀ i, i + 1 < (barIds ticks).length →
      flowOf ticks b0 (k (i + 1)) ∈ ((barIds ticks).map (flowOf ticks b0)).tail := by
    intro i hi
    rw [List.mem_iff_getElem?]
    exact ⟨i, by rw [List.getElem?_tail, hget _ _ hi]⟩
  obtain ⟨X, h1, h2⟩ := ols_line ols hols ((barIds ticks).map (flowOf ticks b0)).tail
    (diff1 (((barIds ticks).map (closeOf ticks)).map Real.log)) c lam
    (by simp [diff1_length]) (by
      intro i u v hu hv
      have hi : i + 1 < (barIds ticks).length := by
        by_contra hc
        rw [List.getElem?_eq_none (by simp; omega)] at hu
        cases hu
      rw [List.getElem?_tail, hget _ _ hi] at hu
      cases hu
      rw [diff1_getD _ _ (by simpa using hi)] at hv
      cases hv
      rw [map_getD _ _ _ (by simpa using hi), map_getD _ _ _ (by simp; omega)]
      rw [List.getD_eq_getElem?_getD, List.getD_eq_getElem?_getD, hget _ _ hi, hget _ _ (by omega)]
      simp only [Option.getD_some]
      have hkm : ∀ i, i < (barIds ticks).length → k i ∈ barIds ticks := by
        intro i hi
        rw [hk, List.getD_eq_getElem _ _ hi]
        exact List.getElem_mem _
      rw [← Real.log_div (hcpos _ (hkm _ hi)).ne' (hcpos _ (hkm _ (by omega))).ne']
      exact hlin i hi)
    ⟨_, hmem i hi, _, hmem j hj, hij⟩
  rw [h1, py_bind_ok, h2]

/-! ## C64 -/

/-- C64, full claim for a least-squares solver: a number for every stream of at least three ticks. -/
def KyleTotal (ols : List (List ℝ) → List ℝ → List ℝ) : Prop :=
  ∀ (prices volumes : List ℝ) (b0 : ℝ), volumes.length = prices.length → 3 ≤ prices.length →
    ∃ v, kyleLambda ols prices volumes b0 = .ok v

/-- C64, counterexample: three equal buys; with any least-squares solver the call raises IndexError. -/
theorem C64_total_counterexample (ols : List (List ℝ) → List ℝ → List ℝ) (hols : IsOls ols) :
    ¬ KyleTotal ols := by
  intro h
  obtain ⟨v, hv⟩ := h [1, 2, 3] [5, 5, 5] 1 rfl (by simp)
  have ht : tickRule (1 : ℝ) [1, 2, 3] = [1, 1, 1] := by
    norm_num [tickRule, Bars.tickRuleFrom]
  obtain ⟨X, h1, h2⟩ := ols_skip ols hols [5, 5] (diff1 [1, 2, 3]) (by simp [diff1]) (by simp)
    (by simp) (by simp)
  unfold kyleLambda at hv
  simp only [ht, List.zipWith_cons_cons, List.zipWith_nil_left, List.tail_cons, mul_one] at hv
  rw [h1, py_bind_ok, h2] at hv
  cases hv

/-- C64, what holds: with at least two ticks the call returns a number exactly if the signed volumes
after the first are not all equal to one non-zero number, otherwise it raises IndexError (missing:
that case). -/
theorem C64_total_partial (ols : List (List ℝ) → List ℝ → List ℝ) (hols : IsOls ols)
    (prices volumes : List ℝ) (b0 : ℝ) (hlen : volumes.length = prices.length)
    (h2 : 2 ≤ prices.length) (x : ℕ → ℝ)
    (hx : ∀ i, x i = volumes.getD (i + 1) 0 * (tickRule b0 prices).getD (i + 1) 0) :
    ((∃ a ≠ 0, ∀ i, i + 1 < prices.length → x i = a) →
      kyleLambda ols prices volumes b0 = .error .indexError) ∧
    ((¬ ∃ a ≠ 0, ∀ i, i + 1 < prices.length → x i = a) →
      ∃ v, kyleLambda ols prices volumes b0 = .ok v) := by
  have htl : (tickRule b0 prices).length = prices.length := Bars.tickRule_length _ _
  have hs : (List.zipWith (· * ·) volumes (tickRule b0 prices)).tail =
      (List.range (prices.length - 1)).map x := by
    apply list_eq_range _ _ _ (by simp [hlen])
    intro i hi
    rw [List.getElem?_tail, List.getElem?_zipWith, List.getElem?_eq_getElem (by omega),
      List.getElem?_eq_getElem (by omega)]
    simp [hx, List.getD_eq_getElem?_getD, hlen, show i + 1 < prices.length by omega]
  unfold kyleLambda
  simp only
  rw [hs]
  constructor
  · rintro ⟨a, ha, hall⟩
    have hmem : ∀ u ∈ (List.range (prices.length - 1)).map x, u = a := by
      intro u hu
      obtain ⟨i, hi, rfl⟩ := List.mem_map.1 hu
      rw [List.mem_range] at hi
      exact hall i (by omega)
    obtain ⟨X, e1, e2⟩ := ols_skip ols hols ((List.range (prices.length - 1)).map x) (diff1 prices)
      (by simp [diff1_length]) (by simp; omega)
      (fun u hu v hv => by rw [hmem u hu, hmem v hv]) (fun u hu => by rw [hmem u hu]; exact ha)
    rw [e1, py_bind_ok, e2]
  · intro hno
    obtain ⟨X, v, e1, e2⟩ := ols_two ols hols ((List.range (prices.length - 1)).map x) (diff1 prices)
      (by simp [diff1_length]) (by simp; omega) (by
        rintro ⟨g1, g2⟩
        apply hno
        have h0 : x 0 ∈ (List.range (prices.length - 1)).map x :=
          List.mem_map.2 ⟨0, List.mem_range.2 (by omega), rfl⟩
        refine ⟨x 0, g2 _ h0, ?_⟩
        intro i hi
        exact g1 _ (List.mem_map.2 ⟨i, List.mem_range.2 (by omega), rfl⟩) _ h0)
    exact ⟨v, by rw [e1, py_bind_ok, e2]⟩

/-- The contract on the solver can be met, and a price path that moves by half the signed volume has
Kyle's lambda 1/2. -/
example : ∃ ols, IsOls ols ∧ kyleLambda ols [1, 2, 4, 3] [2, 2, 4, 2] 1 = .ok (1 / 2) := by
  obtain ⟨ols, hols⟩ := exists_isOls
  have ht : tickRule (1 : ℝ) [1, 2, 4, 3] = [1, 1, 1, -1] := by
    norm_num [tickRule, Bars.tickRuleFrom, abs_of_pos, abs_of_neg]
  refine ⟨ols, hols, C63_kyle ols hols _ _ 1 0 (1 / 2) rfl
    (fun i => [2, 2, 4, 2].getD (i + 1) 0 * (tickRule (1 : ℝ) [1, 2, 4, 3]).getD (i + 1) 0)
    (fun _ => rfl) ?_ ⟨0, 1, by simp, by simp, by rw [ht]; norm_num⟩⟩
  intro i hi
  rw [ht]
  simp only [List.length_cons, List.length_nil] at hi
  have : i = 0 ∨ i = 1 ∨ i = 2 := by omega
  rcases this with rfl | rfl | rfl <;> norm_num

end FinML.Micro
