import Verif.FracDiff.AdfModel
import Verif.FracDiff.Props
import Verif.Stats.Props

/-!
# Property C164 (tests of differenced log prices) and the discarded weights of C68
-/

namespace FinML.FracDiff

open Finset

/-! ## Discarded weights -/

section Weights

variable {K : Type} [Field K] [LinearOrder K] [IsStrictOrderedRing K]

theorem lagWeight_ratio (d : K) (k : ℕ) : |lagWeight d (k + 1)| = |lagWeight d k| * (|d - k| / ((k : K) + 1)) := by
  rw [lagWeight_succ, abs_div, abs_mul, abs_neg]
  have hp : (0 : K) < (k : K) + 1 := by positivity
  push_cast
  rw [abs_of_pos hp, show d - ((k : K) + 1) + 1 = d - k by ring, mul_div_assoc]

/-- C68. When the weights were cut at the threshold (at most 1), every discarded weight is below it, not only
the first. -/
theorem C68_dropped (d thr : K) (h1 : thr ≤ 1) (n w : ℕ) (h : IsWidth d thr n w) (hn : w + 1 < n) (k : ℕ)
    (hk : w < k) : |lagWeight d k| < thr := by
  have hw := h.2.2 hn
  have hthr : 0 < thr := lt_of_le_of_lt (abs_nonneg _) hw
  -- some earlier step shrinks
  have hex : ∃ j ≤ w, |d - j| < (j : K) + 1 := by
    by_contra hc
    push Not at hc
    have : ∀ m, m ≤ w + 1 → 1 ≤ |lagWeight d m| := by
      intro m
      induction m with
      | zero => intro _; rw [lagWeight_zero]; simp
      | succ m ih =>
        intro hm
        rw [lagWeight_ratio]
        have hp : (0 : K) < (m : K) + 1 := by positivity
        have := hc m (by omega)
        exact one_le_mul_of_one_le_of_one_le (ih (by omega)) ((one_le_div hp).2 this)
    have := this (w + 1) le_rfl
    linarith
  obtain ⟨j, hj, hjd⟩ := hex
  rw [abs_lt] at hjd
  induction k, hk using Nat.le_induction with
  | base => exact hw
  | succ m hm ih =>
    rw [lagWeight_ratio]
    have hp : (0 : K) < (m : K) + 1 := by positivity
    have hmj : (j : K) ≤ m := by exact_mod_cast (by omega : j ≤ m)
    have : |d - m| / ((m : K) + 1) ≤ 1 := by
      rw [div_le_one hp, abs_le]
      constructor <;> linarith
    calc |lagWeight d m| * (|d - m| / ((m : K) + 1)) ≤ |lagWeight d m| * 1 :=
          mul_le_mul_of_nonneg_left this (abs_nonneg _)
      _ < thr := by rw [mul_one]; exact ih

end Weights

/-! ## C164 -/

/-- The series tested for order `d`: log prices differenced with the lags `0 … w`. -/
noncomputable def tested (x : List ℝ) (d : ℝ) (w : ℕ) : List ℝ :=
  (List.range' w (x.length - w)).map fun i => ∑ k ∈ range (w + 1), lagWeight d k * x.getD (i - k) 0

theorem tested_eq (x : List ℝ) (d : ℝ) (w : ℕ) :
    ((List.range x.length).map (diffWidth d w x)).drop w = tested x d w := by
  unfold tested
  rw [← List.map_drop, List.range_eq_range', List.drop_range']
  simp only [Nat.mul_one, Nat.zero_add]
  rfl

theorem find_zip (index : List ℤ) (x : List ℝ) (hs : index.Nodup) (hl : x.length = index.length) (i : ℕ)
    (hi : i < index.length) :
    locRow (index.zip (x.map some)) (index[i]) = .ok (some (x.getD i 0)) := by
  unfold locRow
  have : (index.zip (x.map some)).find? (fun p => decide (p.1 = index[i])) = some (index[i], some (x.getD i 0)) := by
    rw [List.find?_eq_some_iff_getElem]
    refine ⟨by simp, i, by simp; omega, by simp [hl, hi], ?_⟩
    intro j hj
    simp only [List.getElem_zip, Bool.not_eq_true', decide_eq_false_iff_not]
    intro he
    have := (List.Nodup.getElem_inj_iff hs).1 he
    omega
  rw [this]
  rfl

theorem logPrices_ok (p : List ℝ) (hp : ∀ x ∈ p, 0 < x) :
    (p.map some).mapM logPrice = .ok ((p.map Real.log).map some) := by
  have : (p.map some).mapM logPrice = .ok ((p.map some).map fun o => o.map Real.log) := by
    apply mapM_ok_of_forall
    intro o ho
    obtain ⟨x, hx, rfl⟩ := List.mem_map.1 ho
    have := hp x hx
    unfold logPrice
    simp only
    rw [if_neg this.ne', if_neg (not_lt.2 this.le)]
    rfl
  rw [this, List.map_map, List.map_map]
  rfl

/-- What one round computes for complete positive prices. -/
theorem adfOne_eq (adfuller : List ℝ → Py AdfOut) (index : List ℤ) (p : List ℝ) (hs : index.Pairwise (· < ·))
    (hl : p.length = index.length) (hp : ∀ x ∈ p, 0 < x) (d : ℝ) (w : ℕ) (hw : IsWidth d (1 / 100) p.length w) :
    adfOne adfuller index (p.map some) d = (do
      let res ← adfuller (tested (p.map Real.log) d w)
      let conf ← critical res.crit
      return ⟨res.stat, res.pVal, res.lags, res.nObs, conf,
        Stats.corrcoef (((p.map Real.log).drop w).zip (tested (p.map Real.log) d w))⟩) := by
  have hnd : index.Nodup := hs.imp fun h => h.ne
  set x := p.map Real.log with hx
  have hxl : x.length = index.length := by simp [hx, hl]
  unfold adfOne
  rw [logPrices_ok p hp, py_bind_ok, ← hx]
  have hfix := fixed_complete index [("price", x)] ⟨hs, by simp, by simpa using hxl⟩ d (1 / 100) w (hl ▸ hw)
  simp only [completeFrame, mapCols, List.map_cons, List.map_nil, tested_eq] at hfix
  rw [hfix, py_bind_ok]
  have hg : pyGet [("price", (tested x d w).map some)] 0 = .ok ("price", (tested x d w).map some) := rfl
  simp only
  rw [hg, py_bind_ok]
  have hkept : (index.drop w).mapM (locRow (index.zip (x.map some))) = .ok ((x.drop w).map some) := by
    rw [mapM_eq_ok_iff, List.forall₂_iff_get]
    refine ⟨by simp [hxl], ?_⟩
    intro i h1 h2
    simp only [List.length_drop] at h1
    simp only [List.get_eq_getElem, List.getElem_drop, List.getElem_map]
    rw [find_zip index x hnd hxl (w + i) (by omega), List.getD_eq_getElem _ _ (by omega)]
  have hvals : ((tested x d w).map some).mapM adfInput = .ok (tested x d w) := by
    rw [mapM_eq_ok_iff, List.forall₂_map_left_iff, List.forall₂_same]
    intro v _
    rfl
  rw [hkept, py_bind_ok]
  simp only
  rw [hvals, py_bind_ok]
  have hcorr : corrCols ((x.drop w).map some) ((tested x d w).map some) =
      Stats.corrcoef ((x.drop w).zip (tested x d w)) := by
    unfold corrCols
    have hall : ((x.drop w).map some ++ (tested x d w).map some).all Option.isSome = true := by
      rw [← List.map_append, List.all_map]
      simp
    rw [if_pos hall, List.zip_map, List.filterMap_map]
    congr 1
    conv_rhs => rw [← List.filterMap_some (l := (x.drop w).zip (tested x d w))]
    apply List.filterMap_congr
    rintro ⟨a, b⟩ -
    rfl
  rw [hcorr]

/-- The loop keeps one row per order. -/
theorem fold_rows (adfuller : List ℝ → Py AdfOut) (index : List ℤ) (prices : List (Option ℝ)) (orders : List ℝ)
    (acc out : List (ℝ × AdfRow)) (hacc : (acc.map Prod.fst).Nodup)
    (hval : ∀ q ∈ acc, adfOne adfuller index prices q.1 = .ok q.2)
    (h : orders.foldlM (fun rows d => do
      let r ← adfOne adfuller index prices d
      return setRow rows d r) acc = .ok out) :
    (out.map Prod.fst).Nodup ∧ (∀ q ∈ out, adfOne adfuller index prices q.1 = .ok q.2) ∧
    (∀ d, d ∈ out.map Prod.fst ↔ d ∈ acc.map Prod.fst ∨ d ∈ orders) ∧
    ((acc.map Prod.fst ++ orders).Nodup → out.map Prod.fst = acc.map Prod.fst ++ orders) := by
  induction orders generalizing acc with
  | nil =>
    cases h
    simp [hacc]
    exact fun a b hab => hval (a, b) hab
  | cons d orders ih =>
    rw [List.foldlM_cons] at h
    obtain ⟨acc', h1, h2⟩ := py_bind_eq_ok.1 h
    obtain ⟨r, hr, h3⟩ := py_bind_eq_ok.1 h1
    cases h3
    by_cases hm : d ∈ acc.map Prod.fst
    · have hany : (acc.any fun p => decide (p.1 = d)) = true := by
        obtain ⟨q, hq, rfl⟩ := List.mem_map.1 hm
        rw [List.any_eq_true]
        exact ⟨q, hq, by simp⟩
      have hset : setRow acc d r = acc := by
        unfold setRow
        rw [if_pos hany]
        conv_rhs => rw [← List.map_id acc]
        apply List.map_congr_left
        intro q hq
        by_cases hqd : q.1 = d
        · rw [if_pos hqd]
          have := hval q hq
          rw [hqd, hr] at this
          cases this
          rw [← hqd]
          rfl
        · rw [if_neg hqd]; rfl
      rw [hset] at h2
      obtain ⟨i1, i2, i3, i4⟩ := ih acc hacc hval h2
      refine ⟨i1, i2, fun e => ?_, fun hnd => ?_⟩
      · rw [i3, List.mem_cons]
        constructor
        · rintro (h | h)
          · exact Or.inl h
          · exact Or.inr (Or.inr h)
        · rintro (h | rfl | h)
          · exact Or.inl h
          · exact Or.inl hm
          · exact Or.inr h
      · rw [List.nodup_append] at hnd
        exact (hnd.2.2 d hm d (by simp) rfl).elim
    · have hany : (acc.any fun p => decide (p.1 = d)) ≠ true := by
        rw [ne_eq, List.any_eq_true]
        rintro ⟨q, hq, hqd⟩
        exact hm (List.mem_map.2 ⟨q, hq, by simpa using hqd⟩)
      have hset : setRow acc d r = acc ++ [(d, r)] := by
        unfold setRow
        rw [if_neg hany]
      rw [hset] at h2
      obtain ⟨i1, i2, i3, i4⟩ := ih (acc ++ [(d, r)])
        (by
          rw [List.map_append, List.nodup_append]
          refine ⟨hacc, by simp, ?_⟩
          intro a ha b hb hab
          simp only [List.map_cons, List.map_nil, List.mem_singleton] at hb
          exact hm (hb ▸ hab ▸ ha))
        (by
          intro q hq
          rcases List.mem_append.1 hq with hq | hq
          · exact hval q hq
          · rw [List.mem_singleton] at hq
            subst hq
            exact hr) h2
      refine ⟨i1, i2, fun e => ?_, fun hnd => ?_⟩
      · rw [i3]
        simp [or_assoc]
      · rw [i4]
        · simp
        · simpa using hnd

/-- C164. One row per distinct order, in the given order when there are no repeats.  The row of order `d` holds
the test results for the log prices differenced with the lags whose weights reach 0.01, the 5% critical value,
and the correlation of that series with the log prices at the same rows, a number in [-1,1] if defined. -/
theorem C164_rows (adfuller : List ℝ → Py AdfOut) (index : List ℤ) (p : List ℝ) (hs : index.Pairwise (· < ·))
    (hl : p.length = index.length) (hp : ∀ x ∈ p, 0 < x) (orders : List ℝ) (out : List (ℝ × AdfRow))
    (h : runAdfTests adfuller index (p.map some) orders = .ok out) :
    (out.map Prod.fst).Nodup ∧ (∀ d, d ∈ out.map Prod.fst ↔ d ∈ orders) ∧
    (orders.Nodup → out.map Prod.fst = orders) ∧
    ∀ d row, (d, row) ∈ out → ∃ (w : ℕ) (res : AdfOut), IsWidth d (1 / 100) p.length w ∧
      adfuller (tested (p.map Real.log) d w) = .ok res ∧
      row.stat = res.stat ∧ row.pVal = res.pVal ∧ row.lags = res.lags ∧ row.nObs = res.nObs ∧
      ("5%", row.conf95) ∈ res.crit ∧
      row.corr = Stats.corrcoef (((p.map Real.log).drop w).zip (tested (p.map Real.log) d w)) ∧
      ∀ r, row.corr = some r → -1 ≤ r ∧ r ≤ 1 := by
  unfold runAdfTests at h
  obtain ⟨h1, h2, h3, h4⟩ := fold_rows adfuller index (p.map some) orders [] out (by simp) (by simp) h
  refine ⟨h1, by simpa using h3, by simpa using h4, ?_⟩
  intro d row hrow
  obtain ⟨w, hw, -⟩ := getWeightsFixed_eq d (1 / 100) p.length
  have hone := h2 _ hrow
  simp only at hone
  rw [adfOne_eq adfuller index p hs hl hp d w hw] at hone
  obtain ⟨res, hres, hone⟩ := py_bind_eq_ok.1 hone
  obtain ⟨conf, hconf, hone⟩ := py_bind_eq_ok.1 hone
  cases hone
  refine ⟨w, res, hw, hres, rfl, rfl, rfl, rfl, ?_, rfl, ?_⟩
  · unfold critical at hconf
    cases hf : res.crit.find? fun q => decide (q.1 = "5%") with
    | none => rw [hf] at hconf; cases hconf
    | some q =>
      rw [hf] at hconf
      cases hconf
      have hm := List.mem_of_find?_eq_some hf
      have he := List.find?_some hf
      simp only [decide_eq_true_eq] at he
      rw [← he]
      exact hm
  · intro r hr
    exact Stats.corrcoef_range _ _ hr

theorem tested_zero (x : List ℝ) : tested x 0 0 = x := by
  unfold tested
  apply List.ext_getElem
  · simp
  · intro i h1 h2
    simp [lagWeight_zero, h2]

/-- C164. At order 0 the log prices themselves are tested, and the correlation is 1 unless they are constant. -/
theorem C164_levels (adfuller : List ℝ → Py AdfOut) (index : List ℤ) (p : List ℝ) (hs : index.Pairwise (· < ·))
    (hl : p.length = index.length) (hp : ∀ x ∈ p, 0 < x) (orders : List ℝ) (out : List (ℝ × AdfRow))
    (h : runAdfTests adfuller index (p.map some) orders = .ok out) (row : AdfRow) (hrow : (0, row) ∈ out) :
    (∃ res, adfuller (p.map Real.log) = .ok res ∧ row.stat = res.stat ∧ row.pVal = res.pVal) ∧
    ∀ r, row.corr = some r → r = 1 := by
  obtain ⟨-, -, -, h4⟩ := C164_rows adfuller index p hs hl hp orders out h
  obtain ⟨w, res, hw, hres, h5, h6, -, -, -, hc, -⟩ := h4 0 row hrow
  have hw0 : w = 0 := by
    refine isWidth_unique 0 (1 / 100) p.length w 0 hw ⟨by omega, by omega, ?_⟩
    intro _
    rw [lagWeight_zero_order _ (by omega)]
    norm_num
  subst hw0
  rw [tested_zero] at hres hc
  refine ⟨⟨res, hres, h5, h6⟩, fun r hr => ?_⟩
  rw [hc, List.drop_zero] at hr
  have := (Stats.C158_affine ((p.map Real.log).map some) 0 1 0 one_ne_zero).2 r
  apply this
  unfold Stats.pearsonAutocorr Stats.lagPairs
  rw [List.drop_zero, List.zip_map, List.filterMap_map]
  rw [← hr]
  congr 1
  conv_rhs => rw [← List.filterMap_some (l := (p.map Real.log).zip (p.map Real.log))]
  apply List.filterMap_congr
  rintro ⟨a, b⟩ -
  rfl

theorem corrcoef_shift (l : List (ℝ × ℝ)) (a b : ℝ) :
    Stats.corrcoef (l.map fun q => (q.1 + a, q.2 + b)) = Stats.corrcoef l := by
  by_cases hl : l = []
  · subst hl; rfl
  unfold Stats.corrcoef
  simp only [List.map_map, Function.comp_def]
  have h1 := Stats.mean_affine l hl Prod.fst 1 a
  have h2 := Stats.mean_affine l hl Prod.snd 1 b
  simp only [one_mul] at h1 h2
  rw [h1, h2]
  simp only [add_sub_add_right_eq_sub]

/-- C164. The correlations do not depend on the currency: multiplying all prices by a positive constant leaves
them as they are, and shifts the tested series by a constant. -/
theorem C164_unit (adfuller : List ℝ → Py AdfOut) (index : List ℤ) (p : List ℝ) (hs : index.Pairwise (· < ·))
    (hl : p.length = index.length) (hp : ∀ x ∈ p, 0 < x) (c : ℝ) (hc : 0 < c) (orders : List ℝ)
    (out out' : List (ℝ × AdfRow)) (h : runAdfTests adfuller index (p.map some) orders = .ok out)
    (h' : runAdfTests adfuller index ((p.map (c * ·)).map some) orders = .ok out') (d : ℝ) (row row' : AdfRow)
    (hrow : (d, row) ∈ out) (hrow' : (d, row') ∈ out') : row'.corr = row.corr := by
  obtain ⟨-, -, -, h4⟩ := C164_rows adfuller index p hs hl hp orders out h
  obtain ⟨-, -, -, h4'⟩ := C164_rows adfuller index (p.map (c * ·)) hs (by simpa using hl)
    (by
      intro x hx
      obtain ⟨y, hy, rfl⟩ := List.mem_map.1 hx
      exact mul_pos hc (hp y hy)) orders out' h'
  obtain ⟨w, res, hw, -, -, -, -, -, -, e, -⟩ := h4 d row hrow
  obtain ⟨w', res', hw', -, -, -, -, -, -, e', -⟩ := h4' d row' hrow'
  rw [List.length_map] at hw'
  have := isWidth_unique d _ _ w w' hw hw'
  subst this
  rw [e, e']
  set x := p.map Real.log with hx
  have hxc : (p.map (c * ·)).map Real.log = x.map fun v => v + Real.log c := by
    rw [hx, List.map_map, List.map_map]
    apply List.map_congr_left
    intro v hv
    simp only [Function.comp]
    rw [Real.log_mul hc.ne' (hp v hv).ne', add_comm]
  have ht : tested (x.map fun v => v + Real.log c) d w =
      (tested x d w).map fun v => v + (∑ k ∈ range (w + 1), lagWeight d k) * Real.log c := by
    clear_value x
    unfold tested
    rw [List.map_map, List.length_map]
    apply List.map_congr_left
    intro i hi
    rw [List.mem_range'_1] at hi
    simp only [Function.comp]
    rw [Finset.sum_mul, ← Finset.sum_add_distrib]
    apply Finset.sum_congr rfl
    intro k _
    rw [List.getD_eq_getElem _ _ (by simp; omega), List.getD_eq_getElem _ _ (by omega), List.getElem_map]
    ring
  rw [hxc, ht, ← List.map_drop, List.zip_map]
  exact corrcoef_shift _ _ _

/-- C164. The call returns exactly if the test does, with a 5% critical value, on every differenced series. -/
theorem C164_returns (adfuller : List ℝ → Py AdfOut) (index : List ℤ) (p : List ℝ) (hs : index.Pairwise (· < ·))
    (hl : p.length = index.length) (hp : ∀ x ∈ p, 0 < x) (orders : List ℝ) :
    (∃ out, runAdfTests adfuller index (p.map some) orders = .ok out) ↔
      ∀ d ∈ orders, ∃ (w : ℕ) (res : AdfOut), IsWidth d (1 / 100) p.length w ∧
        adfuller (tested (p.map Real.log) d w) = .ok res ∧ ∃ c, ("5%", c) ∈ res.crit := by
  constructor
  · rintro ⟨out, h⟩ d hd
    obtain ⟨-, h2, -, h4⟩ := C164_rows adfuller index p hs hl hp orders out h
    obtain ⟨⟨d', row⟩, hrow, rfl⟩ := List.mem_map.1 ((h2 d).2 hd)
    obtain ⟨w, res, a, b, -, -, -, -, c, -⟩ := h4 d' row hrow
    exact ⟨w, res, a, b, _, c⟩
  · intro h
    have hone : ∀ d ∈ orders, ∃ row, adfOne adfuller index (p.map some) d = .ok row := by
      intro d hd
      obtain ⟨w, res, hw, hres, c, hc⟩ := h d hd
      rw [adfOne_eq adfuller index p hs hl hp d w hw, hres, py_bind_ok]
      have : ∃ v, critical res.crit = .ok v := by
        unfold critical
        cases hf : res.crit.find? fun q => decide (q.1 = "5%") with
        | none => exact absurd (List.find?_eq_none.1 hf _ hc) (by simp)
        | some q => exact ⟨q.2, rfl⟩
      obtain ⟨v, hv⟩ := this
      rw [hv]
      exact ⟨_, rfl⟩
    unfold runAdfTests
    generalize ([] : List (ℝ × AdfRow)) = acc
    clear h
    induction orders generalizing acc with
    | nil => exact ⟨acc, rfl⟩
    | cons d ds ih =>
      obtain ⟨row, hrow⟩ := hone d (by simp)
      rw [List.foldlM_cons, hrow, py_bind_ok, py_pure, py_bind_ok]
      exact ih (fun e he => hone e (by simp [he])) _

/-- Order 1 on three prices: log returns are tested. -/
example (adf : AdfOut) (hadf : critical adf.crit = .ok 0) :
    ∃ row, runAdfTests (fun _ => .ok adf) [1, 2, 3] [some 1, some 2, some 3] [1] = .ok [(1, row)] := by
  obtain ⟨w, hw, -⟩ := getWeightsFixed_eq (1 : ℝ) (1 / 100) 3
  have := adfOne_eq (fun _ => .ok adf) [1, 2, 3] [1, 2, 3] (by decide) rfl (by simp) 1 w hw
  simp only [List.map_cons, List.map_nil] at this
  rw [py_bind_ok, hadf, py_bind_ok] at this
  obtain ⟨row, hrow⟩ : ∃ row, adfOne (fun _ => .ok adf) [1, 2, 3] [some 1, some 2, some 3] 1 = .ok row := ⟨_, this⟩
  refine ⟨row, ?_⟩
  unfold runAdfTests
  rw [List.foldlM_cons, hrow]
  simp [setRow, py_pure, py_bind_ok]

end FinML.FracDiff
