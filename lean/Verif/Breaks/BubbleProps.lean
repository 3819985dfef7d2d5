import Verif.Breaks.SadfTotalProps

/-! # Exact bubbles and exact reversion (C341)

The series of a supremum test that grows without any noise, and one that shrinks without any noise. -/

namespace FinML.Breaks

open Matrix FinML.Options

/-- At the times from `a` on, before `b`, the changes are the given combination of the level before, the lagged changes and
the deterministic terms. -/
def Follows (s : List ℝ) (constant : String) (lags : ℕ) (c : Fin (numCols constant lags) → ℝ) (a b : ℕ) : Prop :=
  ∀ t, a ≤ t → t < b →
    s.getD t 0 - s.getD (t - 1) 0 = ∑ l : Fin (numCols constant lags), (regressors s constant lags t).getD l 0 * c l

theorem design_changes (s : List ℝ) (constant : String) (lags : ℕ) (hn : lags + 2 ≤ s.length) :
    getYxInt s constant lags = .ok
      ((List.range (s.length - 1 - lags)).map fun j : ℕ =>
        s.getD (lags + 1 + j) 0 - s.getD (lags + 1 + j - 1) 0,
       (List.range (s.length - 1 - lags)).map fun j : ℕ => regressors s constant lags (lags + 1 + j)) := by
  have h0 : List.range (lags + 1) = 0 :: (List.range lags).map (· + 1) := by
    rw [List.range_succ_eq_map]
  have heq := getYx_eq s constant 0 ((List.range lags).map (· + 1)) lags (by rw [← h0]; exact List.nodup_range) (by
    intro k hk
    rw [← h0, List.mem_range] at hk
    omega) (by rw [← h0, List.mem_range]; omega) hn
  obtain ⟨y, hy, -⟩ := design_eq s constant lags hn
  have h1 := hy
  unfold getYxInt at h1
  rw [h0, heq, Except.ok.injEq, Prod.mk.injEq] at h1
  rw [hy, ← h1.1]
  congr 2
  apply List.map_congr_left
  intro j _
  rw [show lags + j + 1 = lags + 1 + j by omega, show lags + 1 + j - 1 = lags + j by omega]

/-- The statistic of a start point after which the changes follow the regressors without any error. -/
theorem window_exact (s : List ℝ) (constant : String) (lags : ℕ) (start : ℕ)
    (c : Fin (numCols constant lags) → ℝ) (hf : Follows s constant lags c (lags + 1 + start) s.length)
    (hind : Independent s constant lags (lags + 1 + start) s.length)
    (hrows : lags + 1 + start + numCols constant lags < s.length) :
    ∃ o, adfStat (((List.range (s.length - 1 - lags)).map fun j : ℕ =>
        s.getD (lags + 1 + j) 0 - s.getD (lags + 1 + j - 1) 0).drop start)
      (((List.range (s.length - 1 - lags)).map fun j : ℕ => regressors s constant lags (lags + 1 + j)).drop start)
      (numCols constant lags) (numCols_pos constant lags) = .ok o ∧
      (0 < c ⟨0, numCols_pos constant lags⟩ → o = some ⊤) ∧
      (c ⟨0, numCols_pos constant lags⟩ < 0 → o = some ⊥) ∧
      (c ⟨0, numCols_pos constant lags⟩ = 0 → o = none) := by
  set y := (List.range (s.length - 1 - lags)).map fun j : ℕ =>
        s.getD (lags + 1 + j) 0 - s.getD (lags + 1 + j - 1) 0 with hydef
  set x := (List.range (s.length - 1 - lags)).map fun j : ℕ => regressors s constant lags (lags + 1 + j) with hxdef
  obtain ⟨o, ho⟩ := (window_iff s constant lags y (by simp [hydef]) start).2 hind
  have hlen : (x.drop start).length = s.length - 1 - lags - start := by simp [hxdef]
  obtain ⟨-, b, inv, sq, h1, h2, -, -, -, h6⟩ := C121_statistic _ _ _ _ o ho (by rw [hlen]; omega)
  refine ⟨o, ho, ?_⟩
  have hx : ∀ i (hi : i < (x.drop start).length), (x.drop start)[i] = regressors s constant lags (lags + 1 + start + i) := by
    intro i hi
    rw [List.getElem_drop]
    simp only [hxdef, List.getElem_map, List.getElem_range]
    congr 1
    omega
  have hy : ∀ i, i < s.length - 1 - lags - start →
      (y.drop start).getD i 0 = s.getD (lags + 1 + start + i) 0 - s.getD (lags + 1 + start + i - 1) 0 := by
    intro i hi
    rw [List.getD_eq_getElem _ _ (by simp [hydef]; omega), List.getElem_drop]
    simp only [hydef, List.getElem_map, List.getElem_range]
    rw [show lags + 1 + (start + i) = lags + 1 + start + i by omega]
  have hzero : ∀ i : Fin (x.drop start).length,
      (y.drop start).getD i 0 - ∑ l : Fin (numCols constant lags), (x.drop start)[i].getD l 0 * c l = 0 := by
    intro i
    have hi : (i : ℕ) < s.length - 1 - lags - start := by rw [← hlen]; exact i.2
    rw [hy i hi, hf _ (by omega) (by omega)]
    have := hx i i.2
    rw [show (x.drop start)[i] = regressors s constant lags (lags + 1 + start + i) from this, sub_self]
  have hsq : sq = 0 := by
    have hle := h1 c
    rw [Finset.sum_eq_zero fun i _ => by rw [hzero i]; norm_num] at hle
    refine le_antisymm hle ?_
    rw [h2]
    exact Finset.sum_nonneg fun i _ => sq_nonneg _
  have hb : b = c := by
    have hz : ∀ i ∈ Finset.univ, (fun i : Fin (x.drop start).length =>
        ((y.drop start).getD i 0 - ∑ l : Fin (numCols constant lags), (x.drop start)[i].getD l 0 * b l) ^ 2) i = 0 := by
      rw [← Finset.sum_eq_zero_iff_of_nonneg fun i _ => sq_nonneg _]
      rw [← h2, hsq]
    have hd : (fun l => b l - c l) = 0 := by
      refine hind _ fun t ht1 ht2 => ?_
      have hi : t - (lags + 1 + start) < (x.drop start).length := by rw [hlen]; omega
      have e1 := hz ⟨_, hi⟩ (Finset.mem_univ _)
      have e2 := hzero ⟨_, hi⟩
      simp only [Fin.getElem_fin] at e1 e2
      rw [hx _ hi, show lags + 1 + start + (t - (lags + 1 + start)) = t by omega] at e1 e2
      have e3 := pow_eq_zero_iff (two_ne_zero) |>.1 e1
      simp only [mul_sub, Finset.sum_sub_distrib]
      linarith
    funext l
    have := congrFun hd l
    simp only [Pi.zero_apply] at this
    linarith
  rw [← hb]
  exact h6 hsq

/-- C341.  If over the shortest regression the changes follow the regressors without any error, with a positive coefficient of
the level, the statistic is infinite, whatever came before. -/
theorem C341_bubble (s : List ℝ) (minLen : ℕ) (constant : String) (lags : ℕ) (c : Fin (numCols constant lags) → ℝ)
    (hm : minLen < s.length) (hlen : lags + numCols constant lags < minLen)
    (hind : Independent s constant lags (s.length + lags - minLen) s.length)
    (hf : Follows s constant lags c (s.length + lags - minLen) s.length)
    (hc : 0 < c ⟨0, numCols_pos constant lags⟩) :
    sadfStat s minLen constant lags = .ok ⊤ := by
  have hn : lags + 2 ≤ s.length := by omega
  obtain ⟨v, hv⟩ := (C278_returns s minLen constant lags hn hm).2 hind
  have he : s.length + lags - minLen = lags + 1 + (s.length - 1 - minLen) := by omega
  rw [he] at hind hf
  obtain ⟨o, ho, h1, -⟩ := window_exact s constant lags _ c hf hind (by omega)
  obtain ⟨hs, -⟩ := C121_supremum s minLen constant lags v _ _ (design_changes s constant lags hn) hv
  obtain ⟨o', ho', hle⟩ := hs (s.length - 1 - minLen) (by simp; omega)
  beta_reduce at ho'
  rw [ho] at ho'
  cases ho'
  rw [hv, top_le_iff.1 (hle ⊤ (h1 hc))]

/-- C341.  If at all times the changes follow the regressors without any error, with a coefficient of the level that is not
positive, the statistic is minus infinity: also for an exact random walk, whose ratios are all 0 over 0. -/
theorem C341_reversion (s : List ℝ) (minLen : ℕ) (constant : String) (lags : ℕ) (c : Fin (numCols constant lags) → ℝ)
    (hm : minLen < s.length) (hlen : lags + numCols constant lags < minLen)
    (hind : Independent s constant lags (s.length + lags - minLen) s.length)
    (hf : Follows s constant lags c (lags + 1) s.length)
    (hc : c ⟨0, numCols_pos constant lags⟩ ≤ 0) :
    sadfStat s minLen constant lags = .ok ⊥ := by
  have hn : lags + 2 ≤ s.length := by omega
  obtain ⟨v, hv⟩ := (C278_returns s minLen constant lags hn hm).2 hind
  obtain ⟨-, hs | ⟨start, hst, hs⟩⟩ := C121_supremum s minLen constant lags v _ _ (design_changes s constant lags hn) hv
  · rw [hv, hs]
  · simp only [List.length_map, List.length_range] at hst
    obtain ⟨o, ho, -, h2, h3⟩ := window_exact s constant lags start c (fun t h1 h2 => hf t (by omega) h2)
      (hind.mono (by omega)) (by omega)
    beta_reduce at hs
    rw [ho] at hs
    rcases hc.lt_or_eq with h | h
    · rw [h2 h] at hs
      cases hs
      exact hv
    · rw [h3 h] at hs
      cases hs

theorem numCols_nc (lags : ℕ) : numCols "nc" lags = lags + 1 := by
  unfold numCols deterministic
  simp

theorem numCols_c : numCols "c" 0 = 2 := by
  unfold numCols deterministic
  decide

theorem numCols_nc0 : numCols "nc" 0 = 1 := numCols_nc 0

theorem sum_nc (s : List ℝ) (c : Fin (numCols "nc" 0) → ℝ) (t : ℕ) :
    ∑ l : Fin (numCols "nc" 0), (regressors s "nc" 0 t).getD l 0 * c l = s.getD (t - 1) 0 * c ⟨0, numCols_pos _ _⟩ := by
  rw [Finset.sum_eq_single (⟨0, numCols_pos _ _⟩ : Fin (numCols "nc" 0))]
  · simp [regressors]
  · intro l _ hl
    exact absurd (Fin.ext (by have h2 := l.2.trans_eq numCols_nc0; simp only; omega)) hl
  · simp

theorem independent_nc (s : List ℝ) (a b : ℕ) (hab : a < b) (h0 : s.getD (a - 1) 0 ≠ 0) : Independent s "nc" 0 a b := by
  intro c hc
  have := hc a le_rfl hab
  rw [sum_nc] at this
  rcases mul_eq_zero.1 this with h1 | h1
  · exact absurd h1 h0
  · funext l
    have hl : l = ⟨0, numCols_pos _ _⟩ := Fin.ext (by have h2 := l.2.trans_eq numCols_nc0; simp only; omega)
    rw [hl, h1, Pi.zero_apply]

/-- C341.  Without lags and constant: a price that over the last `min_sample_len` changes grows by the same positive rate, from
a level that is not 0, has an infinite statistic. -/
theorem C341_growth (s : List ℝ) (minLen : ℕ) (hm : minLen < s.length) (hlen : 2 ≤ minLen) (g : ℝ) (hg : 1 < g)
    (h0 : s.getD (s.length - minLen - 1) 0 ≠ 0)
    (h : ∀ t, s.length - minLen ≤ t → t < s.length → s.getD t 0 = g * s.getD (t - 1) 0) :
    sadfStat s minLen "nc" 0 = .ok ⊤ := by
  refine C341_bubble s minLen "nc" 0 (fun _ => g - 1) hm (by rw [numCols_nc0]; omega)
    (independent_nc s _ _ (by omega) h0) ?_ (by linarith)
  intro t h1 h2
  rw [sum_nc, h t (by omega) h2]
  ring

/-- C341.  A price that at all times shrinks by the same rate, or stays the same, has the statistic minus infinity. -/
theorem C341_decay (s : List ℝ) (minLen : ℕ) (hm : minLen < s.length) (hlen : 2 ≤ minLen) (g : ℝ) (hg : g ≤ 1)
    (h0 : s.getD (s.length - minLen - 1) 0 ≠ 0)
    (h : ∀ t, 1 ≤ t → t < s.length → s.getD t 0 = g * s.getD (t - 1) 0) :
    sadfStat s minLen "nc" 0 = .ok ⊥ := by
  refine C341_reversion s minLen "nc" 0 (fun _ => g - 1) hm (by rw [numCols_nc0]; omega)
    (independent_nc s _ _ (by omega) h0) ?_ (by linarith)
  intro t h1 h2
  rw [sum_nc, h t (by omega) h2]
  ring

/-- C341.  Without lags, with a constant: a price whose distance from a level `a` grows by the same positive rate has an
infinite statistic. -/
theorem C341_growth_from_level (s : List ℝ) (minLen : ℕ) (hm : minLen < s.length) (hlen : 3 ≤ minLen) (a g : ℝ) (hg : 1 < g)
    (h0 : s.getD (s.length - minLen - 1) 0 ≠ a)
    (h : ∀ t, s.length - minLen ≤ t → t < s.length → s.getD t 0 - a = g * (s.getD (t - 1) 0 - a)) :
    sadfStat s minLen "c" 0 = .ok ⊤ := by
  have hsum : ∀ (c : Fin (numCols "c" 0) → ℝ) t, ∑ l : Fin (numCols "c" 0), (regressors s "c" 0 t).getD l 0 * c l =
      s.getD (t - 1) 0 * c ⟨0, by rw [numCols_c]; omega⟩ + c ⟨1, by rw [numCols_c]; omega⟩ := by
    intro c t
    have hr : regressors s "c" 0 t = [s.getD (t - 1) 0, 1] := by
      unfold regressors deterministic
      simp
    rw [hr]
    have : ∀ (n : ℕ) (hn : n = 2) (c : Fin n → ℝ), ∑ l : Fin n, ([s.getD (t - 1) 0, 1] : List ℝ).getD l 0 * c l =
      s.getD (t - 1) 0 * c ⟨0, by omega⟩ + c ⟨1, by omega⟩ := by
      rintro n rfl c
      rw [Fin.sum_univ_two]
      simp
    exact this _ numCols_c c
  have h01 : ∀ l : Fin (numCols "c" 0), l = ⟨0, by rw [numCols_c]; omega⟩ ∨ l = ⟨1, by rw [numCols_c]; omega⟩ := by
    intro l
    have := l.2.trans_eq numCols_c
    rcases (show (l : ℕ) = 0 ∨ (l : ℕ) = 1 by omega) with h | h
    · exact .inl (Fin.ext h)
    · exact .inr (Fin.ext h)
  refine C341_bubble s minLen "c" 0 (fun l => if (l : ℕ) = 0 then g - 1 else -(g - 1) * a) hm (by rw [numCols_c]; omega)
    ?_ ?_ (by simp; linarith)
  · intro c hc
    have e1 := hc (s.length - minLen) (by omega) (by omega)
    have e2 := hc (s.length - minLen + 1) (by omega) (by omega)
    rw [hsum] at e1 e2
    rw [show s.length - minLen + 1 - 1 = s.length - minLen by omega] at e2
    have e3 := h (s.length - minLen) le_rfl (by omega)
    have hd : (g - 1) * (s.getD (s.length - minLen - 1) 0 - a) * c ⟨0, by rw [numCols_c]; omega⟩ = 0 := by
      have : (s.getD (s.length - minLen) 0 - s.getD (s.length - minLen - 1) 0) * c ⟨0, by rw [numCols_c]; omega⟩ = 0 := by
        linarith
      rw [show s.getD (s.length - minLen) 0 - s.getD (s.length - minLen - 1) 0 =
        (g - 1) * (s.getD (s.length - minLen - 1) 0 - a) by linarith] at this
      exact this
    have hc0 : c ⟨0, by rw [numCols_c]; omega⟩ = 0 := by
      rcases mul_eq_zero.1 hd with h1 | h1
      · rcases mul_eq_zero.1 h1 with h2 | h2
        · linarith
        · exact absurd (sub_eq_zero.1 h2) h0
      · exact h1
    rw [hc0, mul_zero, zero_add] at e1
    funext l
    rcases h01 l with rfl | rfl
    · exact hc0
    · exact e1
  · intro t h1 h2
    rw [hsum]
    have := h t (by omega) h2
    simp only [if_true, one_ne_zero, if_false]
    linarith

/-- After any past, 1, 2, 4, 8 is a bubble. -/
example : sadfStat [5, -3, 1, 2, 4, 8] 3 "nc" 0 = .ok ⊤ := by
  refine C341_growth _ 3 (by simp) (by norm_num) 2 (by norm_num) (by simp) ?_
  intro t h1 h2
  simp only [List.length_cons, List.length_nil] at h1 h2
  interval_cases t <;> norm_num

/-- 8, 4, 2, 1 is none. -/
example : sadfStat [8, 4, 2, 1] 2 "nc" 0 = .ok ⊥ := by
  refine C341_decay _ 2 (by simp) (by norm_num) (1 / 2) (by norm_num) (by simp) ?_
  intro t h1 h2
  simp only [List.length_cons, List.length_nil] at h1 h2
  interval_cases t <;> norm_num

/-- Above the level 1 the same. -/
example : sadfStat [5, -3, 2, 3, 5, 9] 3 "c" 0 = .ok ⊤ := by
  refine C341_growth_from_level _ 3 (by simp) (by norm_num) 1 2 (by norm_num) (by norm_num) ?_
  intro t h1 h2
  simp only [List.length_cons, List.length_nil] at h1 h2
  interval_cases t <;> norm_num

end FinML.Breaks
