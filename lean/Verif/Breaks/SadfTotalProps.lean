import Verif.Breaks.SadfProps
import Verif.Breaks.RecursiveProps
import Mathlib.LinearAlgebra.Dimension.Finite

/-! # How many rows a regression uses (C277), and when statistics exist (C269, C278) -/

namespace FinML.Breaks

open Matrix FinML.Options

/-- C269.  The statistics exist exactly if there is one value for each row and the first `k` rows are linearly independent:
no combination of the variables but the trivial one vanishes on all of them. -/
theorem C269_returns {k : ℕ} (X : List (Fin k → ℝ)) (y : List ℝ) :
    (∃ out, recursiveCusum X y = .ok out) ↔
      X.length = y.length ∧ ∀ b : Fin k → ℝ, (∀ x ∈ X.take k, x ⬝ᵥ b = 0) → b = 0 := by
  unfold recursiveCusum
  by_cases h : X.length = y.length
  · rw [if_neg (by simpa using h)]
    have e : ∀ b : Fin k → ℝ, (∀ x ∈ X.take k, x ⬝ᵥ b = 0) ↔ ∀ r ∈ (X.zip y).take k, r.1 ⬝ᵥ b = 0 := by
      intro b
      have : X.take k = ((X.zip y).take k).map Prod.fst := by
        rw [List.map_take, List.map_fst_zip h.le]
      rw [this]
      simp only [List.mem_map, forall_exists_index, and_imp, forall_apply_eq_imp_iff₂]
    simp only [e, ← det_iff]
    by_cases hd : (gram ((X.zip y).take k)).det = 0
    · simp [hd]
    · simp [hd, h]
  · rw [if_pos (by simpa using h)]
    simp [h]

theorem mapM_returns {α β : Type} (l : List α) (f : α → Py β) (h : ∀ a ∈ l, ∃ b, f a = .ok b) : ∃ bs, l.mapM f = .ok bs := by
  induction l with
  | nil => exact ⟨[], rfl⟩
  | cons a l ih =>
    obtain ⟨b, hb⟩ := h a (by simp)
    obtain ⟨bs, hbs⟩ := ih fun x hx => h x (by simp [hx])
    exact ⟨b :: bs, by rw [List.mapM_cons, hb, py_bind_ok, hbs]; rfl⟩

/-! ## The regressors of a time -/

/-- The regressors of time `t`: the level before, the lagged changes, and the deterministic terms. -/
noncomputable def regressors (s : List ℝ) (constant : String) (lags t : ℕ) : List ℝ :=
  (s.getD (t - 1) 0 :: (List.range lags).map fun k : ℕ => s.getD (t - (k + 1)) 0 - s.getD (t - (k + 1) - 1) 0) ++
    deterministic constant (t - lags - 1)

/-- No combination of the regressors but the trivial one vanishes at all times from `a` on, before `b`. -/
def Independent (s : List ℝ) (constant : String) (lags a b : ℕ) : Prop :=
  ∀ c : Fin (numCols constant lags) → ℝ,
    (∀ t, a ≤ t → t < b → ∑ l : Fin (numCols constant lags), (regressors s constant lags t).getD l 0 * c l = 0) → c = 0

theorem design_eq (s : List ℝ) (constant : String) (lags : ℕ) (hn : lags + 2 ≤ s.length) :
    ∃ y, getYxInt s constant lags = .ok (y, (List.range (s.length - 1 - lags)).map fun j : ℕ =>
      regressors s constant lags (lags + 1 + j)) ∧ y.length = s.length - 1 - lags := by
  have h0 : List.range (lags + 1) = 0 :: (List.range lags).map (· + 1) := by
    rw [List.range_succ_eq_map]
  have heq := getYx_eq s constant 0 ((List.range lags).map (· + 1)) lags (by rw [← h0]; exact List.nodup_range) (by
    intro k hk
    rw [← h0, List.mem_range] at hk
    omega) (by rw [← h0, List.mem_range]; omega) hn
  refine ⟨_, (by
    unfold getYxInt
    rw [h0, heq]
    congr 2
    apply List.map_congr_left
    intro j _
    unfold regressors
    rw [show lags + 1 + j - 1 = lags + j by omega, show lags + 1 + j - lags - 1 = j by omega, List.map_map]
    congr 2
    apply List.map_congr_left
    intro k hk
    rw [List.mem_range] at hk
    simp only [Function.comp_apply]
    rw [show lags + j + 1 - (k + 1) = lags + 1 + j - (k + 1) by omega,
      show lags + j - (k + 1) = lags + 1 + j - (k + 1) - 1 by omega]), by simp⟩

/-- The statistic of one start point exists exactly if the regressors after it are independent. -/
theorem adfStat_iff (y : List ℝ) (x : List (List ℝ)) (hl : y.length = x.length) (k : ℕ) (hk : 0 < k) :
    (∃ o, adfStat y x k hk = .ok o) ↔
      ∀ c : Fin k → ℝ, (∀ r ∈ x, ∑ l : Fin k, r.getD l 0 * c l = 0) → c = 0 := by
  have hfit : (∃ r, fitAdf (toVector y x.length) (toMatrix x k) = .ok r) ↔
      fitAdf (toVector y x.length) (toMatrix x k) ≠ .error .exception := by
    unfold fitAdf
    simp only
    split_ifs <;> simp
  have h1 : (∃ o, adfStat y x k hk = .ok o) ↔ ∃ r, fitAdf (toVector y x.length) (toMatrix x k) = .ok r := by
    unfold adfStat
    rw [if_neg (by simpa using hl)]
    constructor
    · rintro ⟨o, h⟩
      rw [py_bind_eq_ok] at h
      obtain ⟨r, h, -⟩ := h
      exact ⟨r, h⟩
    · rintro ⟨r, h⟩
      exact ⟨_, by rw [h]; rfl⟩
  rw [h1, hfit, ne_eq, C120_error]
  push Not
  refine forall_congr' fun c => ?_
  constructor
  · intro h hr
    by_contra hc
    obtain ⟨i, hi⟩ := h hc
    exact hi (hr _ (List.getElem_mem i.2))
  · intro h hc
    by_contra hall
    push Not at hall
    refine hc (h ?_)
    intro r hr
    obtain ⟨i, hi, rfl⟩ := List.mem_iff_getElem.1 hr
    exact hall ⟨i, hi⟩

theorem window_iff (s : List ℝ) (constant : String) (lags : ℕ) (y : List ℝ) (hy : y.length = s.length - 1 - lags)
    (start : ℕ) :
    (∃ o, adfStat (y.drop start) (((List.range (s.length - 1 - lags)).map fun j : ℕ =>
      regressors s constant lags (lags + 1 + j)).drop start) (numCols constant lags) (numCols_pos constant lags) = .ok o) ↔
      Independent s constant lags (lags + 1 + start) s.length := by
  rw [adfStat_iff _ _ (by simp [hy])]
  unfold Independent
  refine forall_congr' fun c => ?_
  have : (∀ r ∈ ((List.range (s.length - 1 - lags)).map fun j : ℕ => regressors s constant lags (lags + 1 + j)).drop start,
      ∑ l : Fin (numCols constant lags), r.getD l 0 * c l = 0) ↔
      ∀ t, lags + 1 + start ≤ t → t < s.length →
        ∑ l : Fin (numCols constant lags), (regressors s constant lags t).getD l 0 * c l = 0 := by
    constructor
    · intro h t h1 h2
      refine h _ ?_
      rw [List.mem_iff_getElem]
      refine ⟨t - (lags + 1 + start), by simp; omega, ?_⟩
      rw [List.getElem_drop, List.getElem_map, List.getElem_range]
      congr 1
      omega
    · intro h r hr
      obtain ⟨i, hi, rfl⟩ := List.mem_iff_getElem.1 hr
      simp only [List.length_drop, List.length_map, List.length_range] at hi
      rw [List.getElem_drop, List.getElem_map, List.getElem_range]
      exact h _ (by omega) (by omega)
  rw [this]

theorem Independent.mono {s : List ℝ} {constant : String} {lags a a' b : ℕ} (h : Independent s constant lags a b)
    (ha : a' ≤ a) : Independent s constant lags a' b :=
  fun c hc => h c fun t h1 h2 => hc t (by omega) h2

/-- C278.  `sadf_stat` returns exactly if the shortest regression, that of the last `min_sample_len - lags` times, has
independent regressors; the longer ones then have, too. -/
theorem C278_returns (s : List ℝ) (minLen : ℕ) (constant : String) (lags : ℕ) (hn : lags + 2 ≤ s.length)
    (hm : minLen < s.length) :
    (∃ v, sadfStat s minLen constant lags = .ok v) ↔ Independent s constant lags (s.length + lags - minLen) s.length := by
  obtain ⟨y, hyx, hy⟩ := design_eq s constant lags hn
  constructor
  · rintro ⟨v, h⟩
    obtain ⟨h1, -⟩ := C121_supremum s minLen constant lags v y _ hyx h
    obtain ⟨o, ho, -⟩ := h1 (s.length - 1 - minLen) (by omega)
    have := (window_iff s constant lags y hy _).1 ⟨o, ho⟩
    rwa [show lags + 1 + (s.length - 1 - minLen) = s.length + lags - minLen by omega] at this
  · intro h
    unfold sadfStat
    rw [hyx, py_bind_ok]
    obtain ⟨stats, hs⟩ := mapM_returns (List.range (y.length + lags + 1 - minLen)) (fun start : ℕ =>
        adfStat (y.drop start) (((List.range (s.length - 1 - lags)).map fun j : ℕ =>
          regressors s constant lags (lags + 1 + j)).drop start) (numCols constant lags) (numCols_pos constant lags)) (by
      intro start hst
      rw [List.mem_range] at hst
      exact (window_iff s constant lags y hy start).2 (h.mono (by omega)))
    exact ⟨_, by rw [hs]; rfl⟩

/-- C278.  `sadf_stat_series` returns exactly if, at every time from `min_sample_len` on, the regressors of the last
`min_sample_len - lags` times are independent. -/
theorem C278_series (s : List ℝ) (minLen : ℕ) (constant : String) (lags : ℕ) (hm : lags < minLen) :
    (∃ l, sadfStatSeries s minLen constant lags = .ok l) ↔
      ∀ t, minLen ≤ t → t < s.length → Independent s constant lags (t + 1 + lags - minLen) (t + 1) := by
  have key : ∀ t, minLen ≤ t → t < s.length →
      ((∃ v, sadfStat (s.take (t + 1)) minLen constant lags = .ok v) ↔
        Independent s constant lags (t + 1 + lags - minLen) (t + 1)) := by
    intro t h1 h2
    have hl : (s.take (t + 1)).length = t + 1 := by simp; omega
    rw [C278_returns _ _ _ _ (by omega) (by omega), hl]
    refine forall_congr' fun c => ?_
    have : ∀ u, u < t + 1 → regressors (s.take (t + 1)) constant lags u = regressors s constant lags u := by
      intro u hu
      have hg : ∀ i, i < t + 1 → (s.take (t + 1)).getD i 0 = s.getD i 0 := by
        intro i hi
        simp only [List.getD_eq_getElem?_getD, List.getElem?_take, if_pos hi]
      unfold regressors
      rw [hg _ (by omega)]
      congr 2
      apply List.map_congr_left
      intro k _
      rw [hg _ (by omega), hg _ (by omega)]
    have e : (∀ u, t + 1 + lags - minLen ≤ u → u < t + 1 →
        ∑ l : Fin (numCols constant lags), (regressors (s.take (t + 1)) constant lags u).getD l 0 * c l = 0) ↔
        ∀ u, t + 1 + lags - minLen ≤ u → u < t + 1 →
          ∑ l : Fin (numCols constant lags), (regressors s constant lags u).getD l 0 * c l = 0 := by
      refine forall_congr' fun u => forall_congr' fun _ => forall_congr' fun hu => ?_
      rw [this u hu]
    rw [e]
  constructor
  · rintro ⟨l, h⟩ t h1 h2
    obtain ⟨v, -, hv⟩ := (C121_series s minLen constant lags l h).2 t h1 h2
    exact (key t h1 h2).1 ⟨v, hv⟩
  · intro h
    unfold sadfStatSeries
    apply mapM_returns
    intro i hi
    rw [List.mem_range] at hi
    obtain ⟨v, hv⟩ := (key (minLen + i) (by omega) (by omega)).2 (h _ (by omega) (by omega))
    exact ⟨(minLen + i, v), by rw [hv]; rfl⟩

/-- Fewer times than regressors are never independent. -/
theorem few_times (s : List ℝ) (constant : String) (lags a b : ℕ) (h : b < a + numCols constant lags) :
    ¬ Independent s constant lags a b := by
  intro hi
  let f : (Fin (numCols constant lags) → ℝ) →ₗ[ℝ] (Fin (b - a) → ℝ) :=
    { toFun := fun c i => ∑ l : Fin (numCols constant lags), (regressors s constant lags (a + i)).getD l 0 * c l
      map_add' := by
        intro c d
        ext i
        simp only [Pi.add_apply, mul_add, Finset.sum_add_distrib]
      map_smul' := by
        intro r c
        ext i
        simp only [Pi.smul_apply, smul_eq_mul, RingHom.id_apply, Finset.mul_sum]
        exact Finset.sum_congr rfl fun _ _ => by ring }
  have hinj : Function.Injective f := by
    rw [injective_iff_map_eq_zero]
    intro c hc
    refine hi c fun t h1 h2 => ?_
    have := congrFun hc ⟨t - a, by omega⟩
    simp only [f, LinearMap.coe_mk, AddHom.coe_mk] at this
    rwa [show a + (t - a) = t by omega] at this
  have := LinearMap.finrank_le_finrank_of_injective hinj
  simp only [Module.finrank_fin_fun] at this
  have := numCols_pos constant lags
  omega

/-- C278.  With `min_sample_len` below twice the lags and one and the deterministic terms, no series whatever has a
statistic. -/
theorem C278_too_short (s : List ℝ) (minLen : ℕ) (constant : String) (lags : ℕ) (hn : lags + 2 ≤ s.length)
    (hm : minLen < s.length) (hshort : minLen < lags + numCols constant lags) :
    ¬ ∃ v, sadfStat s minLen constant lags = .ok v := by
  rw [C278_returns s minLen constant lags hn hm]
  exact few_times _ _ _ _ _ (by omega)

/-- C278.  With a constant, levels that stay the same over the shortest regression before one time leave the whole series
without statistics. -/
theorem C278_flat (s : List ℝ) (minLen : ℕ) (constant : String) (hc : constant ≠ "nc") (lags : ℕ) (hm : lags < minLen)
    (t : ℕ) (h1 : minLen ≤ t) (h2 : t < s.length) (p : ℝ)
    (hflat : ∀ u, t + 1 + lags - minLen ≤ u → u < t + 1 → s.getD (u - 1) 0 = p) :
    ¬ ∃ l, sadfStatSeries s minLen constant lags = .ok l := by
  rw [C278_series s minLen constant lags hm]
  intro h
  have hi := h t h1 h2
  have hd : ∀ j, ∃ rest : List ℝ, deterministic constant j = 1 :: rest := by
    intro j
    unfold deterministic
    rw [if_pos hc]
    exact ⟨_, rfl⟩
  have hnum : lags + 1 < numCols constant lags := by
    unfold numCols deterministic
    rw [if_pos hc]
    simp
  let i0 : Fin (numCols constant lags) := ⟨0, by omega⟩
  let i1 : Fin (numCols constant lags) := ⟨lags + 1, hnum⟩
  have hne : i0 ≠ i1 := by
    intro he
    have := congrArg Fin.val he
    simp [i0, i1] at this
  have := hi (Pi.single i0 1 + Pi.single i1 (-p)) (by
    intro u h3 h4
    have e0 : (regressors s constant lags u).getD 0 0 = p := by
      unfold regressors
      simpa using hflat u h3 h4
    have e1 : (regressors s constant lags u).getD (lags + 1) 0 = 1 := by
      unfold regressors
      obtain ⟨rest, hr⟩ := hd (u - lags - 1)
      rw [hr, List.getD_eq_getElem?_getD, List.getElem?_append_right (by simp)]
      simp
    simp only [Pi.add_apply, mul_add, Finset.sum_add_distrib, Pi.single_apply, mul_ite, mul_zero, mul_one, Finset.sum_ite_eq',
      Finset.mem_univ, if_true]
    show (regressors s constant lags u).getD 0 0 + (regressors s constant lags u).getD (lags + 1) 0 * -p = 0
    rw [e0, e1]
    ring)
  have h0 := congrFun this i0
  simp only [Pi.add_apply, Pi.single_eq_same, Pi.zero_apply, Pi.single_eq_of_ne hne, add_zero] at h0
  norm_num at h0

/-- A flat stretch of three in a longer series. -/
example : ¬ ∃ l, sadfStatSeries [1, 5, 5, 5, 7, 3, 2] 3 "c" 0 = .ok l :=
  C278_flat _ 3 "c" (by decide) 0 (by norm_num) 4 (by norm_num) (by norm_num) 5 (by
    intro u h1 h2
    interval_cases u <;> norm_num)

/-! ## C277: the number of rows -/

/-- C277, full statement: regressions use at least `min_sample_len` rows, so that the call returns if those with at least that
many rows can be estimated. -/
def AtLeastMin : Prop :=
  ∀ (s : List ℝ) (minLen : ℕ) (constant : String) (lags : ℕ), lags + 2 ≤ s.length →
    (∀ a, a + minLen ≤ s.length → lags + 1 ≤ a → Independent s constant lags a s.length) →
    ∃ v, sadfStat s minLen constant lags = .ok v

/-- C277 is false for the code: with one lag a regression of one row is tried although two are the minimum. -/
theorem C277_rows_counterexample : ¬ AtLeastMin := by
  intro h
  have hcols : numCols "nc" 1 = 2 := by decide
  refine C278_too_short [1, 2, 5, 6] 2 "nc" 1 (by simp) (by simp) (by rw [hcols]; norm_num) (h [1, 2, 5, 6] 2 "nc" 1 (by simp) ?_)
  intro a h1 h2
  simp only [List.length_cons, List.length_nil] at h1
  obtain rfl : a = 2 := by omega
  intro c hc
  have e2 := hc 2 (by norm_num) (by simp)
  have e3 := hc 3 (by norm_num) (by simp)
  have hr2 : regressors [1, 2, 5, 6] "nc" 1 2 = [2, 1] := by
    norm_num [regressors, deterministic]
  have hr3 : regressors [1, 2, 5, 6] "nc" 1 3 = [5, 3] := by
    norm_num [regressors, deterministic]
  rw [hr2] at e2
  rw [hr3] at e3
  clear hc hr2 hr3 h
  revert c
  rw [hcols]
  intro c e2 e3
  simp only [Fin.sum_univ_two, Fin.val_zero, Fin.val_one, List.getD_cons_zero, List.getD_cons_succ] at e2 e3
  ext i
  fin_cases i
  · show c 0 = 0
    linarith
  · show c 1 = 0
    linarith

/-- C277, the part that holds: the regressions are those of the last `r` times for every `r` from `min_sample_len - lags` to
all that have their lags, and the statistic is the largest of theirs.  Missing from the full statement: `lags` rows. -/
theorem C277_rows_partial (s : List ℝ) (minLen : ℕ) (constant : String) (lags : ℕ) (hn : lags + 2 ≤ s.length) (v : EReal)
    (h : sadfStat s minLen constant lags = .ok v) :
    ∃ y x, getYxInt s constant lags = .ok (y, x) ∧ x.length = s.length - 1 - lags ∧
      IsSup (fun start => start + minLen ≤ s.length - 1)
        (fun start => adfStat (y.drop start) (x.drop start) (numCols constant lags) (numCols_pos constant lags)) v ∧
      ∀ start, start + minLen ≤ s.length - 1 → minLen ≤ (x.drop start).length + lags := by
  obtain ⟨y, hyx, hy⟩ := design_eq s constant lags hn
  refine ⟨y, _, hyx, by simp, ?_, ?_⟩
  · have := C121_supremum s minLen constant lags v y _ hyx h
    rwa [hy, show s.length - 1 - lags + lags = s.length - 1 by omega] at this
  · intro start h1
    simp only [List.length_drop, List.length_map, List.length_range]
    omega

end FinML.Breaks
