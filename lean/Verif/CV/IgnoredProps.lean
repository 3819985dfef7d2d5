import Verif.CV.ScoreProps
import Mathlib.Data.List.GetD

/-! # Property C252: a feature that the model ignores has no importance -/

namespace FinML.CV

variable {C L P : Type}

/-- Two tables that differ at most in column `j`. -/
def SameOff (j : ℕ) (A B : List (List ℝ)) : Prop :=
  List.Forall₂ (fun a b => a.length = b.length ∧ ∀ k, k ≠ j → a[k]? = b[k]?) A B

/-- The predictions of the estimators that come out of `fit` do not depend on column `j`. -/
def Ignores (lib : Lib C (List ℝ) L P) (j : ℕ) : Prop :=
  ∀ clf X y w m, lib.fit clf X y w = .ok m → ∀ A B, SameOff j A B →
    lib.proba m A = lib.proba m B ∧ lib.predict m A = lib.predict m B

/-- No importance: the mean and the error are 0, or missing; the mean is missing only if there were no folds
or the average score is the best there is. -/
def NoImportance (scoring : String) (avg : Option ℝ) (entry : Option ℝ × Option ℝ) : Prop :=
  (entry.1 = some 0 ∨ entry.1 = none ∧ (avg = none ∨ avg = some (perfect scoring))) ∧
    (entry.2 = some 0 ∨ entry.2 = none)

theorem scoreOf_congr (lib : Lib C (List ℝ) L P) (scoring : String) (m : C) {A B : List (List ℝ)}
    (h : lib.proba m A = lib.proba m B ∧ lib.predict m A = lib.predict m B) (y : List L) (w : List ℝ) :
    scoreOf lib scoring m A y w = scoreOf lib scoring m B y w := by
  unfold scoreOf
  rw [h.1, h.2]

theorem permuteColumn_sameOff (shuffle : List ℝ → List ℝ) (hsh : ∀ l, (shuffle l).Perm l) (X : List (List ℝ))
    (j : ℕ) : SameOff j (permuteColumn shuffle X j) X := by
  have hlen : (shuffle (X.map fun r => r.getD j 0)).length = X.length := by
    rw [(hsh _).length_eq, List.length_map]
  unfold SameOff permuteColumn
  refine List.forall₂_iff_get.2 ⟨by rw [List.length_zipWith, hlen, Nat.min_self], fun i h1 h2 => ?_⟩
  simp only [List.get_eq_getElem, List.getElem_zipWith, List.length_set, true_and]
  intro k hk
  exact List.getElem?_set_ne (Ne.symm hk)

theorem permuteColumn_const (shuffle : List ℝ → List ℝ) (hsh : ∀ l, (shuffle l).Perm l) (X : List (List ℝ))
    (j : ℕ) (c : ℝ) (hc : ∀ r ∈ X, r.getD j 0 = c) : permuteColumn shuffle X j = X := by
  have hcol : (X.map fun r => r.getD j 0) = List.replicate X.length c :=
    List.eq_replicate_iff.2 ⟨by simp, fun b hb => by
      obtain ⟨r, hr, rfl⟩ := List.mem_map.1 hb
      exact hc r hr⟩
  have hs : shuffle (X.map fun r => r.getD j 0) = List.replicate X.length c := by
    have h := hsh (X.map fun r => r.getD j 0)
    rw [hcol] at h ⊢
    exact List.perm_replicate.1 h
  unfold permuteColumn
  rw [hs]
  apply List.ext_getElem (by simp)
  intro i h1 h2
  simp only [List.getElem_zipWith, List.getElem_replicate]
  have := hc X[i] (List.getElem_mem h2)
  by_cases hj : j < X[i].length
  · rw [List.getD_eq_getElem _ _ hj] at this
    exact (congrArg (X[i].set j) this.symm).trans (List.set_getElem_self hj)
  · exact List.set_eq_of_length_le (by omega)

/-- If shuffling column `j` never changes the score, every fold has equal scores. -/
theorem mdaLoop_same (lib : Lib C (List ℝ) L P) (scoring : String) (nCols : ℕ)
    (shuffle : ℕ → ℕ → List ℝ → List ℝ) (X : List (List ℝ)) (y : List L) (w : List ℝ) (j : ℕ) (hj : j < nCols)
    (hsame : ∀ fold clf Xtr ytr wtr m, lib.fit clf Xtr ytr wtr = .ok m → ∀ (is : List ℕ) Xte,
      is.mapM (pyGet X) = .ok Xte → ∀ yte wte,
        scoreOf lib scoring m (permuteColumn (shuffle fold j) Xte j) yte wte = scoreOf lib scoring m Xte yte wte)
    (splits : List (List ℕ × List ℕ)) (fold : ℕ) (clf : C) (rows : List (ℝ × List ℝ))
    (h : mdaLoop lib scoring nCols shuffle X y w fold clf splits = .ok rows) :
    ∀ r ∈ rows, r.2.getD j 0 = r.1 := by
  induction splits generalizing fold clf rows with
  | nil => cases h; simp
  | cons s ss ih =>
    rw [mdaLoop, py_bind_eq_ok] at h
    obtain ⟨r, h1, h⟩ := h
    rw [py_bind_eq_ok] at h
    obtain ⟨rest, h2, h⟩ := h
    cases h
    intro x hx
    rcases List.mem_cons.1 hx with rfl | hx
    · unfold mdaOne at h1
      simp only [py_bind_eq_ok, py_pure, Except.ok.injEq] at h1
      obtain ⟨a1, b1, a2, b2, a3, b3, a4, b4, a5, b5, a6, b6, m, b7, v, b8, ps, b9, rfl⟩ := h1
      have hf := (mapM_eq_ok_iff _ _ _).1 b9
      have hpl : ps.length = nCols := by rw [← hf.length_eq, List.length_range]
      have hjp : j < ps.length := by rw [hpl]; exact hj
      have := (List.forall₂_iff_get.1 hf).2 j (by simpa using hj) hjp
      simp only [List.get_eq_getElem, List.getElem_range] at this
      rw [hsame fold clf a1 a2 a3 m b7 s.2 a4 b4 a5 a6, b8, Except.ok.injEq] at this
      simp only [List.getD_eq_getElem _ _ hjp]
      exact this.symm
    · exact ih _ _ _ h2 x hx

theorem mean_zeros {l : List ℝ} (h : ∀ x ∈ l, x = 0) : npMean l = if l = [] then none else some 0 := by
  unfold npMean
  split_ifs
  · rfl
  · have : l.sum = 0 := List.sum_eq_zero h
    rw [this, zero_div]

theorem std_zeros {l : List ℝ} (h : ∀ x ∈ l, x = 0) : stdSample l = none ∨ stdSample l = some 0 := by
  unfold stdSample
  split_ifs
  · exact .inl rfl
  · right
    have h0 : l.sum = 0 := List.sum_eq_zero h
    have h1 : (l.map fun x => (x - l.sum / (l.length : ℝ)) ^ 2).sum = 0 := by
      apply List.sum_eq_zero
      intro x hx
      obtain ⟨v, hv, rfl⟩ := List.mem_map.1 hx
      rw [h v hv, h0]
      simp
    rw [h1, zero_div, Real.sqrt_zero]

theorem importance_same {scoring : String} {s v : ℝ} (h : mdaImportance scoring s s = some v) : v = 0 := by
  unfold mdaImportance fdiv at h
  split_ifs at h <;> simp_all

theorem importance_none {scoring : String} (hsc : scoring = "neg_log_loss" ∨ scoring = "accuracy") {s : ℝ}
    (h : mdaImportance scoring s s = none) : s = perfect scoring := by
  unfold mdaImportance fdiv at h
  rcases hsc with rfl | rfl
  · rw [if_pos rfl] at h
    split_ifs at h with h1
    simpa [perfect] using h1
  · rw [if_neg (by decide)] at h
    split_ifs at h with h1
    simp only [perfect]
    rw [if_neg (by decide)]
    linarith

theorem noImportance_of_same {K : Type} [Field K] [LinearOrder K] [FloorRing K] (lib : Lib C (List ℝ) L P)
    (clf : C) (nCols : ℕ) (shuffle : ℕ → ℕ → List ℝ → List ℝ) (X : List (List ℝ)) (y : List L) (w : List ℝ)
    (cv : ℤ) (pct : K) (events : SplitArg) (scoring : String) (j : ℕ) (hj : j < nCols)
    (hsame : ∀ fold clf Xtr ytr wtr m, lib.fit clf Xtr ytr wtr = .ok m → ∀ (is : List ℕ) Xte,
      is.mapM (pyGet X) = .ok Xte → ∀ yte wte,
        scoreOf lib scoring m (permuteColumn (shuffle fold j) Xte j) yte wte = scoreOf lib scoring m Xte yte wte)
    (table : List (Option ℝ × Option ℝ)) (avg : Option ℝ)
    (h : mda lib clf nCols shuffle X y w cv pct events scoring = .ok (table, avg)) :
    ∃ entry, table[j]? = some entry ∧ NoImportance scoring avg entry := by
  unfold mda at h
  split_ifs at h with hs
  have hsc : scoring = "neg_log_loss" ∨ scoring = "accuracy" := by
    by_contra hn
    rw [not_or] at hn
    exact hs hn
  simp only [py_bind_eq_ok, py_pure, Except.ok.injEq, Prod.mk.injEq] at h
  obtain ⟨splits, h1, rows, h2, rfl, rfl⟩ := h
  have hr := mdaLoop_same lib scoring nCols shuffle X y w j hj hsame splits 0 clf rows h2
  have hz : ∀ x ∈ rows.filterMap (fun r => mdaImportance scoring r.1 (r.2.getD j 0)), x = 0 := by
    intro x hx
    obtain ⟨r, hm, he⟩ := List.mem_filterMap.1 hx
    rw [hr r hm] at he
    exact importance_same he
  refine ⟨_, by rw [List.getElem?_map, List.getElem?_range hj]; rfl, ?_, ?_⟩
  · dsimp only
    rw [mean_zeros hz]
    split_ifs with h0
    · refine .inr ⟨rfl, ?_⟩
      have hall : ∀ r ∈ rows, r.1 = perfect scoring := by
        intro r hm
        have := (List.filterMap_eq_nil_iff.1 h0) r hm
        rw [hr r hm] at this
        exact importance_none hsc this
      have hrep : rows.map Prod.fst = List.replicate rows.length (perfect scoring) :=
        List.eq_replicate_iff.2 ⟨by simp, fun b hb => by
          obtain ⟨r, hm, rfl⟩ := List.mem_map.1 hb
          exact hall r hm⟩
      unfold npMean
      split_ifs with h3
      · exact .inl rfl
      · right
        have hl : rows.length ≠ 0 := by
          intro h4
          rw [List.length_eq_zero_iff] at h4
          exact h3 (by rw [h4]; rfl)
        have hl' : (rows.length : ℝ) ≠ 0 := by exact_mod_cast hl
        rw [hrep, List.sum_replicate, List.length_replicate, nsmul_eq_mul, mul_div_cancel_left₀ _ hl']
    · exact .inl rfl
  · dsimp only
    rcases std_zeros hz with h0 | h0 <;> rw [h0] <;> simp

/-- C252. A feature that the fitted models do not look at has no importance, however it is shuffled. -/
theorem C252_ignored {K : Type} [Field K] [LinearOrder K] [FloorRing K] (lib : Lib C (List ℝ) L P)
    (clf : C) (nCols : ℕ) (shuffle : ℕ → ℕ → List ℝ → List ℝ) (hsh : ∀ f k l, (shuffle f k l).Perm l)
    (X : List (List ℝ)) (y : List L) (w : List ℝ) (cv : ℤ) (pct : K) (events : SplitArg) (scoring : String)
    (j : ℕ) (hj : j < nCols) (hig : Ignores lib j) (table : List (Option ℝ × Option ℝ)) (avg : Option ℝ)
    (h : mda lib clf nCols shuffle X y w cv pct events scoring = .ok (table, avg)) :
    ∃ entry, table[j]? = some entry ∧ NoImportance scoring avg entry :=
  noImportance_of_same lib clf nCols shuffle X y w cv pct events scoring j hj
    (fun fold clf _ _ _ m hm _ Xte _ yte wte => scoreOf_congr lib scoring m
      (hig clf _ _ _ m hm _ _ (permuteColumn_sameOff (shuffle fold j) (hsh fold j) Xte j)) yte wte) table avg h

/-- C252. A feature with one value in all rows has no importance, whatever the model. -/
theorem C252_constant {K : Type} [Field K] [LinearOrder K] [FloorRing K] (lib : Lib C (List ℝ) L P)
    (clf : C) (nCols : ℕ) (shuffle : ℕ → ℕ → List ℝ → List ℝ) (hsh : ∀ f k l, (shuffle f k l).Perm l)
    (X : List (List ℝ)) (y : List L) (w : List ℝ) (cv : ℤ) (pct : K) (events : SplitArg) (scoring : String)
    (j : ℕ) (hj : j < nCols) (c : ℝ) (hc : ∀ r ∈ X, r.getD j 0 = c) (table : List (Option ℝ × Option ℝ))
    (avg : Option ℝ) (h : mda lib clf nCols shuffle X y w cv pct events scoring = .ok (table, avg)) :
    ∃ entry, table[j]? = some entry ∧ NoImportance scoring avg entry :=
  noImportance_of_same lib clf nCols shuffle X y w cv pct events scoring j hj
    (fun fold _ _ _ _ _ _ _ Xte hX yte wte => by
      rw [permuteColumn_const (shuffle fold j) (hsh fold j) Xte j c]
      intro r hr
      rw [mapM_eq_ok_iff] at hX
      obtain ⟨n, hn, rfl⟩ := List.mem_iff_getElem.1 hr
      have h3 := List.forall₂_iff_get.1 hX
      have := h3.2 n (h3.1 ▸ hn) hn
      rw [pyGet_eq_ok_iff] at this
      exact hc _ (List.mem_of_getElem? this)) table avg h

/-- An estimator that looks only at the lengths of the rows. -/
noncomputable def rowLengths : Lib ℕ (List ℝ) ℕ ℕ where
  fit := fun _ _ _ _ => .ok 0
  proba := fun _ X => .ok X.length
  predict := fun _ X => .ok (X.map fun r => r.length)
  classes := fun _ => .ok []
  logLoss := fun _ _ _ _ => .ok 1
  accuracy := fun _ _ _ => .ok (1 / 2)

example : Ignores rowLengths 1 := by
  intro clf X y w m _ A B h
  refine ⟨by simp only [rowLengths, h.length_eq], ?_⟩
  simp only [rowLengths, Except.ok.injEq]
  induction h with
  | nil => rfl
  | cons h _ ih => rw [List.map_cons, List.map_cons, h.1, ih]

/-- The calls succeed. -/
example : ∃ table avg, mda (K := ℚ) rowLengths 0 2 (fun _ _ => List.reverse) [[1, 5], [2, 5]] [1, 1] [1, 1] 2 0
    (.series true [(0, some 0), (1, some 1)]) "accuracy" = .ok (table, avg) ∧
    ∃ entry, table[1]? = some entry ∧ NoImportance "accuracy" avg entry := by
  have hsp : kfoldSplit 2 (0 : ℚ) (.series true [(0, some 0), (1, some 1)]) =
      .ok [([], [0]), ([0], [1])] := by decide +kernel
  obtain ⟨t, a, h⟩ : ∃ table avg, mda (K := ℚ) rowLengths 0 2 (fun _ _ => List.reverse) [[1, 5], [2, 5]] [1, 1]
      [1, 1] 2 0 (.series true [(0, some 0), (1, some 1)]) "accuracy" = .ok (table, avg) := by
    unfold mda
    rw [if_neg (by decide), hsp, py_bind_ok]
    simp [mdaLoop, mdaOne, scoreOf, rowLengths, pyGet, List.mapM_cons, List.mapM_nil, List.range_succ]
  exact ⟨t, a, h, C252_constant rowLengths 0 2 _ (fun _ _ l => List.reverse_perm l) _ _ _ _ _ _ _ 1 (by norm_num)
    5 (by simp) t a h⟩

end FinML.CV
