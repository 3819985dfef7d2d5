import Verif.CV.MdaFloatModel
import Verif.CV.ScoreProps
import Verif.CV.TotalProps

/-!
# C297: mean decrease accuracy with infinities and NaN
-/

namespace FinML.CV

variable {C L P : Type}

/-! ## Lemmas -/

theorem importanceF_eq (scoring : String) (score perm : ℝ) :
    mdaImportanceF scoring score perm = FinML.Flt.div (.fin (score - perm)) (.fin (perfect scoring - perm)) := by
  unfold mdaImportanceF perfect
  by_cases h : scoring = "neg_log_loss"
  · rw [if_pos h, if_pos h, zero_sub, neg_add_eq_sub]
  · rw [if_neg h, if_neg h, neg_add_eq_sub]

theorem importanceF_fin (scoring : String) (score perm : ℝ) (h : perm ≠ perfect scoring) :
    mdaImportanceF scoring score perm = .fin ((score - perm) / (perfect scoring - perm)) := by
  rw [importanceF_eq]
  exact if_neg (sub_ne_zero.2 (Ne.symm h))

theorem importanceF_nan (scoring : String) (score perm : ℝ) (h : perm = perfect scoring) (hs : score = perfect scoring) :
    mdaImportanceF scoring score perm = .nan := by
  rw [importanceF_eq, h, hs, sub_self]
  simp [FinML.Flt.div, FinML.Flt.infOf]

theorem importanceF_neg (scoring : String) (score perm : ℝ) (h : perm = perfect scoring) (hs : score < perfect scoring) :
    mdaImportanceF scoring score perm = .negInf := by
  rw [importanceF_eq, h, sub_self]
  have h1 : ¬ 0 < score - perfect scoring := by linarith
  have h2 : score - perfect scoring < 0 := by linarith
  simp [FinML.Flt.div, FinML.Flt.infOf, h1, h2]

theorem foldl_fin (l : List ℝ) (a : ℝ) :
    (l.map fun x => (FinML.Flt.fin x)).foldl FinML.Flt.add (.fin a) = .fin (a + l.sum) := by
  induction l generalizing a with
  | nil => simp
  | cons x xs ih =>
    rw [List.map_cons, List.foldl_cons, List.sum_cons, ← add_assoc]
    exact ih (a + x)

theorem foldl_negInf (l : List (FinML.Flt ℝ)) (h : ∀ x ∈ l, x = .negInf ∨ ∃ r, x = .fin r) :
    l.foldl FinML.Flt.add .negInf = .negInf := by
  induction l with
  | nil => rfl
  | cons x xs ih =>
    rw [List.foldl_cons]
    have : FinML.Flt.add .negInf x = (.negInf : FinML.Flt ℝ) := by
      rcases h x (by simp) with rfl | ⟨r, rfl⟩ <;> rfl
    rw [this]
    exact ih fun y hy => h y (by simp [hy])

theorem sum_negInf (l : List (FinML.Flt ℝ)) (h : ∀ x ∈ l, x = .negInf ∨ ∃ r, x = .fin r) (hm : .negInf ∈ l) (a : ℝ) :
    l.foldl FinML.Flt.add (.fin a) = .negInf := by
  induction l generalizing a with
  | nil => cases hm
  | cons x xs ih =>
    rw [List.foldl_cons]
    rcases h x (by simp) with rfl | ⟨r, rfl⟩
    · exact foldl_negInf xs fun y hy => h y (by simp [hy])
    · rcases List.mem_cons.1 hm with h' | h'
      · cases h'
      · exact ih (fun y hy => h y (by simp [hy])) h' (a + r)

theorem foldl_nan (l : List (FinML.Flt ℝ)) : l.foldl FinML.Flt.add .nan = .nan := by
  induction l with
  | nil => rfl
  | cons x xs ih => rw [List.foldl_cons]; cases x <;> exact ih

theorem add_nan (a : FinML.Flt ℝ) : FinML.Flt.add a .nan = .nan := by cases a <;> rfl

theorem sum_nan (l : List (FinML.Flt ℝ)) (hm : .nan ∈ l) (a : FinML.Flt ℝ) : l.foldl FinML.Flt.add a = .nan := by
  induction l generalizing a with
  | nil => cases hm
  | cons x xs ih =>
    rw [List.foldl_cons]
    rcases List.mem_cons.1 hm with rfl | h'
    · rw [add_nan]; exact foldl_nan xs
    · exact ih h' _

theorem meanF_negInf (l : List (FinML.Flt ℝ)) (h : ∀ x ∈ l, x = .nan ∨ x = .negInf ∨ ∃ r, x = .fin r) (hm : .negInf ∈ l) :
    meanF l = .negInf ∧ stdF l = .nan := by
  have hv : .negInf ∈ validF l := List.mem_filter.2 ⟨hm, rfl⟩
  have hne : validF l ≠ [] := List.ne_nil_of_mem hv
  have hall : ∀ x ∈ validF l, x = .negInf ∨ ∃ r, x = .fin r := by
    intro x hx
    have h1 := List.mem_filter.1 hx
    rcases h x h1.1 with rfl | h2
    · simp [FinML.Flt.isNan] at h1
    · exact h2
  have hmean : meanF l = .negInf := by
    unfold meanF sumF
    rw [if_neg hne, sum_negInf _ hall hv]
    have : ¬ ((validF l).length : ℝ) < 0 := not_lt.2 (Nat.cast_nonneg _)
    exact if_neg this
  refine ⟨hmean, ?_⟩
  unfold stdF
  by_cases hc : (validF l).length < 2
  · rw [if_pos hc]
  · rw [if_neg hc, hmean]
    unfold sumF
    rw [sum_nan]
    · rfl
    · exact List.mem_map.2 ⟨.negInf, hv, rfl⟩

theorem validF_eq (scoring : String) (rows : List (ℝ × ℝ))
    (h : ∀ r ∈ rows, r.2 = perfect scoring → r.1 = perfect scoring) :
    validF (rows.map fun r => mdaImportanceF scoring r.1 r.2) =
      ((rows.filter fun r => r.2 ≠ perfect scoring).map fun r =>
        (r.1 - r.2) / (perfect scoring - r.2)).map fun x => .fin x := by
  induction rows with
  | nil => rfl
  | cons r rs ih =>
    have ih := ih fun q hq => h q (by simp [hq])
    unfold validF at ih ⊢
    rw [List.map_cons, List.filter_cons, List.filter_cons, ih]
    by_cases hc : r.2 = perfect scoring
    · rw [importanceF_nan _ _ _ hc (h r (by simp) hc)]
      simp [FinML.Flt.isNan, hc]
    · rw [importanceF_fin _ _ _ hc]
      simp [FinML.Flt.isNan, hc]

theorem meanF_fin (l : List (FinML.Flt ℝ)) (v : List ℝ) (h : validF l = v.map fun x => .fin x) :
    meanF l = (if v = [] then .nan else .fin (v.sum / (v.length : ℝ))) ∧
    stdF l = (match stdSample v with | none => .nan | some s => .fin s) := by
  have hmean : meanF l = (if v = [] then .nan else .fin (v.sum / (v.length : ℝ))) := by
    unfold meanF sumF
    rw [h]
    by_cases hv : v = []
    · subst hv; rfl
    · rw [if_neg (by simpa using hv), if_neg hv, foldl_fin, List.length_map, zero_add]
      have : (v.length : ℝ) ≠ 0 := by
        rw [Nat.cast_ne_zero]; exact fun e => hv (List.length_eq_zero_iff.1 e)
      exact if_neg this
  refine ⟨hmean, ?_⟩
  unfold stdF stdSample
  rw [h, List.length_map]
  by_cases hc : v.length < 2
  · rw [if_pos hc, if_pos hc]
  · rw [if_neg hc, if_neg hc, hmean, if_neg (by rintro rfl; simp at hc)]
    have e : (List.map (fun x => FinML.Flt.mul (FinML.Flt.sub (FinML.Flt.fin (v.sum / (v.length : ℝ))) x)
        (FinML.Flt.sub (FinML.Flt.fin (v.sum / (v.length : ℝ))) x)) (List.map (fun x => FinML.Flt.fin x) v)) =
        (v.map fun x => (x - v.sum / (v.length : ℝ)) ^ 2).map fun x => .fin x := by
      rw [List.map_map, List.map_map]
      apply List.map_congr_left
      intro x _
      simp only [Function.comp_def, FinML.Flt.sub, FinML.Flt.neg, FinML.Flt.add, FinML.Flt.mul]
      congr 1
      ring
    unfold sumF
    rw [e, foldl_fin, zero_add]
    have h2 : ((v.length : ℝ) - 1) ≠ 0 := by
      have : (2 : ℝ) ≤ (v.length : ℝ) := by exact_mod_cast not_lt.1 hc
      intro h; linarith
    simp only [FinML.Flt.div, if_neg h2, sqrtF]

/-! ## Statements -/

/-- One fold of the procedure: a model fitted on the train rows, its score on the test rows, and its scores on the test rows
with one column shuffled. -/
def FoldOf (lib : Lib C (List ℝ) L P) (clf : C) (nCols : ℕ) (shuffle : ℕ → ℕ → List ℝ → List ℝ) (X : List (List ℝ))
    (y : List L) (w : List ℝ) (scoring : String) (sp : (List ℕ × List ℕ) × ℕ) (row : ℝ × List ℝ) : Prop :=
  ∃ (Xtr Xte : List (List ℝ)) (ytr yte : List L) (wtr wte : List ℝ) (m : C),
    Rows X sp.1.1 Xtr ∧ Rows y sp.1.1 ytr ∧ Rows w sp.1.1 wtr ∧
    Rows X sp.1.2 Xte ∧ Rows y sp.1.2 yte ∧ Rows w sp.1.2 wte ∧
    lib.fit clf Xtr ytr wtr = .ok m ∧ IsScore lib scoring m Xte yte wte row.1 ∧
    row.2.length = nCols ∧
    ∀ j < nCols, IsScore lib scoring m (permuteColumn (shuffle sp.2 j) Xte j) yte wte (row.2.getD j 0)

/-- The importance of a feature with the given pairs (score, score after shuffling): minus infinity, with no error, if
shuffling ever made an imperfect score perfect; otherwise the average over the folds that are not perfect after shuffling,
at most 1, and NaN if there are none. -/
def Importance (scoring : String) (folds : ℕ) (pairs : List (ℝ × ℝ)) (entry : FinML.Flt ℝ × FinML.Flt ℝ) : Prop :=
  ((∃ r ∈ pairs, r.2 = perfect scoring ∧ r.1 < perfect scoring) → entry = (.negInf, .nan)) ∧
  ((∀ r ∈ pairs, r.2 = perfect scoring → r.1 = perfect scoring) →
    ((∀ r ∈ pairs, r.2 = perfect scoring) → entry = (.nan, .nan)) ∧
    ((∃ r ∈ pairs, r.2 ≠ perfect scoring) → ∃ m : ℝ, entry.1 = .fin m ∧ m ≤ 1 ∧
      ∃ used : List ℝ, used = (pairs.filter fun r => r.2 ≠ perfect scoring).map
          (fun r => (r.1 - r.2) / (perfect scoring - r.2)) ∧
        m * (used.length : ℝ) = used.sum ∧
        (used.length = 1 → entry.2 = .nan) ∧
        (2 ≤ used.length → ∃ se : ℝ, entry.2 = .fin se ∧ 0 ≤ se ∧
          se ^ 2 * ((folds : ℝ) * ((used.length : ℝ) - 1)) = (used.map fun x => (x - m) ^ 2).sum)))

/-- C297. With scores bounded by the perfect one, the row of each feature is as `Importance` says.  Missing from the claim: a
finite mean when shuffling makes an imperfect score perfect, which fails by `C297_finite_counterexample`. -/
theorem C297_importance_partial {K : Type} [Field K] [LinearOrder K] [FloorRing K] (lib : Lib C (List ℝ) L P)
    (hrefit : Refits lib) (clf : C) (nCols : ℕ) (shuffle : ℕ → ℕ → List ℝ → List ℝ)
    (X : List (List ℝ)) (y : List L) (w : List ℝ) (cv : ℤ) (pct : K) (events : SplitArg)
    (scoring : String) (hsc : scoring = "neg_log_loss" ∨ scoring = "accuracy")
    (hle : ∀ m Xte yte wte s, IsScore lib scoring m Xte yte wte s → s ≤ perfect scoring)
    (table : List (FinML.Flt ℝ × FinML.Flt ℝ)) (avg : Option ℝ)
    (h : mdaF lib clf nCols shuffle X y w cv pct events scoring = .ok (table, avg)) :
    ∃ splits rows, kfoldSplit cv pct events = .ok splits ∧
      List.Forall₂ (FoldOf lib clf nCols shuffle X y w scoring) splits.zipIdx rows ∧
      table.length = nCols ∧
      (∀ j < nCols, ∃ entry, table[j]? = some entry ∧
        Importance scoring rows.length (rows.map fun r => (r.1, r.2.getD j 0)) entry) ∧
      (rows ≠ [] → ∃ a, avg = some a ∧ a * (rows.length : ℝ) = (rows.map Prod.fst).sum) := by
  unfold mdaF at h
  rw [if_neg (by rcases hsc with rfl | rfl <;> simp), py_bind_eq_ok] at h
  obtain ⟨splits, h1, h⟩ := h
  rw [py_bind_eq_ok] at h
  obtain ⟨rows, h2, h⟩ := h
  cases h
  have hspec := mdaLoop_spec lib hrefit clf nCols shuffle X y w scoring hsc splits 0 clf rows h2
  refine ⟨splits, rows, h1, hspec, by simp, ?_, ?_⟩
  swap
  · intro hne
    have hn : (rows.length : ℝ) ≠ 0 := by
      rw [Nat.cast_ne_zero]
      exact fun h => hne (List.length_eq_zero_iff.1 h)
    refine ⟨(rows.map Prod.fst).sum / (rows.length : ℝ), ?_, by field_simp⟩
    unfold npMean
    rw [if_neg (by simpa using hne), List.length_map]
  intro j hj
  have hb : ∀ r ∈ rows, r.1 ≤ perfect scoring ∧ r.2.getD j 0 ≤ perfect scoring := by
    intro r hr
    obtain ⟨n, hn, rfl⟩ := List.mem_iff_getElem.1 hr
    have h3 := List.forall₂_iff_get.1 hspec
    obtain ⟨_, Xte, _, yte, _, wte, m, _, _, _, _, _, _, _, a, _, b⟩ := h3.2 n (h3.1 ▸ hn) hn
    exact ⟨hle _ _ _ _ _ a, hle _ _ _ _ _ (b j hj)⟩
  refine ⟨_, by rw [List.getElem?_map, List.getElem?_range hj]; rfl, ?_⟩
  have hcol : (rows.map fun r => mdaImportanceF scoring r.1 (r.2.getD j 0)) =
      (rows.map fun r => (r.1, r.2.getD j 0)).map fun r => mdaImportanceF scoring r.1 r.2 := by
    rw [List.map_map]; rfl
  simp only [hcol]
  have hb' : ∀ r ∈ rows.map (fun r => (r.1, r.2.getD j 0)), r.1 ≤ perfect scoring ∧ r.2 ≤ perfect scoring := by
    intro r hr
    obtain ⟨q, hq, rfl⟩ := List.mem_map.1 hr
    exact hb q hq
  have hlen : (rows.map fun r => (r.1, r.2.getD j 0)).length = rows.length := List.length_map _
  generalize hN : rows.length = N at hlen ⊢
  generalize (rows.map fun r => (r.1, r.2.getD j 0)) = pairs at hb' hlen ⊢
  constructor
  · rintro ⟨r, hr, e1, e2⟩
    obtain ⟨a, b⟩ := meanF_negInf (pairs.map fun r => mdaImportanceF scoring r.1 r.2) (by
      intro x hx
      obtain ⟨q, hq, rfl⟩ := List.mem_map.1 hx
      by_cases hc : q.2 = perfect scoring
      · rcases (hb' q hq).1.lt_or_eq with hl | hl
        · exact .inr (.inl (importanceF_neg _ _ _ hc hl))
        · exact .inl (importanceF_nan _ _ _ hc hl)
      · exact .inr (.inr ⟨_, importanceF_fin _ _ _ hc⟩))
      (List.mem_map.2 ⟨r, hr, importanceF_neg _ _ _ e1 e2⟩)
    rw [a, b]
    rfl
  · intro hno
    obtain ⟨a, b⟩ := meanF_fin _ _ (validF_eq scoring pairs hno)
    rw [a, b]
    constructor
    · intro hall
      have : (pairs.filter fun r => r.2 ≠ perfect scoring) = [] := by
        rw [List.filter_eq_nil_iff]
        intro r hr
        simpa using hall r hr
      rw [this]
      rfl
    · rintro ⟨r, hr, hne⟩
      have hrm : r ∈ pairs.filter fun r => r.2 ≠ perfect scoring := List.mem_filter.2 ⟨hr, by simpa using hne⟩
      have hone : ∀ x ∈ (pairs.filter fun r => r.2 ≠ perfect scoring).map
          (fun r => (r.1 - r.2) / (perfect scoring - r.2)), x ≤ 1 := by
        intro x hx
        obtain ⟨q, hq, rfl⟩ := List.mem_map.1 hx
        obtain ⟨hq1, hq2⟩ := List.mem_filter.1 hq
        have h3 := hb' q hq1
        have h4 : q.2 < perfect scoring := lt_of_le_of_ne h3.2 (by simpa using hq2)
        rw [div_le_one (by linarith)]
        linarith [h3.1]
      have hne' : (pairs.filter fun r => r.2 ≠ perfect scoring).map
          (fun r => (r.1 - r.2) / (perfect scoring - r.2)) ≠ [] := by
        simpa using List.ne_nil_of_mem hrm
      generalize hu : (pairs.filter fun r => r.2 ≠ perfect scoring).map
          (fun r => (r.1 - r.2) / (perfect scoring - r.2)) = used at hone hne' ⊢
      have hpos : 0 < (used.length : ℝ) := by
        rw [Nat.cast_pos]; exact List.length_pos_iff.2 hne'
      have hul : used.length ≤ N := by
        rw [← hu, List.length_map, ← hlen]; exact List.length_filter_le _ _
      refine ⟨used.sum / (used.length : ℝ), by simp only [if_neg hne'], ?_, used, rfl, by field_simp, ?_, ?_⟩
      · rw [div_le_one hpos]
        have := List.sum_le_card_nsmul used 1 hone
        simpa using this
      · intro h1
        unfold stdSample
        rw [if_pos (show used.length < 2 by omega)]
        rfl
      · intro h2'
        have h2r : (2 : ℝ) ≤ (used.length : ℝ) := by exact_mod_cast h2'
        have hNr : (2 : ℝ) ≤ (N : ℝ) := by exact_mod_cast h2'.trans hul
        unfold stdSample
        rw [if_neg (show ¬ used.length < 2 by omega)]
        refine ⟨_, rfl, by positivity, ?_⟩
        generalize hS : (used.map fun x => (x - used.sum / (used.length : ℝ)) ^ 2).sum = S
        have hS0 : 0 ≤ S := by
          rw [← hS]
          apply List.sum_nonneg
          intro x hx
          obtain ⟨v, _, rfl⟩ := List.mem_map.1 hx
          positivity
        rw [mul_pow, Real.sq_sqrt (div_nonneg hS0 (by linarith)), ← Real.rpow_natCast (_ ^ _), ← Real.rpow_mul (by linarith)]
        norm_num
        rw [Real.rpow_neg_one]
        have : (used.length : ℝ) - 1 ≠ 0 := by intro h; linarith
        field_simp

theorem add_fin {a b : FinML.Flt ℝ} {v : ℝ} (h : FinML.Flt.add a b = .fin v) : (∃ x, a = .fin x) ∧ ∃ y, b = .fin y := by
  cases a <;> cases b <;> simp [FinML.Flt.add] at h
  exact ⟨⟨_, rfl⟩, ⟨_, rfl⟩⟩

theorem foldl_add_fin (l : List (FinML.Flt ℝ)) (a : FinML.Flt ℝ) (v : ℝ) (h : l.foldl FinML.Flt.add a = .fin v) :
    (∃ x, a = .fin x) ∧ ∀ b ∈ l, ∃ x, b = .fin x := by
  induction l generalizing a with
  | nil => exact ⟨⟨v, h⟩, by simp⟩
  | cons b bs ih =>
    obtain ⟨⟨x, hx⟩, h2⟩ := ih _ h
    obtain ⟨h3, h4⟩ := add_fin hx
    refine ⟨h3, ?_⟩
    intro c hc
    rcases List.mem_cons.1 hc with rfl | hc
    · exact h4
    · exact h2 c hc

/-- C297. The exact model of `Verif/CV/ScoreModel.lean` returns with the same average score, and wherever the mean
importance is a finite number it has that number. -/
theorem C297_agree {K : Type} [Field K] [LinearOrder K] [FloorRing K] (lib : Lib C (List ℝ) L P) (clf : C) (nCols : ℕ)
    (shuffle : ℕ → ℕ → List ℝ → List ℝ) (X : List (List ℝ)) (y : List L) (w : List ℝ) (cv : ℤ) (pct : K)
    (events : SplitArg) (scoring : String) (table : List (FinML.Flt ℝ × FinML.Flt ℝ)) (avg : Option ℝ)
    (h : mdaF lib clf nCols shuffle X y w cv pct events scoring = .ok (table, avg)) :
    ∃ exact, mda lib clf nCols shuffle X y w cv pct events scoring = .ok (exact, avg) ∧
      ∀ (j : ℕ) (m : ℝ) (e : FinML.Flt ℝ), table[j]? = some (.fin m, e) →
        ∃ e', exact[j]? = some (some m, e') ∧ (∀ se, e = .fin se ↔ e' = some se) := by
  unfold mdaF at h
  unfold mda
  by_cases hsc : scoring ≠ "neg_log_loss" ∧ scoring ≠ "accuracy"
  · rw [if_pos hsc] at h; cases h
  rw [if_neg hsc, py_bind_eq_ok] at h
  obtain ⟨splits, h1, h⟩ := h
  rw [py_bind_eq_ok] at h
  obtain ⟨rows, h2, h⟩ := h
  cases h
  rw [if_neg hsc, h1, py_bind_ok, h2, py_bind_ok]
  refine ⟨_, rfl, ?_⟩
  intro j m e hj
  rw [List.getElem?_map] at hj ⊢
  obtain ⟨i, hi, he⟩ := Option.map_eq_some_iff.1 hj
  rw [hi]
  obtain ⟨he1, he2⟩ := Prod.mk.inj he
  have hfin : ∀ r ∈ rows, r.2.getD i 0 = perfect scoring → r.1 = perfect scoring := by
    intro r hr hp
    by_contra hne
    have hinf : ∀ x, mdaImportanceF scoring r.1 (r.2.getD i 0) ≠ .fin x := by
      intro x
      rw [importanceF_eq, hp, sub_self]
      simp only [FinML.Flt.div, FinML.Flt.infOf, if_true]
      split_ifs <;> simp
    have hnn : (mdaImportanceF scoring r.1 (r.2.getD i 0)).isNan = false := by
      rw [importanceF_eq, hp, sub_self]
      have h0 : r.1 - perfect scoring ≠ 0 := sub_ne_zero.2 hne
      simp only [FinML.Flt.div, FinML.Flt.infOf, if_true]
      rcases lt_or_gt_of_ne h0 with h3 | h3
      · rw [if_neg (not_lt.2 h3.le), if_pos h3]; rfl
      · rw [if_pos h3]; rfl
    have hmem : mdaImportanceF scoring r.1 (r.2.getD i 0) ∈
        validF (rows.map fun r => mdaImportanceF scoring r.1 (r.2.getD i 0)) :=
      List.mem_filter.2 ⟨List.mem_map.2 ⟨r, hr, rfl⟩, by rw [hnn]; rfl⟩
    unfold meanF at he1
    rw [if_neg (List.ne_nil_of_mem hmem)] at he1
    have hs : ∃ v, sumF (validF (rows.map fun r => mdaImportanceF scoring r.1 (r.2.getD i 0))) = .fin v := by
      generalize sumF (validF (rows.map fun r => mdaImportanceF scoring r.1 (r.2.getD i 0))) = s at he1
      cases s <;> simp only [FinML.Flt.div] at he1
      · exact ⟨_, rfl⟩
      · split_ifs at he1
      · split_ifs at he1
      · cases he1
    obtain ⟨v, hv⟩ := hs
    obtain ⟨x, hx⟩ := (foldl_add_fin _ _ _ hv).2 _ hmem
    exact hinf x hx
  have hcol : (rows.map fun r => mdaImportanceF scoring r.1 (r.2.getD i 0)) =
      (rows.map fun r => (r.1, r.2.getD i 0)).map fun r => mdaImportanceF scoring r.1 r.2 := by
    rw [List.map_map]; rfl
  have hval := validF_eq scoring (rows.map fun r => (r.1, r.2.getD i 0)) (by
    intro r hr
    obtain ⟨q, hq, rfl⟩ := List.mem_map.1 hr
    exact hfin q hq)
  rw [← hcol] at hval
  obtain ⟨a, b⟩ := meanF_fin _ _ hval
  have hexact : (rows.filterMap fun r => mdaImportance scoring r.1 (r.2.getD i 0)) =
      ((rows.map fun r => (r.1, r.2.getD i 0)).filter fun r => r.2 ≠ perfect scoring).map fun r =>
        (r.1 - r.2) / (perfect scoring - r.2) := by
    clear h2 hj he he1 he2 hfin hcol hval a b
    have hk : ∀ s p : ℝ, mdaImportance scoring s p =
        if p = perfect scoring then none else some ((s - p) / (perfect scoring - p)) := by
      intro s p
      unfold mdaImportance fdiv perfect
      by_cases hs : scoring = "neg_log_loss"
      · simp only [if_pos hs, neg_eq_zero, zero_sub, neg_add_eq_sub]
      · simp only [if_neg hs, neg_add_eq_sub]
        by_cases hp : p = 1
        · rw [if_pos (by linarith), if_pos hp]
        · rw [if_neg (fun h => hp (by linarith)), if_neg hp]
    induction rows with
    | nil => rfl
    | cons r rs ih =>
      rw [List.filterMap_cons, hk, ih, List.map_cons, List.filter_cons]
      by_cases hc : r.2.getD i 0 = perfect scoring
      · rw [if_pos hc, if_neg (by simpa using hc)]
      · rw [if_neg hc, if_pos (by simpa using hc), List.map_cons]
  simp only [Option.map_some, hexact]
  rw [a] at he1
  rw [b] at he2
  generalize ((rows.map fun r => (r.1, r.2.getD i 0)).filter fun r => r.2 ≠ perfect scoring).map (fun r =>
        (r.1 - r.2) / (perfect scoring - r.2)) = used at he1 he2 ⊢
  refine ⟨_, congrArg some (Prod.ext ?_ rfl), ?_⟩
  · unfold npMean
    by_cases hu : used = []
    · rw [if_pos hu] at he1; cases he1
    · rw [if_neg hu] at he1 ⊢
      injection he1 with he1
      rw [he1]
  · intro se
    rw [← he2]
    cases hs : stdSample used with
    | none => simp [FinML.Flt.mul]
    | some s => simp [FinML.Flt.mul]

/-- The claim: with at least one fold and bounded scores, a model that is not perfect on average gives each feature a
finite importance. -/
def FiniteImportances : Prop :=
  ∀ (lib : Lib ℕ (List ℝ) ℕ ℕ) (nCols : ℕ) (shuffle : ℕ → ℕ → List ℝ → List ℝ) (X : List (List ℝ)) (y : List ℕ)
    (w : List ℝ) (cv : ℤ) (events : SplitArg) (table : List (FinML.Flt ℝ × FinML.Flt ℝ)) (a : ℝ),
    Refits lib → (∀ f k l, (shuffle f k l).Perm l) →
    (∀ m Xte yte wte s, IsScore lib "accuracy" m Xte yte wte s → 0 ≤ s ∧ s ≤ 1) →
    mdaF lib 0 nCols shuffle X y w cv (0 : ℚ) events "accuracy" = .ok (table, some a) → a < 1 →
    ∀ entry ∈ table, ∃ m, entry.1 = .fin m

/-- A model that predicts class 1 for rows with a positive first feature, scored by the share of right predictions. -/
noncomputable def signModel : Lib ℕ (List ℝ) ℕ ℕ where
  fit := fun _ _ _ _ => .ok 0
  proba := fun _ X => .ok X.length
  predict := fun _ X => .ok (X.map fun r => open Classical in if 0 < r.getD 0 0 then 1 else 0)
  classes := fun _ => .ok [0, 1]
  logLoss := fun _ _ _ _ => .ok 1
  accuracy := fun y p _ => .ok (((y.zip p).countP fun q => q.1 = q.2 : ℕ) / ((y.zip p).length : ℝ))

theorem signModel_rows : mdaF signModel 0 1 (fun _ _ => List.reverse) [[1], [-1], [1], [-1]] [0, 1, 1, 0] [1, 1, 1, 1] 2
    (0 : ℚ) (.series true [(0, some 0), (1, some 1), (2, some 2), (3, some 3)]) "accuracy" =
    .ok ([(.negInf, .nan)], some (1 / 2)) := by
  have hsp : kfoldSplit 2 (0 : ℚ) (.series true [(0, some 0), (1, some 1), (2, some 2), (3, some 3)]) =
      .ok [([3], [0, 1]), ([0, 1], [2, 3])] := by decide +kernel
  have hr : mdaLoop signModel "accuracy" 1 (fun _ _ => List.reverse) [[1], [-1], [1], [-1]] [0, 1, 1, 0] [1, 1, 1, 1]
      0 0 [([3], [0, 1]), ([0, 1], [2, 3])] = .ok [(0, [1]), (1, [0])] := by
    simp [mdaLoop, mdaOne, scoreOf, signModel, pyGet, permuteColumn, List.mapM_cons, List.mapM_nil, List.range_succ]
  unfold mdaF
  rw [if_neg (by decide), hsp, py_bind_ok, hr, py_bind_ok]
  have e0 : mdaImportanceF "accuracy" 0 1 = .negInf :=
    importanceF_neg _ _ _ (by simp [perfect]) (by simp [perfect])
  have e1 : mdaImportanceF "accuracy" 1 0 = .fin ((1 - 0) / (perfect "accuracy" - 0)) :=
    importanceF_fin _ _ _ (by simp [perfect])
  obtain ⟨a, b⟩ := meanF_negInf [.negInf, .fin ((1 - 0) / (perfect "accuracy" - 0))] (by simp) (by simp)
  have e2 : List.range 1 = [0] := rfl
  have e3 : npMean [0, 1] = some (1 / 2) := by
    unfold npMean
    rw [if_neg (List.cons_ne_nil _ _)]
    norm_num
  simp only [e2, List.map_cons, List.map_nil, List.getD_cons_zero, e0, e1, a, b, e3]
  rfl

theorem signModel_bounded : ∀ m Xte yte wte s, IsScore signModel "accuracy" m Xte yte wte s → 0 ≤ s ∧ s ≤ 1 := by
  rintro m Xte yte wte s (⟨h, -⟩ | ⟨-, p, -, hp⟩)
  · simp at h
  · simp only [signModel, Except.ok.injEq] at hp
    rw [← hp]
    refine ⟨by positivity, div_le_one_of_le₀ ?_ (by positivity)⟩
    exact_mod_cast List.countP_le_length

/-- C297. One fold in which shuffling makes the score perfect decides: here the score is 0 in one fold and 1 in the other,
shuffling exchanges them, and the importance is minus infinity. -/
theorem C297_finite_counterexample : ¬ FiniteImportances := by
  intro h
  obtain ⟨m, hm⟩ := h signModel 1 (fun _ _ => List.reverse) [[1], [-1], [1], [-1]] [0, 1, 1, 0] [1, 1, 1, 1] 2
    (.series true [(0, some 0), (1, some 1), (2, some 2), (3, some 3)]) [(.negInf, .nan)] (1 / 2)
    (fun _ _ => rfl) (fun _ _ l => List.reverse_perm l) signModel_bounded signModel_rows (by norm_num) _ (List.mem_singleton.2 rfl)
  cases hm

/-- The hypotheses of `C297_importance_partial` hold for this call. -/
example : ∃ splits rows, kfoldSplit 2 (0 : ℚ) (.series true [(0, some 0), (1, some 1), (2, some 2), (3, some 3)]) = .ok splits ∧
    List.Forall₂ (FoldOf signModel 0 1 (fun _ _ => List.reverse) [[1], [-1], [1], [-1]] [0, 1, 1, 0] [1, 1, 1, 1] "accuracy")
      splits.zipIdx rows ∧ Importance "accuracy" rows.length (rows.map fun r => (r.1, r.2.getD 0 0)) (.negInf, .nan) := by
  obtain ⟨splits, rows, h1, h2, -, h3, -⟩ := C297_importance_partial signModel (fun _ _ => rfl) 0 1 (fun _ _ => List.reverse)
    [[1], [-1], [1], [-1]] [0, 1, 1, 0] [1, 1, 1, 1] 2 (0 : ℚ) _ "accuracy" (.inr rfl)
    (fun m a b c s hs => by simpa [perfect] using (signModel_bounded m a b c s hs).2) _ _ signModel_rows
  obtain ⟨e, he, h4⟩ := h3 0 (by norm_num)
  cases he
  exact ⟨splits, rows, h1, h2, h4⟩

end FinML.CV
