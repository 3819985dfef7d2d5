import Verif.CV.SfiStateModel
import Verif.CV.ScoreProps

/-! # Property C314: estimators with a memory -/

namespace FinML.CV

set_option linter.unusedSectionVars false

variable {C ρ L P : Type} {K : Type} [Field K] [LinearOrder K] [FloorRing K]

theorem cvLoopS_scores (lib : Lib C ρ L P) (scoring : String) (X : List ρ) (y : List L) (w : List ℝ)
    (splits : List (List ℕ × List ℕ)) (c : C) :
    (do let r ← cvLoopS lib scoring X y w c splits; return r.2) = cvLoop lib scoring X y w c splits := by
  induction splits generalizing c with
  | nil => rfl
  | cons s ss ih =>
    rw [cvLoop, cvLoopS]
    cases h : cvOne lib scoring X y w c s with
    | error e => rfl
    | ok r =>
      simp only [py_bind_ok]
      rw [← ih r.1]
      cases cvLoopS lib scoring X y w r.1 ss <;> rfl

/-- C314: the scores are those of the model without the state. -/
theorem C314_agree (lib : Lib C ρ L P) (clf : C) (X : List ρ) (y : List L) (w : List ℝ) (scoring : String)
    (events : SplitArg) (splitter : Splitter K) :
    (do let r ← cvScoreS lib clf X y w scoring events splitter; return r.2) =
      cvScore lib clf X y w scoring events splitter := by
  unfold cvScoreS cvScore
  split_ifs with h
  · rfl
  · cases h : splitter.run events with
    | error e => rfl
    | ok splits =>
      simp only [py_bind_ok]
      exact cvLoopS_scores lib scoring X y w splits clf

theorem cvLoop_refits (lib : Lib C ρ L P) (hrefit : Refits lib) (scoring : String) (X : List ρ) (y : List L) (w : List ℝ)
    (splits : List (List ℕ × List ℕ)) (c c' : C) :
    cvLoop lib scoring X y w c splits = cvLoop lib scoring X y w c' splits := by
  cases splits with
  | nil => rfl
  | cons s ss =>
    rw [cvLoop, cvLoop]
    unfold cvOne
    rw [hrefit c c']

theorem sfiOne_refits {F : Type} (lib : Lib C ℝ L P) (hrefit : Refits lib) (X : F → Option (List ℝ)) (y : List L) (w : List ℝ)
    (scoring : String) (splitter : Splitter K) (c c' : C) (f : F) :
    sfiOne lib c X y w scoring splitter f = sfiOne lib c' X y w scoring splitter f := by
  unfold sfiOne cvScore
  congr 1
  funext col
  congr 1
  split_ifs
  · rfl
  · congr 1
    funext splits
    exact cvLoop_refits lib hrefit scoring col y w splits c c'

theorem sfiLoopS_cons {F : Type} [DecidableEq F] (lib : Lib C ℝ L P) (X : F → Option (List ℝ)) (y : List L) (w : List ℝ)
    (scoring : String) (splitter : Splitter K) (c : C) (T : List (SfiRow F)) (f : F) (fs : List F) :
    (∃ e, sfiLoopS lib X y w scoring splitter c T (f :: fs) = .error e ∧ sfiOne lib c X y w scoring splitter f = .error e) ∨
    ∃ c' row, row.feature = f ∧ sfiOne lib c X y w scoring splitter f = .ok row ∧
      sfiLoopS lib X y w scoring splitter c T (f :: fs) = sfiLoopS lib X y w scoring splitter c' (setRow T row) fs := by
  rw [sfiLoopS]
  unfold sfiOne
  cases hX : (X f).elim (Except.error PyErr.keyError : Py (List ℝ)) .ok with
  | error e => exact .inl ⟨e, rfl, rfl⟩
  | ok col =>
    simp only [py_bind_ok]
    rw [← C314_agree]
    cases hS : cvScoreS lib c col y w scoring .notSeries splitter with
    | error e => exact .inl ⟨e, rfl, rfl⟩
    | ok r => exact .inr ⟨r.1, ⟨f, npMean r.2, stdErr0 r.2⟩, rfl, rfl, rfl⟩

theorem setRow_known {F : Type} [DecidableEq F] (T : List (SfiRow F)) (row : SfiRow F)
    (h : ∀ r ∈ T, r.feature = row.feature → r = row) (hm : row.feature ∈ T.map SfiRow.feature) : setRow T row = T := by
  unfold setRow
  rw [if_pos hm]
  conv_rhs => rw [← List.map_id T]
  apply List.map_congr_left
  intro r hr
  split_ifs with h1
  · rw [id, h r hr h1]
  · rfl

theorem sfiLoopS_refits {F : Type} [DecidableEq F] (lib : Lib C ℝ L P) (hrefit : Refits lib) (X : F → Option (List ℝ))
    (y : List L) (w : List ℝ) (scoring : String) (splitter : Splitter K) (c0 : C) (fs : List F) :
    ∀ (c : C) (T : List (SfiRow F)), (∀ r ∈ T, sfiOne lib c0 X y w scoring splitter r.feature = .ok r) →
      sfiLoopS lib X y w scoring splitter c T fs =
        (do let rows ← sfi lib c0 X y w scoring splitter
              ((fs.filter fun f => decide (f ∉ T.map SfiRow.feature)).eraseDups)
            return T ++ rows) := by
  induction fs with
  | nil =>
    intro c T _
    simp [sfiLoopS, sfi, List.eraseDups_nil, List.mapM_nil, py_pure]
  | cons f fs ih =>
    intro c T hT
    rcases sfiLoopS_cons lib X y w scoring splitter c T f fs with ⟨e, h1, h2⟩ | ⟨c', row, rfl, h2, h1⟩
    · rw [sfiOne_refits lib hrefit X y w scoring splitter c c0] at h2
      have hf : f ∉ T.map SfiRow.feature := by
        intro hf
        obtain ⟨r, hr, rfl⟩ := List.mem_map.1 hf
        rw [hT r hr] at h2
        cases h2
      rw [h1, List.filter_cons_of_pos (by simpa using hf), List.eraseDups_cons]
      unfold sfi
      rw [mapM_cons_py, h2]
      rfl
    · rw [sfiOne_refits lib hrefit X y w scoring splitter c c0] at h2
      rw [h1]
      by_cases hf : row.feature ∈ T.map SfiRow.feature
      · rw [setRow_known T row (fun r hr e => by
          have := hT r hr
          rw [e, h2] at this
          cases this
          rfl) hf, ih c' T hT, List.filter_cons_of_neg (by simpa using hf)]
      · have hs : setRow T row = T ++ [row] := if_neg hf
        rw [hs, ih c' (T ++ [row]) (by
          intro r hr
          rcases List.mem_append.1 hr with h | h
          · exact hT r h
          · rw [List.mem_singleton.1 h]; exact h2),
          List.filter_cons_of_pos (by simpa using hf), List.eraseDups_cons, List.filter_filter]
        have hfil : (fs.filter fun f => decide (f ∉ (T ++ [row]).map SfiRow.feature)) =
            fs.filter fun a => (!a == row.feature) && decide (a ∉ T.map SfiRow.feature) := by
          apply List.filter_congr
          intro a _
          by_cases h : a = row.feature
          · simp [h]
          · simp [h]
        rw [hfil]
        unfold sfi
        rw [mapM_cons_py, h2, py_bind_ok]
        cases (List.mapM (sfiOne lib c0 X y w scoring splitter)
          (fs.filter fun a => (!a == row.feature) && decide (a ∉ T.map SfiRow.feature)).eraseDups) with
        | error e => rfl
        | ok rows => simp [py_bind_ok, py_pure]

/-- C314, the full claim for single features: the importance of a feature is what it is when it is the only one. -/
def SfiAlone : Prop :=
  ∀ (lib : Lib ℕ ℝ ℕ Unit) (clf : ℕ) (X : ℕ → Option (List ℝ)) (y : List ℕ) (w : List ℝ) (splitter : Splitter ℚ)
    (features : List ℕ) (T : List (SfiRow ℕ)),
    sfiS lib clf X y w "accuracy" splitter features = .ok T →
      ∀ r ∈ T, sfiS lib clf X y w "accuracy" splitter [r.feature] = .ok [r]

/-- C314 for estimators that forget what they have learned: a table with one row for every feature, in the order of
first occurrence, of the importances of the features one by one. -/
theorem C314_table_partial {F : Type} [DecidableEq F] (lib : Lib C ℝ L P) (hrefit : Refits lib) (clf : C)
    (X : F → Option (List ℝ)) (y : List L) (w : List ℝ) (scoring : String) (splitter : Splitter K) (features : List F) :
    sfiS lib clf X y w scoring splitter features = sfi lib clf X y w scoring splitter features.eraseDups := by
  unfold sfiS
  rw [sfiLoopS_refits lib hrefit X y w scoring splitter clf features clf [] (by simp)]
  rw [show (features.filter fun f => decide (f ∉ ([] : List (SfiRow F)).map SfiRow.feature)) = features by simp]
  cases sfi lib clf X y w scoring splitter features.eraseDups <;> rfl

theorem nodup_eraseDups {F : Type} [DecidableEq F] (l : List F) : l.eraseDups.Nodup := by
  induction hn : l.length using Nat.strong_induction_on generalizing l with
  | _ n ih =>
    cases l with
    | nil => simp [List.eraseDups_nil]
    | cons a l =>
      rw [List.eraseDups_cons, List.nodup_cons]
      refine ⟨by rw [List.mem_eraseDups]; simp, ih _ ?_ _ rfl⟩
      have := List.length_filter_le (fun b => !b == a) l
      simp only [List.length_cons] at hn
      omega

theorem sfiOne_feature {F : Type} (lib : Lib C ℝ L P) (clf : C) (X : F → Option (List ℝ)) (y : List L) (w : List ℝ)
    (scoring : String) (splitter : Splitter K) (f : F) (row : SfiRow F)
    (h : sfiOne lib clf X y w scoring splitter f = .ok row) : row.feature = f := by
  unfold sfiOne at h
  simp only [py_bind_eq_ok, py_pure] at h
  obtain ⟨col, -, s, -, h⟩ := h
  cases h
  rfl

/-- C314 for estimators that forget: the importance of a feature does not depend on the other features, nor on their
data, nor on what the estimator was fitted to before. -/
theorem C314_alone_partial {F : Type} [DecidableEq F] (lib : Lib C ℝ L P) (hrefit : Refits lib) (clf clf' : C)
    (X X' : F → Option (List ℝ)) (y : List L) (w : List ℝ) (scoring : String) (splitter : Splitter K) (features : List F)
    (T : List (SfiRow F)) (h : sfiS lib clf X y w scoring splitter features = .ok T) :
    (∀ f, f ∈ features ↔ ∃ r ∈ T, r.feature = f) ∧ (T.map SfiRow.feature).Nodup ∧
    ∀ r ∈ T, X' r.feature = X r.feature → sfiS lib clf' X' y w scoring splitter [r.feature] = .ok [r] := by
  rw [C314_table_partial lib hrefit] at h
  unfold sfi at h
  have h2 := (mapM_eq_ok_iff _ _ _).1 h
  have hfeat : T.map SfiRow.feature = features.eraseDups := by
    clear h
    generalize features.eraseDups = fs at h2
    induction h2 with
    | nil => rfl
    | cons h1 _ ih => rw [List.map_cons, ih, sfiOne_feature _ _ _ _ _ _ _ _ _ h1]
  refine ⟨fun f => ?_, ?_, ?_⟩
  · rw [← List.mem_eraseDups, ← hfeat, List.mem_map]
  · rw [hfeat]
    exact nodup_eraseDups features
  · intro r hr hX
    have hone : sfiOne lib clf X y w scoring splitter r.feature = .ok r := by
      clear h hfeat
      generalize features.eraseDups = fs at h2
      induction h2 with
      | nil => cases hr
      | cons h1 _ ih =>
        rcases List.mem_cons.1 hr with rfl | hr
        · rw [sfiOne_feature _ _ _ _ _ _ _ _ _ h1]
          exact h1
        · exact ih hr
    rw [C314_table_partial lib hrefit]
    have : ([r.feature] : List F).eraseDups = [r.feature] := by simp [List.eraseDups_cons]
    rw [this]
    unfold sfi
    rw [mapM_cons_py]
    have h3 : sfiOne lib clf' X' y w scoring splitter r.feature = .ok r := by
      rw [sfiOne_refits lib hrefit X' y w scoring splitter clf' clf, ← hone]
      unfold sfiOne
      rw [hX]
    rw [h3]
    rfl

/-- C314 for estimators that forget: the order of the features is the order of the rows and nothing more. -/
theorem C314_order_partial {F : Type} [DecidableEq F] (lib : Lib C ℝ L P) (hrefit : Refits lib) (clf : C)
    (X : F → Option (List ℝ)) (y : List L) (w : List ℝ) (scoring : String) (splitter : Splitter K) (features features' : List F)
    (hs : ∀ f, f ∈ features ↔ f ∈ features') (T T' : List (SfiRow F))
    (h : sfiS lib clf X y w scoring splitter features = .ok T) (h' : sfiS lib clf X y w scoring splitter features' = .ok T') :
    T.Perm T' := by
  obtain ⟨h1, h2, h3⟩ := C314_alone_partial lib hrefit clf clf X X y w scoring splitter features T h
  obtain ⟨h1', h2', h3'⟩ := C314_alone_partial lib hrefit clf clf X X y w scoring splitter features' T' h'
  have key : ∀ {A B : List (SfiRow F)}, (∀ r ∈ A, sfiS lib clf X y w scoring splitter [r.feature] = .ok [r]) →
      (∀ r ∈ B, sfiS lib clf X y w scoring splitter [r.feature] = .ok [r]) →
      (∀ f, (∃ r ∈ A, r.feature = f) → ∃ r ∈ B, r.feature = f) → ∀ r ∈ A, r ∈ B := by
    intro A B hA hB hAB r hr
    obtain ⟨s, hs, e⟩ := hAB r.feature ⟨r, hr, rfl⟩
    have h1 := hA r hr
    rw [← e, hB s hs] at h1
    cases h1
    exact hs
  rw [List.perm_ext_iff_of_nodup (List.Nodup.of_map _ h2) (List.Nodup.of_map _ h2')]
  intro r
  exact ⟨key (fun r hr => h3 r hr rfl) (fun r hr => h3' r hr rfl) (fun f hf => (h1' f).1 ((hs f).1 ((h1 f).2 hf))) r,
    key (fun r hr => h3' r hr rfl) (fun r hr => h3 r hr rfl) (fun f hf => (h1 f).1 ((hs f).2 ((h1' f).2 hf))) r⟩

/-- An estimator that counts its fits and predicts the count, and a metric that adds the predictions. -/
def countingLib : Lib ℕ ℝ ℕ Unit where
  fit := fun c _ _ _ => .ok (c + 1)
  proba := fun _ _ => .ok ()
  predict := fun m X => .ok (X.map fun _ => m)
  classes := fun _ => .ok []
  logLoss := fun _ _ _ _ => .ok 0
  accuracy := fun _ p _ => .ok (p.sum : ℕ)

/-- C314, the full claim does not hold: an estimator that goes on learning (a warm start) scores the second feature after
having been fitted to the first. -/
theorem C314_alone_counterexample : ¬ SfiAlone := by
  intro h
  have h1 : sfiS countingLib 0 (fun _ : ℕ => some [0, 0]) [0, 0] [1, 1] "accuracy"
      (Splitter.custom (K := ℚ) fun _ => .ok [([0], [1])]) [0, 1] =
      .ok [⟨0, npMean [((1 : ℕ) : ℝ)], stdErr0 [((1 : ℕ) : ℝ)]⟩, ⟨1, npMean [((2 : ℕ) : ℝ)], stdErr0 [((2 : ℕ) : ℝ)]⟩] := by
    simp [sfiS, sfiLoopS, cvScoreS, Splitter.run, cvLoopS, cvOne, scoreOf, countingLib, pyGet, List.mapM_cons, List.mapM_nil,
      setRow, show (1 + 1 : ℝ) = 2 by norm_num]
  have h2 := h _ _ _ _ _ _ _ _ h1 _ (List.mem_cons_of_mem _ (List.mem_singleton.2 rfl))
  have h3 : sfiS countingLib 0 (fun _ : ℕ => some [0, 0]) [0, 0] [1, 1] "accuracy"
      (Splitter.custom (K := ℚ) fun _ => .ok [([0], [1])]) [1] = .ok [⟨1, npMean [((1 : ℕ) : ℝ)], stdErr0 [((1 : ℕ) : ℝ)]⟩] := by
    simp [sfiS, sfiLoopS, cvScoreS, Splitter.run, cvLoopS, cvOne, scoreOf, countingLib, pyGet, List.mapM_cons, List.mapM_nil,
      setRow]
  simp only at h2
  rw [h3] at h2
  simp [npMean] at h2

/-- C314, the full claim for folds: the score of a fold is out of sample for any estimator. -/
def FoldsOutOfSample : Prop :=
  ∀ (lib : Lib (List ℕ) ℕ ℕ Unit) (X y : List ℕ) (w : List ℝ) (events : SplitArg) (splitter : Splitter ℚ) (scores : List ℝ),
    cvScore lib [] X y w "accuracy" events splitter = .ok scores →
      ∃ splits, splitter.run events = .ok splits ∧ List.Forall₂ (OutOfSample lib [] "accuracy" X y w) splits scores

/-- C314 for folds with an estimator that forgets. -/
theorem C314_folds_partial (lib : Lib C ρ L P) (hrefit : Refits lib) (clf : C) (X : List ρ) (y : List L) (w : List ℝ)
    (scoring : String) (events : SplitArg) (splitter : Splitter K) (scores : List ℝ)
    (h : cvScore lib clf X y w scoring events splitter = .ok scores) :
    ∃ splits, splitter.run events = .ok splits ∧ List.Forall₂ (OutOfSample lib clf scoring X y w) splits scores :=
  (C49_scoring lib hrefit clf X y w scoring events splitter).2 scores h

/-- An estimator that remembers the rows it has seen and recognises them, and a metric that counts the recognised rows. -/
def memoryLib : Lib (List ℕ) ℕ ℕ Unit where
  fit := fun c X _ _ => .ok (c ++ X)
  proba := fun _ _ => .ok ()
  predict := fun m X => .ok (X.map fun x => if x ∈ m then 1 else 0)
  classes := fun _ => .ok []
  logLoss := fun _ _ _ _ => .ok 0
  accuracy := fun _ p _ => .ok (p.sum : ℕ)

/-- C314: an estimator with a memory recognises the test rows of the second fold, which it was fitted to for the first. -/
theorem C314_folds_counterexample : ¬ FoldsOutOfSample := by
  intro h
  have h1 : cvScore memoryLib [] [7, 8] [0, 0] [1, 1] "accuracy" .notSeries
      (Splitter.custom (K := ℚ) fun _ => .ok [([1], [0]), ([0], [1])]) = .ok [((0 : ℕ) : ℝ), ((1 : ℕ) : ℝ)] := by
    simp [cvScore, Splitter.run, cvLoop, cvOne, scoreOf, memoryLib, pyGet, List.mapM_cons, List.mapM_nil]
  obtain ⟨splits, hsp, hall⟩ := h _ _ _ _ _ _ _ h1
  cases hsp
  cases hall with
  | cons _ hall =>
    cases hall with
    | cons h2 _ =>
      obtain ⟨Xtr, ytr, wtr, Xte, yte, wte, m, hX, -, -, hXt, -, -, hm, hs⟩ := h2
      have e1 : Xtr = [7] := by
        unfold Rows at hX
        cases hX with
        | cons a b => cases b; simp_all
      have e2 : Xte = [8] := by
        unfold Rows at hXt
        cases hXt with
        | cons a b => cases b; simp_all
      subst e1 e2
      cases hm
      rcases hs with ⟨hs, -⟩ | ⟨-, p, hp, ha⟩
      · exact absurd hs (by decide)
      · cases hp
        simp [memoryLib] at ha

/-- A splitter, features and an estimator that forgets. -/
example : Refits toyLib ∧ ∃ T, sfiS toyLib 0 (fun _ : ℕ => some [0, 0, 0]) [1, 2, 3] [1, 1, 1] "accuracy"
    (Splitter.custom (K := ℚ) fun _ => .ok [([0, 1], [2]), ([2], [0])]) [4, 5, 4] = .ok T := by
  refine ⟨fun _ _ => rfl, ?_⟩
  simp [sfiS, sfiLoopS, cvScoreS, Splitter.run, cvLoopS, cvOne, scoreOf, toyLib, pyGet, List.mapM_cons, List.mapM_nil]

end FinML.CV
