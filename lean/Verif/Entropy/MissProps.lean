import Verif.Entropy.MissModel
import Verif.Entropy.QuantileProps
import Verif.Entropy.Props

/-!
# Encoders of series with missing values (C356)
-/

set_option linter.unusedSectionVars false

namespace FinML.Entropy

variable {K : Type} [Field K] [LinearOrder K] [IsStrictOrderedRing K] [FloorRing K]

/-- The symbols of the values that are not missing. -/
def atKnown (series : List (Option K)) (code : List Char) : List Char :=
  ((series.zip code).filter fun p => p.1.isSome).map Prod.snd

/-- C356, the full claim for quantile codes: missing values do not change the symbols of the others. -/
def KnownCode (K : Type) [Field K] [LinearOrder K] [IsStrictOrderedRing K] [FloorRing K] : Prop :=
  ∀ (n : ℕ) (data series : List (Option K)) (code : List Char), 2 ≤ n → n ≤ 62 → quantileCodeM n data series = .ok code →
    quantileCode n data.reduceOption series.reduceOption = .ok (atKnown series code)

/-- C356.  With a value missing among three, 2 is encoded as 0 and not as 1. -/
theorem C356_counterexample : ¬ KnownCode ℚ := by
  intro h
  have := h 2 [some 1, none, some 2] [some 1, some 2] ['0', '0'] le_rfl (by norm_num) (by decide +kernel)
  revert this
  decide +kernel

/-- C356.  An encoder fitted on data with a missing value encodes everything as 0. -/
theorem C356_fit_gap (n : ℕ) (hn : 1 ≤ n) (hn' : n ≤ 62) (data series : List (Option K)) (h : none ∈ data) :
    quantileCodeM n data series = .ok (List.replicate series.length '0') := by
  have hfa : fullAlphabet.length = 62 := by decide
  have h0 : ∀ v : Option K, searchLeftM ((linspace01 n : List K).map fun _ => (none : Option K)) v = 0 := by
    intro v
    unfold searchLeftM
    cases (linspace01 n : List K) with
    | nil => rfl
    | cons p ps => simp [npLt]
  have hg : pyGet (fullAlphabet.take n ++ ['?']) 0 = .ok '0' := by
    obtain ⟨m, rfl⟩ : ∃ m, n = m + 1 := ⟨n - 1, by omega⟩
    rfl
  unfold quantileCodeM Encoder.init
  rw [if_pos (by omega), py_bind_ok]
  unfold Encoder.fitM
  rw [if_neg (List.ne_nil_of_mem h), py_bind_ok]
  simp only [if_pos h]
  unfold EncoderM.transform
  simp only [h0, hg]
  have hm := mapM_ok_of_forall (fun _ : Option K => (.ok '0' : Py Char)) (fun _ => '0') series (fun _ _ => rfl)
  rw [hm, List.map_const']

/-- C356.  Such a code has no entropy, whatever the series. -/
theorem C356_no_entropy (n : ℕ) (hn : 1 ≤ n) (hn' : n ≤ 62) (data series : List (Option K)) (h : none ∈ data) (w : ℕ)
    (hw : 1 ≤ w) (hw' : w ≤ series.length) :
    ∃ code, quantileCodeM n data series = .ok code ∧ pluginEntropy code w = 0 := by
  refine ⟨_, C356_fit_gap n hn hn' data series h, ?_⟩
  refine (C71_bounds _ w hw (by simpa using hw') {List.replicate w '0'} ?_).2.2.2 (by simp)
  intro x
  rw [Finset.mem_singleton]
  simp only [List.length_replicate, List.drop_replicate, List.take_replicate]
  constructor
  · rintro rfl
    exact ⟨0, by omega, by simp [hw']⟩
  · rintro ⟨j, hj, rfl⟩
    rw [min_eq_left (by omega)]

theorem searchLeftM_some (q : List K) (v : K) : searchLeftM (q.map some) (some v) = searchLeft q v := by
  unfold searchLeftM searchLeft
  rw [List.takeWhile_map, List.length_map]
  rfl

theorem searchLeftM_none (q : List K) : searchLeftM (q.map some) none = q.length := by
  unfold searchLeftM
  rw [List.takeWhile_map, List.length_map]
  congr 1
  induction q with
  | nil => rfl
  | cons x q ih =>
    rw [List.takeWhile_cons, if_pos (by rfl), ih]

/-- C356.  With complete data, known values have their symbols, and missing ones the symbol `?` (missing from the full claim:
data with a gap, `C356_fit_gap`). -/
theorem C356_known_partial (n : ℕ) (hn : 2 ≤ n) (hn' : n ≤ 62) (data : List K) (hd : data ≠ []) (series : List (Option K)) :
    ∃ code, quantileCodeM n (data.map some) series = .ok code ∧ code.length = series.length ∧
      quantileCode n data series.reduceOption = .ok (atKnown series code) ∧
      ∀ i : ℕ, series[i]? = some none → code[i]? = some '?' := by
  have hfa : fullAlphabet.length = 62 := by decide
  obtain ⟨q, h1, h2, h3, -⟩ := fit_quantiles n hn hn' data hd
  have hq : q = (linspace01 n).map (quantileAt (data.insertionSort (· ≤ ·))) := by
    unfold Encoder.init at h1
    rw [if_pos (by omega), py_bind_ok] at h1
    unfold Encoder.fit at h1
    rw [if_neg hd] at h1
    simp only [Except.ok.injEq, Encoder.mk.injEq, Option.some.injEq, true_and] at h1
    exact h1.symm
  have halen : (fullAlphabet.take n ++ ['?']).length = n + 1 := by simp [hfa]; omega
  have hle : ∀ v : Option K, searchLeftM (q.map some) v ≤ n := by
    intro v
    cases v with
    | none => rw [searchLeftM_none, h2]
    | some v => rw [searchLeftM_some, ← h2]; exact searchLeft_le q v
  have hcode : quantileCodeM n (data.map some) series =
      .ok (series.map fun v => (fullAlphabet.take n ++ ['?']).getD (searchLeftM (q.map some) v) ' ') := by
    unfold quantileCodeM Encoder.init
    rw [if_pos (by omega), py_bind_ok]
    unfold Encoder.fitM
    rw [if_neg (by simpa using hd), py_bind_ok, if_neg (by simp)]
    have e : (data.map some).reduceOption = data := by simp [List.reduceOption]
    have e2 : ((linspace01 n : List K).map fun p => some (quantileAt (data.insertionSort (· ≤ ·)) p)) = q.map some := by
      rw [hq, List.map_map]
      rfl
    simp only [e, e2]
    apply mapM_ok_of_forall
    intro v _
    have hv := hle v
    change pyGet (fullAlphabet.take n ++ ['?']) (searchLeftM (q.map some) v) = _
    rw [pyGet_eq_ok_iff, List.getElem?_eq_getElem (by omega), List.getD_eq_getElem _ _ (by omega)]
  refine ⟨_, hcode, by simp, ?_, ?_⟩
  · have hk : quantileCode n data series.reduceOption =
        .ok (series.reduceOption.map fun v => (fullAlphabet.take n ++ ['?']).getD (searchLeft q v) ' ') := by
      unfold quantileCode
      rw [h1, py_bind_ok]
      apply mapM_ok_of_forall
      intro v _
      have hv : searchLeft q v ≤ n := h2 ▸ searchLeft_le q v
      change pyGet (fullAlphabet.take n ++ ['?']) (searchLeft q v) = _
      rw [pyGet_eq_ok_iff, List.getElem?_eq_getElem (by omega), List.getD_eq_getElem _ _ (by omega)]
    rw [hk]
    congr 1
    unfold atKnown
    clear hk hcode
    induction series with
    | nil => rfl
    | cons o s ih =>
      cases o with
      | none => rw [List.reduceOption_cons_of_none, ih]; simp
      | some v => rw [List.reduceOption_cons_of_some, List.map_cons, ih, ← searchLeftM_some]; simp
  · intro i hi
    rw [List.getElem?_map, hi, Option.map_some, searchLeftM_none, h2, List.getD_eq_getElem _ _ (by omega)]
    rw [List.getElem_append_right (by simp [hfa])]
    simp

/-- C356, binary codes.  A known value has the symbol of C75, a missing one the symbol 0. -/
theorem C356_binary (series : List (Option K)) (thr : K) :
    binaryEncode series.reduceOption thr = atKnown series (binaryEncodeM series thr) ∧
    (binaryEncodeM series thr).length = series.length ∧
    ∀ i : ℕ, series[i]? = some none → (binaryEncodeM series thr)[i]? = some '0' := by
  refine ⟨?_, by simp [binaryEncodeM], ?_⟩
  · unfold binaryEncode atKnown binaryEncodeM
    induction series with
    | nil => rfl
    | cons o s ih =>
      cases o with
      | none => rw [List.reduceOption_cons_of_none, ih]; simp
      | some v => rw [List.reduceOption_cons_of_some, List.map_cons, ih]; simp
  · intro i hi
    unfold binaryEncodeM
    rw [List.getElem?_map, hi]
    simp

/-- C356, codes of equal spacing.  A missing value is refused. -/
theorem C356_sigma (series : List (Option K)) (sigma : K) :
    (none ∈ series → sigmaEncodeM series sigma = .error .valueError) ∧
    ∀ known : List K, sigmaEncodeM (known.map some) sigma = sigmaEncode known sigma := by
  refine ⟨fun h => if_pos h, fun known => ?_⟩
  unfold sigmaEncodeM
  rw [if_neg (by simp)]
  simp [List.reduceOption]

example : quantileCodeM 3 [some (1 : ℚ), some 2, some 3] [some 2, none, some 5, some 0] = .ok "1??0".toList := by
  decide +kernel

example : quantileCodeM 3 [some (1 : ℚ), none, some 3] [some 2, none, some 5, some 0] = .ok "0000".toList := by
  decide +kernel

end FinML.Entropy
