import Verif.Basket.Spec
import Verif.Py.Lemmas
import Mathlib.Data.List.GetD
import Mathlib.Algebra.BigOperators.Ring.Finset

/-! # Helper lemmas for rolled series -/

set_option linter.unusedSectionVars false

namespace FinML.Basket

variable {K : Type} [Field K] [LinearOrder K] [IsStrictOrderedRing K]
variable {C : Type} [DecidableEq C]

theorem rollAt_iff (contracts : List C) (i : ℕ) :
    rollAt contracts i = true ↔ IsRoll contracts i := by
  unfold rollAt IsRoll
  cases hc : contracts[i]? with
  | none => simp
  | some c =>
    simp only [Bool.and_eq_true, decide_eq_true_eq, Bool.not_eq_true', List.contains_eq_mem,
      decide_eq_false_iff_not, Option.some.injEq]
    have : c ∉ contracts.take i ↔ ∀ j < i, contracts[j]? ≠ some c := by
      constructor
      · intro h j hj he
        apply h
        rw [List.mem_iff_getElem?]
        exact ⟨j, by rw [List.getElem?_take_of_lt hj]; exact he⟩
      · intro h hm
        obtain ⟨j, hj⟩ := List.mem_iff_getElem?.1 hm
        rw [List.getElem?_take] at hj
        split at hj
        · exact h j (by assumption) hj
        · cases hj
    rw [this]
    constructor
    · rintro ⟨h1, h2⟩; exact ⟨h1, c, rfl, h2⟩
    · rintro ⟨h1, c', rfl, h2⟩; exact ⟨h1, h2⟩

/-- The jump written at bar `i`. -/
def jump (bars : Frame K) (contracts : List C) (i : ℕ) : K :=
  if rollAt contracts i then (bars .open).getD i 0 - (bars .close).getD (i - 1) 0 else 0

/-- Sum of the jumps up to and including bar `i`. -/
def totalJump (bars : Frame K) (contracts : List C) (i : ℕ) : K :=
  ∑ j ∈ Finset.range (i + 1), jump bars contracts j

theorem rawGap_ok (bars : Frame K) (contracts : List C) (hf : FrameOk bars contracts) (i : ℕ)
    (hi : i < contracts.length) : rawGap bars contracts i = .ok (jump bars contracts i) := by
  unfold rawGap jump
  by_cases h : rollAt contracts i = true
  · rw [if_pos h, if_pos h]
    have h1 : pyGet (bars .open) i = .ok ((bars .open).getD i 0) := by
      rw [pyGet_eq_ok_iff, List.getD_eq_getElem _ _ (by rw [hf]; exact hi),
        List.getElem?_eq_getElem]
    have h2 : pyGet (bars .close) (i - 1) = .ok ((bars .close).getD (i - 1) 0) := by
      rw [pyGet_eq_ok_iff, List.getD_eq_getElem _ _ (by rw [hf]; omega), List.getElem?_eq_getElem]
    rw [h1, py_bind_ok, h2, py_bind_ok]; rfl
  · rw [if_neg h, if_neg h]

theorem cumsumFrom_getElem? (s : K) (l : List K) (i : ℕ) (hi : i < l.length) :
    (cumsumFrom s l)[i]? = some (s + ∑ j ∈ Finset.range (i + 1), l.getD j 0) := by
  induction l generalizing s i with
  | nil => simp at hi
  | cons x xs ih =>
    cases i with
    | zero => simp [cumsumFrom]
    | succ i =>
      rw [cumsumFrom, List.getElem?_cons_succ, ih _ _ (by simpa using hi),
        Finset.sum_range_succ' (fun j => (x :: xs).getD j 0) (i + 1)]
      congr 1
      have : ∀ j, (x :: xs).getD (j + 1) 0 = xs.getD j 0 := fun j => rfl
      simp only [this]
      have h0 : (x :: xs).getD 0 0 = x := rfl
      rw [h0]
      ring

theorem cumsumFrom_length (s : K) (l : List K) : (cumsumFrom s l).length = l.length := by
  induction l generalizing s with
  | nil => rfl
  | cons x xs ih => simp [cumsumFrom, ih]

/-- The shift subtracted for the chosen end. -/
def endShift (bars : Frame K) (contracts : List C) (matchEnd : Bool) : K :=
  if matchEnd then totalJump bars contracts (contracts.length - 2) else 0

theorem computeRollGaps_ok (bars : Frame K) (contracts : List C) (hf : FrameOk bars contracts)
    (matchEnd : Bool) (hn : matchEnd = true → 2 ≤ contracts.length) :
    ∃ gaps, computeRollGaps bars contracts matchEnd = .ok gaps ∧
      gaps.length = contracts.length ∧
      ∀ i, i < contracts.length → gaps[i]? =
        some (totalJump bars contracts i - endShift bars contracts matchEnd) := by
  have hraw : (List.range (bars .close).length).mapM (rawGap bars contracts) =
      .ok ((List.range (bars .close).length).map (jump bars contracts)) := by
    apply mapM_ok_of_forall
    intro i hi
    rw [List.mem_range, hf] at hi
    exact rawGap_ok bars contracts hf i hi
  have hget : ∀ i, i < contracts.length →
      (cumsum ((List.range (bars .close).length).map (jump bars contracts)))[i]? =
        some (totalJump bars contracts i) := by
    intro i hi
    unfold cumsum
    rw [cumsumFrom_getElem? _ _ _ (by simpa [hf .close] using hi), zero_add]
    unfold totalJump
    congr 1
    apply Finset.sum_congr rfl
    intro j hj
    rw [Finset.mem_range] at hj
    rw [List.getD_eq_getElem _ _ (by simp [hf .close]; omega)]
    simp
  have hlen : (cumsum ((List.range (bars .close).length).map (jump bars contracts))).length =
      contracts.length := by
    unfold cumsum; rw [cumsumFrom_length]; simp [hf .close]
  unfold computeRollGaps
  rw [hraw, py_bind_ok]
  cases matchEnd with
  | false =>
    refine ⟨_, rfl, hlen, ?_⟩
    intro i hi
    rw [hget i hi]
    simp [endShift]
  | true =>
    have h2 := hn rfl
    have hm2 : ilocM2 (cumsum ((List.range (bars .close).length).map (jump bars contracts))) =
        .ok (totalJump bars contracts (contracts.length - 2)) := by
      unfold ilocM2
      rw [hlen, if_neg (by omega), pyGet_eq_ok_iff]
      exact hget _ (by omega)
    simp only [if_true]
    rw [hm2, py_bind_ok]
    refine ⟨_, rfl, by rw [List.length_map, hlen], ?_⟩
    intro i hi
    rw [List.getElem?_map, hget i hi]
    simp [endShift]

theorem foldl_subCol_notMem (gaps : List K) (cols : List Col) (bars : Frame K) (c : Col)
    (h : c ∉ cols) : cols.foldl (subCol gaps) bars c = bars c := by
  induction cols generalizing bars with
  | nil => rfl
  | cons a l ih =>
    rw [List.foldl_cons, ih _ (fun hm => h (by simp [hm]))]
    unfold subCol
    rw [if_neg (fun he => h (by simp [he]))]

theorem foldl_subCol_mem (gaps : List K) (cols : List Col) (hd : cols.Nodup) (bars : Frame K)
    (c : Col) (h : c ∈ cols) :
    cols.foldl (subCol gaps) bars c = List.zipWith (· - ·) (bars c) gaps := by
  induction cols generalizing bars with
  | nil => simp at h
  | cons a l ih =>
    rw [List.foldl_cons]
    rw [List.nodup_cons] at hd
    rcases List.mem_cons.1 h with rfl | hm
    · rw [foldl_subCol_notMem _ _ _ _ hd.1]
      unfold subCol
      rw [if_pos rfl]
    · rw [ih hd.2 _ hm]
      unfold subCol
      rw [if_neg]
      rintro rfl
      exact hd.1 hm

/-- The adjusted frame: listed columns are shifted by the accumulated jumps. -/
theorem adjust_ok (bars : Frame K) (contracts : List C) (hf : FrameOk bars contracts)
    (cols : List Col) (hd : cols.Nodup) (matchEnd : Bool)
    (hn : matchEnd = true → 2 ≤ contracts.length) :
    ∃ res, adjustRolledSeries bars contracts cols matchEnd = .ok res ∧ FrameOk res contracts ∧
      (∀ c, c ∉ cols → res c = bars c) ∧
      ∀ c ∈ cols, ∀ i, i < contracts.length →
        (res c).getD i 0 = (bars c).getD i 0 -
          (totalJump bars contracts i - endShift bars contracts matchEnd) := by
  obtain ⟨gaps, h1, h2, h3⟩ := computeRollGaps_ok bars contracts hf matchEnd hn
  refine ⟨_, by rw [adjustRolledSeries, h1]; rfl, ?_, ?_, ?_⟩
  · intro c
    by_cases hc : c ∈ cols
    · rw [foldl_subCol_mem _ _ hd _ _ hc, List.length_zipWith, h2, hf, min_self]
    · rw [foldl_subCol_notMem _ _ _ _ hc, hf]
  · intro c hc
    exact foldl_subCol_notMem _ _ _ _ hc
  · intro c hc i hi
    rw [foldl_subCol_mem _ _ hd _ _ hc]
    have hb : i < (bars c).length := by rw [hf]; exact hi
    have hg : i < gaps.length := by rw [h2]; exact hi
    have hz : i < (List.zipWith (· - ·) (bars c) gaps).length := by
      rw [List.length_zipWith]; omega
    have h4 := h3 i hi
    rw [List.getElem?_eq_getElem hg] at h4
    rw [List.getD_eq_getElem _ _ hz, List.getD_eq_getElem _ _ hb, List.getElem_zipWith,
      Option.some.inj h4]

theorem totalJump_succ (bars : Frame K) (contracts : List C) (i : ℕ) :
    totalJump bars contracts (i + 1) = totalJump bars contracts i + jump bars contracts (i + 1) := by
  unfold totalJump
  rw [Finset.sum_range_succ]

theorem totalJump_zero (bars : Frame K) (contracts : List C) : totalJump bars contracts 0 = 0 := by
  have : rollAt contracts 0 = false := by
    rw [← Bool.not_eq_true, rollAt_iff]
    exact fun h => absurd h.1 (by omega)
  simp [totalJump, jump, this]

theorem cumprodFrom_mem_nonneg (s : K) (l : List K) (hs : 0 ≤ s) (hl : ∀ x ∈ l, 0 ≤ x) :
    ∀ x ∈ cumprodFrom s l, 0 ≤ x := by
  induction l generalizing s with
  | nil => simp [cumprodFrom]
  | cons a l ih =>
    intro x hx
    have ha : 0 ≤ s * a := mul_nonneg hs (hl a (by simp))
    rcases List.mem_cons.1 hx with rfl | h
    · exact ha
    · exact ih _ ha (fun y hy => hl y (by simp [hy])) x h

theorem cumprodFrom_length (s : K) (l : List K) : (cumprodFrom s l).length = l.length := by
  induction l generalizing s with
  | nil => rfl
  | cons x xs ih => simp [cumprodFrom, ih]

end FinML.Basket
