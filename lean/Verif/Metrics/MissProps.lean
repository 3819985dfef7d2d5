import Verif.Metrics.MissModel
import Mathlib.Data.Finset.Card
import Mathlib.Data.Finset.Basic
import Mathlib.Data.List.Sort
import Mathlib.Data.Rat.Floor

/-! # Properties C302 and C303: missing values in drawdowns and in the concentration of returns -/

namespace FinML.Metrics

set_option linter.unusedSectionVars false

variable {K : Type} [Field K] [LinearOrder K] [IsStrictOrderedRing K]

/-- The rows that have a value. -/
def present (s : Ser (Option K)) : Ser K := s.filterMap fun p => p.2.map fun x => (p.1, x)

/-- C302, the full claim: missing values have no influence on drawdowns and times under water. -/
def MissingIgnored : Prop :=
  ∀ (s : Ser (Option ℚ)) (dollars : Bool), ddAndTuwM s dollars = .ok (ddAndTuw (present s) dollars)

/-- The high-water marks after a value `m`. -/
def marksFrom (m : K) : List (Option K) → List K
  | [] => []
  | none :: xs => m :: marksFrom m xs
  | some x :: xs => max m x :: marksFrom (max m x) xs

theorem expandMax_some (m : K) (xs : List (Option K)) : expandMax (some m) xs = (marksFrom m xs).map some := by
  induction xs generalizing m with
  | nil => rfl
  | cons x xs ih =>
    cases x with
    | none => exact congrArg (some m :: ·) (ih m)
    | some x => exact congrArg (some (max m x) :: ·) (ih (max m x))

theorem marksFrom_length (m : K) (xs : List (Option K)) : (marksFrom m xs).length = xs.length := by
  induction xs generalizing m with
  | nil => rfl
  | cons x xs ih =>
    cases x with
    | none => exact congrArg (· + 1) (ih m)
    | some x => exact congrArg (· + 1) (ih (max m x))

theorem firstTimesM_some (seen : List K) (l : List (ℤ × K)) :
    firstTimesM (seen.map some) (l.map fun p => (p.1, some p.2)) = firstTimes seen l := by
  induction l generalizing seen with
  | nil => rfl
  | cons p l ih =>
    obtain ⟨t, h⟩ := p
    rw [List.map_cons]
    unfold firstTimesM firstTimes
    have hm : some h ∈ seen.map some ↔ h ∈ seen := by simp
    by_cases hs : h ∈ seen
    · rw [if_pos (hm.2 hs), if_pos hs, ih]
    · rw [if_neg (fun hh => hs (hm.1 hh)), if_neg hs, ← ih (h :: seen)]
      rfl

theorem firstTimes_marks (seen : List K) (m : K) (hm : m ∈ seen) (s : Ser (Option K)) :
    firstTimes seen ((s.map Prod.fst).zip (marksFrom m (s.map Prod.snd))) =
      firstTimes seen (((present s).map Prod.fst).zip (cummaxFrom m ((present s).map Prod.snd))) := by
  induction s generalizing seen m with
  | nil => rfl
  | cons p s ih =>
    obtain ⟨t, x⟩ := p
    cases x with
    | none =>
      have e : present ((t, none) :: s) = present s := rfl
      rw [e, ← ih seen m hm]
      simp only [List.map_cons, marksFrom, List.zip_cons_cons]
      conv_lhs => unfold firstTimes
      rw [if_pos hm]
    | some x =>
      have e : present ((t, some x) :: s) = (t, x) :: present s := rfl
      rw [e]
      simp only [List.map_cons, marksFrom, cummaxFrom, List.zip_cons_cons]
      unfold firstTimes
      by_cases hs : max m x ∈ seen
      · rw [if_pos hs, if_pos hs, ih seen _ hs]
      · rw [if_neg hs, if_neg hs, ih _ _ (List.mem_cons_self ..)]

theorem mem_marks (m : K) (s : Ser (Option K)) (k : K) :
    k ∈ m :: marksFrom m (s.map Prod.snd) ↔ k ∈ m :: cummaxFrom m ((present s).map Prod.snd) := by
  induction s generalizing m with
  | nil => rfl
  | cons p s ih =>
    obtain ⟨t, x⟩ := p
    cases x with
    | none =>
      have e : present ((t, none) :: s) = present s := rfl
      rw [e, ← ih m]
      simp [marksFrom]
    | some x =>
      have e : present ((t, some x) :: s) = (t, x) :: present s := rfl
      rw [e]
      simp only [List.map_cons, marksFrom, cummaxFrom]
      rw [List.mem_cons, ih (max m x), ← List.mem_cons]

theorem group_marks (m : K) (s : Ser (Option K)) (k : K) :
    ((((marksFrom m (s.map Prod.snd)).zip (s.map Prod.snd)).filter fun p => p.1 = k).map Prod.snd).filterMap id =
      (((cummaxFrom m ((present s).map Prod.snd)).zip ((present s).map Prod.snd)).filter fun p => p.1 = k).map
        Prod.snd := by
  induction s generalizing m with
  | nil => rfl
  | cons p s ih =>
    obtain ⟨t, x⟩ := p
    cases x with
    | none =>
      have e : present ((t, none) :: s) = present s := rfl
      rw [e, ← ih m]
      simp only [List.map_cons, marksFrom, List.zip_cons_cons, List.filter_cons]
      by_cases hk : m = k <;> simp [hk]
    | some x =>
      have e : present ((t, some x) :: s) = (t, x) :: present s := rfl
      rw [e]
      simp only [List.map_cons, marksFrom, cummaxFrom, List.zip_cons_cons, List.filter_cons]
      by_cases hk : max m x = k
      · simp only [hk, decide_true, if_true, List.map_cons, List.filterMap_cons, id]
        have := ih (max m x)
        rw [hk] at this
        exact congrArg (x :: ·) this
      · simp only [hk, decide_false, Bool.false_eq_true, if_false]
        exact ih (max m x)

theorem sorted_keys (a b : List K) (h : ∀ k, k ∈ a ↔ k ∈ b) :
    a.dedup.insertionSort (· ≤ ·) = b.dedup.insertionSort (· ≤ ·) := by
  have hp : a.dedup.Perm b.dedup := by
    rw [List.perm_ext_iff_of_nodup (List.nodup_dedup a) (List.nodup_dedup b)]
    intro k
    rw [List.mem_dedup, List.mem_dedup]
    exact h k
  refine List.Perm.eq_of_pairwise (le := (· ≤ ·)) (fun x y _ _ => le_antisymm) (List.pairwise_insertionSort _ _)
    (List.pairwise_insertionSort _ _) ?_
  exact ((List.perm_insertionSort _ _).trans hp).trans (List.perm_insertionSort _ _).symm

theorem firstTimesM_length {α : Type} [DecidableEq α] (seen : List α) (l : List (ℤ × α)) :
    (firstTimesM seen l).length = ((l.map Prod.snd).toFinset \ seen.toFinset).card := by
  induction l generalizing seen with
  | nil => simp [firstTimesM]
  | cons p l ih =>
    obtain ⟨t, h⟩ := p
    unfold firstTimesM
    by_cases hs : h ∈ seen
    · rw [if_pos hs, ih]
      congr 1
      ext a
      simp only [List.map_cons, List.toFinset_cons, Finset.mem_sdiff, Finset.mem_insert, List.mem_toFinset]
      constructor
      · rintro ⟨h1, h2⟩; exact ⟨Or.inr h1, h2⟩
      · rintro ⟨rfl | h1, h2⟩
        · exact absurd hs h2
        · exact ⟨h1, h2⟩
    · rw [if_neg hs, List.length_cons, ih]
      have : ((List.map Prod.snd ((t, h) :: l)).toFinset \ seen.toFinset) =
          insert h ((l.map Prod.snd).toFinset \ (h :: seen).toFinset) := by
        ext a
        simp only [List.map_cons, List.toFinset_cons, Finset.mem_sdiff, Finset.mem_insert, List.mem_toFinset]
        constructor
        · rintro ⟨h1 | h1, h2⟩
          · exact Or.inl h1
          · by_cases ha : a = h
            · exact Or.inl ha
            · exact Or.inr ⟨h1, fun hh => hh.elim ha h2⟩
        · rintro (rfl | ⟨h1, h2⟩)
          · exact ⟨Or.inl rfl, hs⟩
          · exact ⟨Or.inr h1, fun hh => h2 (Or.inr hh)⟩
      rw [this, Finset.card_insert_of_notMem]
      simp

theorem groupBy_length {α : Type} (ids : List K) (xs : List α) : (groupBy ids xs).length = ids.toFinset.card := by
  unfold groupBy
  rw [List.length_map, List.length_insertionSort, List.card_toFinset]

theorem card_map_some (l : List K) : (l.map some).toFinset.card = l.toFinset.card := by
  have : (l.map some).toFinset = l.toFinset.map ⟨some, Option.some_injective K⟩ := by
    ext a
    simp
  rw [this, Finset.card_map]

theorem rows_some (hs : List K) (xs : List (Option K)) :
    ((hs.map some).zip xs).filterMap (fun p => p.1.map fun h => (h, p.2)) = hs.zip xs := by
  induction hs generalizing xs with
  | nil => rfl
  | cons h hs ih =>
    cases xs with
    | nil => rfl
    | cons x xs => exact congrArg ((h, x) :: ·) (ih xs)

theorem map_fst_zip' {α β : Type} (a : List α) (b : List β) (h : a.length = b.length) : (a.zip b).map Prod.fst = a := by
  rw [List.map_fst_zip]
  omega

theorem map_snd_zip' {α β : Type} (a : List α) (b : List β) (h : a.length = b.length) : (a.zip b).map Prod.snd = b := by
  rw [List.map_snd_zip]
  omega

theorem cummaxFrom_length (m : K) (xs : List K) : (cummaxFrom m xs).length = xs.length := by
  induction xs generalizing m with
  | nil => rfl
  | cons x xs ih => exact congrArg (· + 1) (ih _)

theorem zip_map_snd {α β γ : Type} (f : β → γ) (a : List α) (b : List β) :
    a.zip (b.map f) = (a.zip b).map fun p => (p.1, f p.2) := by
  induction a generalizing b with
  | nil => rfl
  | cons x a ih =>
    cases b with
    | nil => rfl
    | cons y b => exact congrArg ((x, f y) :: ·) (ih b)

/-- No group of `groupby` is empty. -/
theorem group_ne {α : Type} (ids : List K) (xs : List α) (h : ids.length = xs.length) (g : K × List α)
    (hg : g ∈ groupBy ids xs) : g.2 ≠ [] := by
  unfold groupBy at hg
  obtain ⟨k, hk, rfl⟩ := List.mem_map.1 hg
  rw [List.mem_insertionSort, List.mem_dedup] at hk
  have hk' : k ∈ (ids.zip xs).map Prod.fst := by rwa [map_fst_zip' ids xs h]
  obtain ⟨p, hp, hpk⟩ := List.mem_map.1 hk'
  intro hc
  simp only [List.map_eq_nil_iff, List.filter_eq_nil_iff] at hc
  exact hc p hp (by simpa using hpk)

theorem hwmRowsM_eq (t : ℤ) (x : K) (s : Ser (Option K)) :
    hwmRowsM ((t, some x) :: s) = .ok (hwmRows (present ((t, some x) :: s))) := by
  have e : present ((t, some x) :: s) = (t, x) :: present s := rfl
  have hx : expandMax none (some x :: s.map Prod.snd) = ((x :: marksFrom x (s.map Prod.snd)).map some) := by
    have := expandMax_some x (s.map Prod.snd)
    exact congrArg (some x :: ·) this
  have hlen : (x :: marksFrom x (s.map Prod.snd)).length = (some x :: s.map Prod.snd).length := by
    rw [List.length_cons, List.length_cons, marksFrom_length]
  have htimes : firstTimesM [] (((t :: s.map Prod.fst)).zip ((x :: marksFrom x (s.map Prod.snd)).map some)) =
      firstTimes [] (((t :: (present s).map Prod.fst)).zip (x :: cummaxFrom x ((present s).map Prod.snd))) := by
    rw [zip_map_snd]
    have := firstTimesM_some [] ((t :: s.map Prod.fst).zip (x :: marksFrom x (s.map Prod.snd)))
    rw [List.map_nil] at this
    rw [this, List.zip_cons_cons, List.zip_cons_cons]
    unfold firstTimes
    rw [if_neg (by simp), if_neg (by simp), firstTimes_marks [x] x (by simp)]
  have hgroups : (groupBy (x :: marksFrom x (s.map Prod.snd)) (some x :: s.map Prod.snd)).map
      (fun g => (g.1, groupMin (g.2.filterMap id))) =
      (groupBy (x :: cummaxFrom x ((present s).map Prod.snd)) (x :: (present s).map Prod.snd)).map
        fun g => (g.1, groupMin g.2) := by
    unfold groupBy
    rw [List.map_map, List.map_map, sorted_keys _ _ (mem_marks x s)]
    apply List.map_congr_left
    intro k _
    simp only [Function.comp, List.zip_cons_cons, List.filter_cons]
    by_cases hk : x = k
    · simp only [hk, decide_true, if_true, List.map_cons, List.filterMap_cons, id]
      have := group_marks x s k
      rw [hk] at this
      exact congrArg (fun l => (k, groupMin (k :: l))) this
    · simp only [hk, decide_false, Bool.false_eq_true, if_false]
      rw [group_marks]
  unfold hwmRowsM
  simp only [List.map_cons]
  rw [hx, rows_some, map_fst_zip' _ _ hlen, map_snd_zip' _ _ hlen]
  have hl : (firstTimesM [] ((t :: s.map Prod.fst).zip ((x :: marksFrom x (s.map Prod.snd)).map some))).length =
      ((groupBy (x :: marksFrom x (s.map Prod.snd)) (some x :: s.map Prod.snd)).map
        (fun g => (g.1, groupMin (g.2.filterMap id)))).length := by
    rw [firstTimesM_length, List.length_map, groupBy_length, map_snd_zip' _ _ (by
      rw [List.length_map, List.length_cons, List.length_cons, marksFrom_length, List.length_map, List.length_map])]
    rw [List.toFinset_nil, Finset.sdiff_empty, card_map_some]
  rw [if_neg (by rw [hl]; simp), htimes, hgroups, e]
  congr 1
  unfold hwmRows
  simp only [List.map_cons, cummax]
  have hne := fun g => group_ne (x :: cummaxFrom x ((present s).map Prod.snd)) (x :: (present s).map Prod.snd) (by
    rw [List.length_cons, List.length_cons, cummaxFrom_length]) g
  generalize groupBy (x :: cummaxFrom x ((present s).map Prod.snd)) (x :: (present s).map Prod.snd) = gs at hne
  generalize firstTimes [] ((t :: (present s).map Prod.fst).zip (x :: cummaxFrom x ((present s).map Prod.snd))) = ts
  clear hl hgroups htimes hlen hx e
  induction gs generalizing ts with
  | nil => simp
  | cons g gs ih =>
    obtain ⟨y, ys, hy⟩ := List.exists_cons_of_ne_nil (hne g (by simp))
    cases ts with
    | nil => simp
    | cons u ts =>
      have hg : groupMin g.2 = some (ys.foldl min y) := by rw [hy]; rfl
      rw [List.map_cons, List.zip_cons_cons, List.filterMap_cons, List.filterMap_cons, hg]
      simp only [Option.map_some, Option.bind_some, List.zipWith_cons_cons, List.filter_cons, decide_eq_true_eq]
      have := ih (fun g' hg' => hne g' (by simp [hg'])) ts
      by_cases hlt : ys.foldl min y < g.1
      · rw [if_pos hlt, if_pos hlt]
        simp only
        rw [this]
      · rw [if_neg hlt, if_neg hlt]
        exact this

/-- C302, part: if the first row has a value, missing values have no influence.  Missing from the full claim: a first row
without value is an error, `C302_leading`. -/
theorem C302_missing_partial (s : Ser (Option K)) (dollars : Bool) (h : ∀ p ∈ s.head?, p.2 ≠ none) :
    ddAndTuwM s dollars = .ok (ddAndTuw (present s) dollars) := by
  match s, h with
  | [], _ => rfl
  | (t, none) :: s, h => exact absurd rfl (h (t, none) (by simp))
  | (t, some x) :: s, _ =>
    unfold ddAndTuwM
    rw [hwmRowsM_eq]
    rfl

theorem rows_fst (hs : List (Option K)) (xs : List (Option K)) (h : hs.length = xs.length) :
    ((hs.zip xs).filterMap fun p => p.1.map fun h => (h, p.2)).map Prod.fst = hs.filterMap id := by
  induction hs generalizing xs with
  | nil => rfl
  | cons a hs ih =>
    cases xs with
    | nil => simp at h
    | cons x xs =>
      have := ih xs (by simpa using h)
      cases a with
      | none => exact this
      | some a => exact congrArg (a :: ·) this

theorem expandMax_length (m : Option K) (xs : List (Option K)) : (expandMax m xs).length = xs.length := by
  induction xs generalizing m with
  | nil => rfl
  | cons x xs ih => exact congrArg (· + 1) (ih _)

theorem card_option (l : List (Option K)) (h : none ∈ l) : l.toFinset.card = (l.filterMap id).toFinset.card + 1 := by
  have : l.toFinset = insert none ((l.filterMap id).toFinset.map ⟨some, Option.some_injective K⟩) := by
    ext a
    cases a with
    | none => simpa using h
    | some a => simp
  rw [this, Finset.card_insert_of_notMem (by simp), Finset.card_map]

/-- C302: a series whose first value is missing makes `compute_dd_and_tuw` fail, whatever follows. -/
theorem C302_leading (t : ℤ) (s : Ser (Option K)) (dollars : Bool) :
    ddAndTuwM ((t, none) :: s) dollars = .error .valueError := by
  have h : hwmRowsM ((t, none) :: s) = .error .valueError := by
    unfold hwmRowsM
    simp only [List.map_cons]
    have hmem : (none : Option K) ∈ expandMax none (none :: s.map Prod.snd) := List.mem_cons_self ..
    have hlen : (expandMax none (none :: s.map Prod.snd)).length = (none :: s.map Prod.snd).length :=
      expandMax_length _ _
    generalize hwm : expandMax none (none :: s.map Prod.snd) = hs at hmem hlen
    have hl := firstTimesM_length [] ((t :: s.map Prod.fst).zip hs)
    rw [map_snd_zip' _ _ (by rw [hlen]; simp), List.toFinset_nil, Finset.sdiff_empty, card_option hs hmem] at hl
    rw [if_pos]
    rw [hl, List.length_map, groupBy_length, rows_fst _ _ hlen]
    omega
  unfold ddAndTuwM
  rw [h]
  rfl

/-- C302, the full claim does not hold: one missing value before `100, 90, 110` is an error. -/
theorem C302_missing_counterexample : ¬ MissingIgnored := by
  intro h
  have h1 := h [(0, none), (1, some 100), (2, some 90), (3, some 110)] true
  rw [C302_leading] at h1
  cases h1

/-- A drawdown of 10 with two missing values in between. -/
example : ddAndTuwM [(0, some (100 : ℚ)), (1, none), (2, some 90), (3, none), (4, some 110), (5, some 105)] true =
    .ok ([(0, some 10), (4, some 5)], [(0, 4 / 86400000000000)]) := by
  rw [C302_missing_partial _ _ (by simp)]
  decide +kernel

/-! ## C303 -/

/-- C303, the full claim: the concentration is that of the returns that are present. -/
def ConcentrationOfPresent : Prop :=
  ∀ rets : List (Option ℚ), hhiConcentrationM rets = hhiConcentration (rets.filterMap id)

/-- C303, part: so it is when three returns are present, or at most two rows are given.  Missing from the full claim:
three rows or more with fewer than three returns, `C303_few`. -/
theorem C303_present_partial (rets : List (Option K)) (h : 3 ≤ (rets.filterMap id).length ∨ rets.length ≤ 2) :
    hhiConcentrationM rets = hhiConcentration (rets.filterMap id) := by
  have hle : (rets.filterMap id).length ≤ rets.length := List.length_filterMap_le ..
  unfold hhiConcentrationM hhiConcentration
  rcases h with h | h
  · rw [if_neg (by omega), if_neg (by omega)]
  · rw [if_pos h, if_pos (by omega)]

/-- C303: with two returns `a`, `b ≥ 0`, not both 0, and at least one missing one the documented minimum of three returns is
not enforced; the concentration is `((a - b) / (a + b))²`, which is 1 when one of them is 0. -/
theorem C303_few (rets : List (Option K)) (a b : K) (h : rets.filterMap id = [a, b]) (hn : 3 ≤ rets.length)
    (ha : 0 ≤ a) (hb : 0 ≤ b) (hab : 0 < a + b) :
    hhiConcentration (rets.filterMap id) = (none, none) ∧
      hhiConcentrationM rets = (some (((a - b) / (a + b)) ^ 2), none) := by
  constructor
  · rw [h]
    rfl
  · unfold hhiConcentrationM
    rw [if_neg (by omega), h]
    have h1 : [a, b].filter (fun r => (0 : K) ≤ r) = [a, b] := by simp [ha, hb]
    have h2 : [a, b].filter (fun r => r < (0 : K)) = [] := by simp [ha, hb]
    simp only [h1, h2]
    have hs : [a, b].sum = a + b := by simp
    have h0 : a + b ≠ 0 := hab.ne'
    have h12 : (1 : K) - 1 / ((2 : ℕ) : K) ≠ 0 := by norm_num
    simp only [List.length_cons, List.length_nil, hhi, hs, fdiv, List.map_cons, List.map_nil, if_neg h0,
      List.filterMap_cons, List.filterMap_nil, id, List.sum_cons, List.sum_nil]
    norm_num
    field_simp
    ring

/-- C303, the full claim does not hold: `1, 2, NaN` has a concentration of 1/9, `1, 2` has none. -/
theorem C303_present_counterexample : ¬ ConcentrationOfPresent := by
  intro h
  have h1 := h [some 1, some 2, none]
  have h2 := C303_few [some (1 : ℚ), some 2, none] 1 2 rfl (by simp) (by norm_num) (by norm_num) (by norm_num)
  rw [h2.1, h2.2] at h1
  simp at h1

/-- Four returns of which one is missing. -/
example : hhiConcentrationM [some (1 : ℚ), none, some 3, some (-1)] = (some (1 / 4), none) := by
  rw [C303_present_partial _ (by simp)]
  decide +kernel

end FinML.Metrics
