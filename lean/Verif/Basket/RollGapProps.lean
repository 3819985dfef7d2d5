import Verif.Basket.RollGapModel
import Verif.Basket.RollLemmas
import Mathlib.Data.Rat.Floor

/-! # Rolled series with missing prices (C364) -/

namespace FinML.Basket

set_option linter.unusedSectionVars false

variable {K : Type} [Field K] [LinearOrder K] [IsStrictOrderedRing K] {C : Type} [DecidableEq C]

/-- The same bars with prices in the gaps. -/
def FillsFrame (f : Frame K) (bars : Frame (Option K)) : Prop :=
  ∀ c, (f c).length = (bars c).length ∧ ∀ (i : ℕ) (x : K), (bars c)[i]? = some (some x) → (f c)[i]? = some x

/-- The price of the column is known at the bar. -/
def KnownAt (l : List (Option K)) (i : ℕ) : Prop := ∃ x, l[i]? = some (some x)

/-- C364, the full claim: an adjusted price of a bar with known close is that for some prices in the gaps. -/
def AdjustedOfSomeFill (K : Type) [Field K] [LinearOrder K] [IsStrictOrderedRing K] : Prop :=
  ∀ (bars : Frame (Option K)) (contracts : List ℕ) (cols : List Col) (matchEnd : Bool) (res : Frame (Option K)),
    (∀ c, (bars c).length = contracts.length) → adjustRolledSeriesM bars contracts cols matchEnd = .ok res →
    ∀ (c : Col) (i : ℕ), KnownAt (bars c) i → KnownAt (bars .close) i →
    ∃ f res', FillsFrame f bars ∧ adjustRolledSeries f contracts cols matchEnd = .ok res' ∧
      (res c)[i]? = ((res' c)[i]?).map some

/-- One contract, no close at the last bar but one. -/
def noSecondLast : Frame (Option ℚ) := fun c => if c = .close then [some 1, none, some 1] else [some 1, some 1, some 1]

/-- C364.  Without the close of the last bar but one no adjusted price is left, although nothing was rolled. -/
theorem C364_counterexample : ¬ AdjustedOfSomeFill ℚ := by
  intro h
  obtain ⟨f, res', hf, _, hv⟩ := h noSecondLast [0, 0, 0] [.close] true _ (by intro c; cases c <;> rfl) rfl
    .close 0 ⟨1, by decide +kernel⟩ ⟨1, by decide +kernel⟩
  have hn : (([Col.close].foldl (subColM [none, none, none]) noSecondLast) .close)[0]? = some (none : Option ℚ) := by
    decide +kernel
  have h2 := hn.symm.trans hv
  cases hr : (res' .close)[0]? with
  | none => rw [hr] at h2; cases h2
  | some x => rw [hr] at h2; cases h2

/-- The gap of a bar, as a total function. -/
def gapVal (bars : Frame (Option K)) (contracts : List C) (i : ℕ) : Option K :=
  if rollAt contracts i then subM ((bars .open).getD i none) ((bars .close).getD (i - 1) none)
  else ((bars .close).getD i none).map fun _ => 0

theorem rawGapM_ok (bars : Frame (Option K)) (contracts : List C) (hl : ∀ c, (bars c).length = contracts.length) (i : ℕ)
    (hi : i < contracts.length) : rawGapM bars contracts i = .ok (gapVal bars contracts i) := by
  have h1 : ∀ c j, j < contracts.length → pyGet (bars c) j = .ok ((bars c).getD j none) := by
    intro c j hj
    rw [pyGet_eq_ok_iff, List.getD_eq_getElem _ _ (by rw [hl]; exact hj), List.getElem?_eq_getElem]
  unfold rawGapM gapVal
  by_cases h : rollAt contracts i = true
  · rw [if_pos h, if_pos h, h1 _ _ hi, py_bind_ok, h1 _ _ (by omega), py_bind_ok]; rfl
  · rw [if_neg h, if_neg h, h1 _ _ hi, py_bind_ok]; rfl

theorem cumsumSkip_agree (l : List (Option K)) (m : List K)
    (h : List.Forall₂ (fun a b => a = some b ∨ (a = none ∧ b = 0)) l m) (s : K) (i : ℕ) :
    (l[i]? = some none → (cumsumSkip s l)[i]? = some none) ∧
      (∀ x, l[i]? = some (some x) → (cumsumSkip s l)[i]? = ((cumsumFrom s m)[i]?).map some) := by
  induction h generalizing s i with
  | nil => simp
  | @cons a b l m hab _ ih =>
    rcases hab with rfl | ⟨rfl, rfl⟩
    · cases i with
      | zero => simp [cumsumSkip, cumsumFrom]
      | succ i => simpa [cumsumSkip, cumsumFrom] using ih (s + b) i
    · cases i with
      | zero => simp [cumsumSkip]
      | succ i => simpa [cumsumSkip, cumsumFrom] using ih s i

theorem cumsumSkip_length (l : List (Option K)) (s : K) : (cumsumSkip s l).length = l.length := by
  induction l generalizing s with
  | nil => rfl
  | cons a l ih => cases a <;> simp [cumsumSkip, ih]

theorem getD_fill {f : Frame K} {bars : Frame (Option K)} (hf : FillsFrame f bars) {c : Col} {j : ℕ}
    (hk : KnownAt (bars c) j) : (bars c).getD j none = some ((f c).getD j 0) := by
  obtain ⟨x, hx⟩ := hk
  have := (hf c).2 j x hx
  simp [List.getD_eq_getElem?_getD, hx, this]

theorem foldl_subColM_agree (gm : List (Option K)) (gf : List K) (i : ℕ) (g : K) (h1 : gm[i]? = some (some g))
    (h2 : gf[i]? = some g) (cols : List Col) (res : Frame (Option K)) (res' : Frame K) (c : Col)
    (h : ∀ x, (res c)[i]? = some (some x) → (res' c)[i]? = some x) (hk : KnownAt (res c) i) :
    ∃ x, (cols.foldl (subColM gm) res c)[i]? = some (some x) ∧ (cols.foldl (subCol gf) res' c)[i]? = some x := by
  induction cols generalizing res res' with
  | nil => obtain ⟨x, hx⟩ := hk; exact ⟨x, hx, h x hx⟩
  | cons d cols ih =>
    obtain ⟨x, hx⟩ := hk
    have hx' := h x hx
    rw [List.foldl_cons, List.foldl_cons]
    by_cases hd : c = d
    · subst hd
      have e1 : (subColM gm res c c)[i]? = some (some (x - g)) := by
        simp [subColM, List.getElem?_zipWith, hx, h1, subM]
      have e2 : (subCol gf res' c c)[i]? = some (x - g) := by
        simp [subCol, List.getElem?_zipWith, hx', h2]
      apply ih
      · intro y hy; rw [e1] at hy; cases hy; exact e2
      · exact ⟨_, e1⟩
    · apply ih
      · intro y hy
        simp only [subColM, if_neg hd] at hy
        simpa only [subCol, if_neg hd] using h y hy
      · exact ⟨x, by simpa only [subColM, if_neg hd] using hx⟩

theorem foldl_subColM_none (gm : List (Option K)) (i : ℕ) (h1 : gm[i]? = some none) (cols : List Col)
    (res : Frame (Option K)) (c : Col) (hc : c ∈ cols) (hi : i < (res c).length) :
    (cols.foldl (subColM gm) res c)[i]? = some none := by
  have key : ∀ (cols : List Col) (res : Frame (Option K)), (res c)[i]? = some none →
      (cols.foldl (subColM gm) res c)[i]? = some none := by
    intro cols
    induction cols with
    | nil => intro res h; exact h
    | cons d cols ih =>
      intro res h
      apply ih
      by_cases hd : c = d
      · subst hd; simp [subColM, List.getElem?_zipWith, h, h1, subM]
      · simpa only [subColM, if_neg hd] using h
  induction cols generalizing res with
  | nil => cases hc
  | cons d cols ih =>
    rw [List.foldl_cons]
    by_cases hd : c = d
    · subst hd
      apply key
      obtain ⟨o, ho⟩ : ∃ o, (res c)[i]? = some o := ⟨_, List.getElem?_eq_getElem hi⟩
      cases o <;> simp [subColM, List.getElem?_zipWith, ho, h1, subM]
    · apply ih
      · exact (List.mem_cons.mp hc).resolve_left hd
      · simpa only [subColM, if_neg hd] using hi

/-- The adjustment does not need a missing price: the opens of the rolls, the closes before them and, to match the end, the
close of the last bar but one are known. -/
structure RollsKnown (bars : Frame (Option K)) (contracts : List C) (matchEnd : Bool) : Prop where
  opens : ∀ i, rollAt contracts i = true → KnownAt (bars .open) i
  closes : ∀ i, rollAt contracts i = true → KnownAt (bars .close) (i - 1)
  last : matchEnd = true → KnownAt (bars .close) (contracts.length - 2)

/-- C364.  If the prices at the rolls are known, and to match the end the close of the last bar but one, every price of a bar
with known close is adjusted as for any prices in the gaps (missing from the full claim: these prices missing). -/
theorem C364_known_partial (bars : Frame (Option K)) (f : Frame K) (contracts : List C) (cols : List Col) (matchEnd : Bool)
    (hl : ∀ c, (bars c).length = contracts.length) (hf : FillsFrame f bars) (hn : 2 ≤ contracts.length)
    (hr : RollsKnown bars contracts matchEnd) :
    ∃ res res', adjustRolledSeriesM bars contracts cols matchEnd = .ok res ∧
      adjustRolledSeries f contracts cols matchEnd = .ok res' ∧
      ∀ c i, KnownAt (bars c) i → KnownAt (bars .close) i →
        ∃ x, (res c)[i]? = some (some x) ∧ (res' c)[i]? = some x := by
  have hff : FrameOk f contracts := fun c => by rw [(hf c).1, hl]
  have hraw : (List.range (bars .close).length).mapM (rawGapM bars contracts) =
      .ok ((List.range contracts.length).map (gapVal bars contracts)) := by
    rw [hl]
    exact mapM_ok_of_forall _ _ _ fun i hi => rawGapM_ok bars contracts hl i (List.mem_range.mp hi)
  have hraw' : (List.range (f .close).length).mapM (rawGap f contracts) =
      .ok ((List.range contracts.length).map (jump f contracts)) := by
    rw [hff]
    exact mapM_ok_of_forall _ _ _ fun i hi => rawGap_ok f contracts hff i (List.mem_range.mp hi)
  have hval : ∀ i, gapVal bars contracts i = some (jump f contracts i) ∨
      (gapVal bars contracts i = none ∧ jump f contracts i = 0) := by
    intro i
    unfold gapVal jump
    by_cases h : rollAt contracts i = true
    · rw [if_pos h, if_pos h, getD_fill hf (hr.opens i h), getD_fill hf (hr.closes i h)]
      exact Or.inl rfl
    · rw [if_neg h, if_neg h]
      cases (bars .close).getD i none
      · exact Or.inr ⟨rfl, rfl⟩
      · exact Or.inl rfl
  have hrel : List.Forall₂ (fun a b => a = some b ∨ (a = none ∧ b = 0))
      ((List.range contracts.length).map (gapVal bars contracts)) ((List.range contracts.length).map (jump f contracts)) := by
    rw [List.forall₂_map_left_iff, List.forall₂_map_right_iff, List.forall₂_same]
    exact fun i _ => hval i
  have hlen : ∀ i, KnownAt (bars .close) i → i < contracts.length := by
    rintro i ⟨x, hx⟩
    rw [← hl .close]
    exact (List.getElem?_eq_some_iff.mp hx).1
  have hknown : ∀ i, KnownAt (bars .close) i → gapVal bars contracts i = some (jump f contracts i) := by
    intro i hk
    unfold gapVal jump
    by_cases h : rollAt contracts i = true
    · rw [if_pos h, if_pos h, getD_fill hf (hr.opens i h), getD_fill hf (hr.closes i h)]; rfl
    · rw [if_neg h, if_neg h, getD_fill hf hk]; rfl
  have hcum : ∀ i, KnownAt (bars .close) i → ∃ g,
      (cumsumSkip 0 ((List.range contracts.length).map (gapVal bars contracts)))[i]? = some (some g) ∧
      (cumsum ((List.range contracts.length).map (jump f contracts)))[i]? = some g := by
    intro i hk
    have hi := hlen i hk
    have h1 := (cumsumSkip_agree _ _ hrel 0 i).2 (jump f contracts i)
      (by rw [List.getElem?_map, List.getElem?_range hi, Option.map_some, hknown i hk])
    have h2 : i < (cumsumFrom 0 ((List.range contracts.length).map (jump f contracts))).length := by
      rw [cumsumFrom_length]; simpa using hi
    refine ⟨_, ?_, List.getElem?_eq_getElem h2⟩
    rw [h1, List.getElem?_eq_getElem h2]; rfl
  unfold adjustRolledSeriesM adjustRolledSeries computeRollGapsM computeRollGaps
  rw [hraw, hraw']
  simp only [py_bind_ok]
  cases matchEnd with
  | false =>
    refine ⟨_, _, rfl, rfl, ?_⟩
    intro c i hc hk
    obtain ⟨g, h1, h2⟩ := hcum i hk
    exact foldl_subColM_agree _ _ i g h1 h2 cols bars f c ((hf c).2 i) hc
  | true =>
    obtain ⟨e, he1, he2⟩ := hcum _ (hr.last rfl)
    have hs1 : secondLastM (cumsumSkip 0 ((List.range contracts.length).map (gapVal bars contracts))) = .ok (some e) := by
      unfold secondLastM
      rw [cumsumSkip_length, List.length_map, List.length_range, if_neg (by omega), pyGet_eq_ok_iff]
      exact he1
    have hs2 : ilocM2 (cumsum ((List.range contracts.length).map (jump f contracts))) = .ok e := by
      unfold ilocM2
      rw [show (cumsum ((List.range contracts.length).map (jump f contracts))).length = contracts.length by
        unfold cumsum; rw [cumsumFrom_length]; simp, if_neg (by omega), pyGet_eq_ok_iff]
      exact he2
    simp only [if_true, hs1, hs2, py_bind_ok]
    refine ⟨_, _, rfl, rfl, ?_⟩
    intro c i hc hk
    obtain ⟨g, h1, h2⟩ := hcum i hk
    refine foldl_subColM_agree _ _ i (g - e) ?_ ?_ cols bars f c ((hf c).2 i) hc
    · rw [List.getElem?_map, h1]; rfl
    · rw [List.getElem?_map, h2]; rfl

/-- C364.  With the end matched and no close at the last bar but one, which is not a roll, all adjusted columns are NaN. -/
theorem C364_last (bars : Frame (Option K)) (contracts : List C) (cols : List Col)
    (hl : ∀ c, (bars c).length = contracts.length) (hn : 2 ≤ contracts.length)
    (hr : rollAt contracts (contracts.length - 2) = false) (hm : (bars .close)[contracts.length - 2]? = some none) :
    ∃ res, adjustRolledSeriesM bars contracts cols true = .ok res ∧
      (∀ c ∈ cols, ∀ i, i < contracts.length → (res c)[i]? = some none) := by
  have hraw : (List.range (bars .close).length).mapM (rawGapM bars contracts) =
      .ok ((List.range contracts.length).map (gapVal bars contracts)) := by
    rw [hl]
    exact mapM_ok_of_forall _ _ _ fun i hi => rawGapM_ok bars contracts hl i (List.mem_range.mp hi)
  have hnone : gapVal bars contracts (contracts.length - 2) = none := by
    unfold gapVal
    rw [if_neg (by rw [hr]; decide), List.getD_eq_getElem?_getD, hm]; rfl
  have hrel : List.Forall₂ (fun a b => a = some b ∨ (a = none ∧ b = 0))
      ((List.range contracts.length).map (gapVal bars contracts))
      ((List.range contracts.length).map fun i => (gapVal bars contracts i).getD 0) := by
    rw [List.forall₂_map_left_iff, List.forall₂_map_right_iff, List.forall₂_same]
    intro i _
    cases gapVal bars contracts i
    · exact Or.inr ⟨rfl, rfl⟩
    · exact Or.inl rfl
  have hs : secondLastM (cumsumSkip 0 ((List.range contracts.length).map (gapVal bars contracts))) = .ok none := by
    unfold secondLastM
    rw [cumsumSkip_length, List.length_map, List.length_range, if_neg (by omega), pyGet_eq_ok_iff]
    apply (cumsumSkip_agree _ _ hrel 0 _).1
    rw [List.getElem?_map, List.getElem?_range (by omega), Option.map_some, hnone]
  unfold adjustRolledSeriesM computeRollGapsM
  rw [hraw]
  simp only [py_bind_ok, if_true, hs]
  refine ⟨_, rfl, ?_⟩
  intro c hc i hi
  apply foldl_subColM_none _ _ _ _ _ _ hc (by rw [hl]; exact hi)
  have h2 : i < (cumsumSkip 0 ((List.range contracts.length).map (gapVal bars contracts))).length := by
    rw [cumsumSkip_length]; simpa using hi
  rw [List.getElem?_map, List.getElem?_eq_getElem h2, Option.map_some]
  cases (cumsumSkip 0 ((List.range contracts.length).map (gapVal bars contracts)))[i] <;> rfl

/-- Two contracts, a missing close in the first. -/
def rolledOnce : Frame (Option ℚ) := fun c =>
  if c = .close then [some 10, none, some 12, some 21, some 22] else [some 10, some 10, some 11, some 20, some 22]

/-- The case meets the hypotheses of `C364_known_partial`; the gap is 8. -/
example : RollsKnown rolledOnce ["H", "H", "H", "M", "M"] false ∧
    (adjustRolledSeriesM rolledOnce ["H", "H", "H", "M", "M"] [.close] false).map (fun r => r .close) =
      .ok [some 10, none, some 12, some 13, some 14] := by
  refine ⟨⟨?_, ?_, fun h => by cases h⟩, by decide +kernel⟩
  · intro i hi
    match i, hi with
    | 0, h => exact absurd h (by decide)
    | 1, h => exact absurd h (by decide)
    | 2, h => exact absurd h (by decide)
    | 3, _ => exact ⟨20, by decide +kernel⟩
    | 4, h => exact absurd h (by decide)
    | n + 5, h => exact absurd h (by simp [rollAt])
  · intro i hi
    match i, hi with
    | 0, h => exact absurd h (by decide)
    | 1, h => exact absurd h (by decide)
    | 2, h => exact absurd h (by decide)
    | 3, _ => exact ⟨12, by decide +kernel⟩
    | 4, h => exact absurd h (by decide)
    | n + 5, h => exact absurd h (by simp [rollAt])

/-- Two contracts, no close before the roll. -/
def noCloseAtRoll : Frame (Option ℚ) := fun c =>
  if c = .close then [some 10, none, some 20, some 20] else [some 10, some 10, some 20, some 20]

/-- C364.  If at every roll the open or the close before is missing, nothing is removed: from the start, the prices of bars
with known close that are no roll stay as they are. -/
theorem C364_roll (bars : Frame (Option K)) (contracts : List C) (cols : List Col)
    (hl : ∀ c, (bars c).length = contracts.length)
    (hr : ∀ i, rollAt contracts i = true → (bars .open)[i]? = some none ∨ (bars .close)[i - 1]? = some none) :
    ∃ res, adjustRolledSeriesM bars contracts cols false = .ok res ∧
      ∀ c i x, (bars c)[i]? = some (some x) → KnownAt (bars .close) i → rollAt contracts i = false →
        (res c)[i]? = some (some x) := by
  have hraw : (List.range (bars .close).length).mapM (rawGapM bars contracts) =
      .ok ((List.range contracts.length).map (gapVal bars contracts)) := by
    rw [hl]
    exact mapM_ok_of_forall _ _ _ fun i hi => rawGapM_ok bars contracts hl i (List.mem_range.mp hi)
  have hrel : List.Forall₂ (fun a b => a = some b ∨ (a = none ∧ b = 0))
      ((List.range contracts.length).map (gapVal bars contracts))
      ((List.range contracts.length).map fun _ => (0 : K)) := by
    rw [List.forall₂_map_left_iff, List.forall₂_map_right_iff, List.forall₂_same]
    intro i _
    unfold gapVal
    by_cases h : rollAt contracts i = true
    · rw [if_pos h]
      right
      refine ⟨?_, rfl⟩
      rcases hr i h with ho | hc
      · rw [List.getD_eq_getElem?_getD, ho]; rfl
      · rw [List.getD_eq_getElem?_getD (l := bars .close), hc]
        cases (bars .open).getD i none <;> rfl
    · rw [if_neg h]
      cases (bars .close).getD i none
      · exact Or.inr ⟨rfl, rfl⟩
      · exact Or.inl rfl
  have hz : ∀ (n i : ℕ), i < n → (cumsumFrom (0 : K) (List.replicate n 0))[i]? = some 0 := by
    intro n
    induction n with
    | zero => intro i h; omega
    | succ n ih =>
      intro i h
      cases i with
      | zero => simp [List.replicate_succ, cumsumFrom]
      | succ i =>
        rw [List.replicate_succ, cumsumFrom, add_zero, List.getElem?_cons_succ]
        exact ih i (by omega)
  unfold adjustRolledSeriesM computeRollGapsM
  rw [hraw]
  simp only [py_bind_ok]
  refine ⟨_, rfl, ?_⟩
  rintro c i x hx ⟨y, hy⟩ hroll
  have hi : i < contracts.length := by
    rw [← hl .close]; exact (List.getElem?_eq_some_iff.mp hy).1
  have hg : gapVal bars contracts i = some 0 := by
    unfold gapVal
    rw [if_neg (by rw [hroll]; decide), List.getD_eq_getElem?_getD, hy]; rfl
  have h1 := (cumsumSkip_agree _ _ hrel 0 i).2 0
    (by rw [List.getElem?_map, List.getElem?_range hi, Option.map_some, hg])
  have e : ((List.range contracts.length).map fun _ => (0 : K)) = List.replicate contracts.length 0 := by simp
  rw [e, hz _ _ hi, Option.map_some] at h1
  have key : ∀ (cols : List Col) (res : Frame (Option K)), (res c)[i]? = some (some x) →
      (cols.foldl (subColM (cumsumSkip 0 ((List.range contracts.length).map (gapVal bars contracts)))) res c)[i]? =
        some (some x) := by
    intro cols
    induction cols with
    | nil => intro res h; exact h
    | cons d cols ih =>
      intro res h
      apply ih
      by_cases hd : c = d
      · subst hd; simp [subColM, List.getElem?_zipWith, h, h1, subM]
      · simpa only [subColM, if_neg hd] using h
  exact key cols bars hx

/-- Without the close before the roll the bar of the roll is NaN, and the jump of 10 stays in the series. -/
example : (adjustRolledSeriesM noCloseAtRoll ["H", "H", "M", "M"] [.close] false).map (fun r => r .close) =
    .ok [some 10, none, none, some 20] := by decide +kernel

end FinML.Basket
