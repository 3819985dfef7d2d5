import Verif.Basket.GapModel
import Verif.Py.Lemmas
import Mathlib.Tactic.Linarith
import Mathlib.Tactic.NormNum
import Mathlib.Data.Rat.Floor

/-! # Basket values with missing prices (C361) -/

namespace FinML.Basket

set_option linter.unusedSectionVars false

variable {K : Type} [Field K] [LinearOrder K] [IsStrictOrderedRing K] {m : ℕ}

/-- The same arguments with prices in the gaps. -/
structure FillsInput (f : Input K m) (inp : InputM K m) : Prop where
  num : f.num = inp.num
  weights : f.weights = inp.weights
  fx : f.fx = inp.fx
  volumes : f.volumes = inp.volumes
  dividends : f.dividends = inp.dividends
  rebal : f.rebal = inp.rebal
  opens : ∀ t i x, inp.opens t i = some x → f.opens t i = x
  closes : ∀ t i x, inp.closes t i = some x → f.closes t i = x

/-- C361, the full claim: the values of a basket with missing prices are NaN or those for some prices in their place. -/
def ValuesOfSomeFill (K : Type) [Field K] [LinearOrder K] [IsStrictOrderedRing K] : Prop :=
  ∀ (m : ℕ) (inp : InputM K m) (vals : List (Option K)) (vols : List (Flt K)), basketToEtfM inp = .ok (vals, vols) →
    ∀ (t : ℕ) (v : K), vals[t]? = some (some v) →
    ∃ f vals' vols', FillsInput f inp ∧ basketToEtf f = .ok (vals', vols') ∧ vals'[t]? = some (some v)

/-- One instrument with the closes 1, NaN and 2. -/
def doubled : InputM ℚ 1 where
  num := 3
  weights := fun _ _ => 1
  opens := fun _ _ => some 1
  closes := fun t _ => if t = 0 then some 1 else if t = 1 then none else some 2
  fx := fun _ _ => 1
  volumes := fun _ _ => 1
  dividends := fun _ _ => 0
  rebal := []

/-- C361.  An instrument that doubles over a bar without close leaves the value at 1. -/
theorem C361_counterexample : ¬ ValuesOfSomeFill ℚ := by
  intro h
  obtain ⟨f, vals', vols', hf, he, hv⟩ := h 1 doubled _ _ rfl 2 1 (by decide +kernel)
  unfold basketToEtf at he
  rw [hf.num, if_neg (by decide), if_neg (by decide)] at he
  cases he
  rw [List.getElem?_map, List.getElem?_range (by decide), Option.map_some, Option.some.injEq] at hv
  have c0 : f.closes 0 0 = 1 := hf.closes 0 0 1 rfl
  have c2 : f.closes 2 0 = 2 := hf.closes 2 0 2 rfl
  have hw : f.weights = fun _ _ => 1 := hf.weights
  have hx : f.fx = fun _ _ => 1 := hf.fx
  have hd : f.dividends = fun _ _ => 0 := hf.dividends
  have hr : f.rebal = [] := hf.rebal
  simp [stateAt, stepState, initState, netChange, isAfter, hw, hx, hd, hr, c0, c2, oadd, omul, odiv, osum, sumAbs, fdiv] at hv

/-- C361.  Up to a bar the values and holdings are those for any prices in the gaps if all closes until there are known, and the
opening prices after rebalances (missing from the full claim: values after a gap). -/
theorem C361_before_partial (f : Input K m) (inp : InputM K m) (hf : FillsInput f inp) (t : ℕ)
    (hc : ∀ s ≤ t, ∀ i, inp.closes s i ≠ none) (ho : ∀ s ≤ t, (s : ℤ) ∈ inp.rebal → ∀ i, inp.opens (s + 1) i ≠ none) :
    stateAtM inp t = stateAt f t := by
  have hcl : ∀ s ≤ t, ∀ i, inp.closes s i = some (f.closes s i) := by
    intro s hs i
    obtain ⟨x, hx⟩ := Option.ne_none_iff_exists'.1 (hc s hs i)
    rw [hx, hf.closes s i x hx]
  have hop : ∀ s ≤ t, (s : ℤ) ∈ inp.rebal → ∀ i, inp.opens (s + 1) i = some (f.opens (s + 1) i) := by
    intro s hs hr i
    obtain ⟨x, hx⟩ := Option.ne_none_iff_exists'.1 (ho s hs hr i)
    rw [hx, hf.opens (s + 1) i x hx]
  clear hc ho
  induction t with
  | zero =>
    unfold stateAtM stateAt initStateM initState
    rw [hf.weights, hf.fx]
    congr 1
    funext i
    rw [hcl 0 le_rfl i]
    rfl
  | succ t ih =>
    have ih' := ih (fun s hs => hcl s (by omega)) (fun s hs => hop s (by omega))
    have hn : ∀ i, netChangeM inp (t + 1) i = some (netChange f (t + 1) i) := by
      intro i
      unfold netChangeM netChange isAfter
      rw [hf.rebal, hf.dividends]
      by_cases hr : (inp.rebal.map (· + 1)).contains ((t + 1 : ℕ) : ℤ) = true
      · have hm : (t : ℤ) ∈ inp.rebal := by
          rw [List.contains_iff_mem, List.mem_map] at hr
          obtain ⟨z, hz, he⟩ := hr
          have : z = (t : ℤ) := by push_cast at he; linarith
          rw [← this]; exact hz
        simp only [if_pos hr, hcl (t + 1) le_rfl i, hop t (by omega) hm i]
        rfl
      · simp only [if_neg hr, barToBarM, hcl (t + 1) le_rfl i, hcl t (by omega) i]
        rfl
    unfold stateAtM stateAt
    rw [ih']
    unfold stepStateM stepState
    simp only [hn, hf.weights, hf.fx, hf.num, hf.rebal]
    by_cases hr : t + 1 + 1 < inp.num ∧ ((t + 1 : ℕ) : ℤ) ∈ inp.rebal
    · rw [if_pos hr, if_pos hr]
      congr 1
      funext i
      rw [hop (t + 1) le_rfl hr.2 i]
      rfl
    · rw [if_neg hr, if_neg hr]

/-- C361.  With all prices known the values are those of C16. -/
theorem C361_complete (f : Input K m) :
    basketToEtfM ⟨f.num, f.weights, fun t i => some (f.opens t i), fun t i => some (f.closes t i), f.fx, f.volumes, f.dividends,
      f.rebal⟩ = basketToEtf f := by
  have h := fun t => C361_before_partial f ⟨f.num, f.weights, fun t i => some (f.opens t i), fun t i => some (f.closes t i),
    f.fx, f.volumes, f.dividends, f.rebal⟩ ⟨rfl, rfl, rfl, rfl, rfl, rfl, fun t i x hx => Option.some_inj.1 hx,
      fun t i x hx => Option.some_inj.1 hx⟩ t (by simp) (by simp)
  unfold basketToEtfM basketToEtf volumeAt
  simp only [h]

/-- C361.  A missing close takes the changes to and from it out of the value: the instrument contributes its dividend only. -/
theorem C361_gap (inp : InputM K m) (t : ℕ) (i : Fin m) (h : inp.closes (t + 1) i = none ∨ inp.closes t i = none)
    (hr : (t : ℤ) ∉ inp.rebal) : netChangeM inp (t + 1) i = some (inp.dividends (t + 1) i) := by
  have hc : ¬ (inp.rebal.map (· + 1)).contains ((t + 1 : ℕ) : ℤ) = true := by
    rw [List.contains_iff_mem, List.mem_map]
    rintro ⟨z, hz, he⟩
    have : z = (t : ℤ) := by push_cast at he; linarith
    exact hr (this ▸ hz)
  unfold netChangeM
  rw [if_neg hc]
  have : barToBarM inp (t + 1) i = 0 := by
    unfold barToBarM osubM
    rcases h with h | h
    · simp only [h]; rfl
    · simp only [h]; cases inp.closes (t + 1) i <;> rfl
  rw [this]
  simp [oadd]

theorem osum_none (row : Fin m → Option K) (i : Fin m) (h : row i = none) : osum row = none := by
  unfold osum
  have : none ∈ List.ofFn row := by rw [List.mem_ofFn]; exact ⟨i, h⟩
  generalize List.ofFn row = l at this
  induction l with
  | nil => simp at this
  | cons a l ih =>
    rw [List.foldr_cons]
    rcases List.mem_cons.1 this with rfl | h
    · rfl
    · rw [ih h]; cases a <;> rfl

/-- C361.  A value that is NaN stays so. -/
theorem C361_forever (inp : InputM K m) (t s : ℕ) (h : (stateAtM inp t).value = none) (hs : t ≤ s) :
    (stateAtM inp s).value = none := by
  induction s, hs using Nat.le_induction with
  | base => exact h
  | succ s _ ih =>
    unfold stateAtM stepStateM
    simp only [ih]
    rfl

/-- C361.  An opening price missing after a rebalance makes all later values NaN, even for an instrument without weight. -/
theorem C361_open (inp : InputM K m) (t s : ℕ) (i : Fin m) (ht : 1 ≤ t) (hr : (t : ℤ) ∈ inp.rebal) (hn : t + 1 < inp.num)
    (ho : inp.opens (t + 1) i = none) (hs : t < s) : (stateAtM inp s).value = none := by
  apply C361_forever inp (t + 1) s ?_ hs
  obtain ⟨u, rfl⟩ : ∃ u, t = u + 1 := ⟨t - 1, by omega⟩
  have hh : (stateAtM inp (u + 1)).holdings i = none := by
    unfold stateAtM stepStateM
    simp only []
    rw [if_pos ⟨hn, hr⟩, ho]
    simp [omul, odiv]
  rw [stateAtM]
  unfold stepStateM
  simp only []
  rw [osum_none _ i (by rw [hh]; rfl)]
  cases (stateAtM inp (u + 1)).value <;> rfl

/-- C361.  A close missing on the bar after a rebalance makes the values from there on NaN: only the changes from bar to bar are
filled. -/
theorem C361_close (inp : InputM K m) (t s : ℕ) (i : Fin m) (hr : (t : ℤ) ∈ inp.rebal) (hc : inp.closes (t + 1) i = none)
    (hs : t < s) : (stateAtM inp s).value = none := by
  apply C361_forever inp (t + 1) s ?_ hs
  have hm : (inp.rebal.map (· + 1)).contains ((t + 1 : ℕ) : ℤ) = true := by
    rw [List.contains_iff_mem, List.mem_map]
    exact ⟨t, hr, by push_cast; rfl⟩
  have hn : netChangeM inp (t + 1) i = none := by
    unfold netChangeM
    rw [if_pos hm, hc]; rfl
  rw [stateAtM]
  unfold stepStateM
  simp only []
  rw [osum_none _ i (by rw [hn]; cases (stateAtM inp t).holdings i <;> rfl)]
  cases (stateAtM inp t).value <;> rfl

/-- A close missing right after a rebalance, and the next bar. -/
example : (stateAtM (K := ℚ) (m := 1) ⟨4, fun _ _ => 1, fun _ _ => some 1, fun t _ => if t = 2 then none else some 1,
    fun _ _ => 1, fun _ _ => 1, fun _ _ => 0, [1]⟩ 3).value = none :=
  C361_close _ 1 3 0 (by simp) rfl (by norm_num)

/-- The gap of the counterexample comes after the first bar. -/
example : stateAtM doubled 0 = stateAt ⟨3, fun _ _ => 1, fun _ _ => 1, fun t _ => if t = 0 then 1 else if t = 1 then 5 else 2,
    fun _ _ => 1, fun _ _ => 1, fun _ _ => 0, []⟩ 0 ∧ netChangeM doubled 1 0 = some 0 ∧ netChangeM doubled 2 0 = some 0 := by
  refine ⟨C361_before_partial _ _ ⟨rfl, rfl, rfl, rfl, rfl, rfl, fun t i x hx => Option.some_inj.1 hx, ?_⟩ 0 ?_ ?_,
    C361_gap _ _ _ (Or.inl rfl) (by simp [doubled]), C361_gap _ _ _ (Or.inr rfl) (by simp [doubled])⟩
  · intro t i x hx
    simp only [doubled] at hx
    simp only
    split_ifs at hx ⊢ <;> exact Option.some_inj.1 hx
  · intro s hs i
    rw [Nat.le_zero.1 hs]
    simp [doubled]
  · simp [doubled]

/-- A missing opening price of an instrument without weight. -/
example : (stateAtM (K := ℚ) (m := 2) ⟨4, fun _ i => if i = 0 then 1 else 0, fun _ i => if i = 0 then some 1 else none,
    fun _ _ => some 1, fun _ _ => 1, fun _ _ => 1, fun _ _ => 0, [1]⟩ 3).value = none :=
  C361_open _ 1 3 1 le_rfl (by simp) (by norm_num) rfl (by norm_num)

end FinML.Basket
