import Verif.Basket.Spec
import Verif.Py.Lemmas

/-! # Helper lemmas for the basket model -/

set_option linter.unusedSectionVars false

namespace FinML.Basket

variable {K : Type} [Field K] [LinearOrder K] [IsStrictOrderedRing K] {m : ℕ}

theorem foldr_oadd (l : List K) :
    (l.map (some : K → Option K)).foldr oadd (some 0) = some l.sum := by
  induction l with
  | nil => rfl
  | cons a l ih => rw [List.map_cons, List.foldr_cons, ih, List.sum_cons]; rfl

theorem osum_some (f : Fin m → K) : osum (fun i => some (f i)) = some (∑ i, f i) := by
  unfold osum
  have : List.ofFn (fun i => some (f i)) = (List.ofFn f).map some := by
    rw [List.map_ofFn]; rfl
  rw [this, foldr_oadd, List.sum_ofFn]

theorem sumAbs_eq (inp : Input K m) (t : ℕ) : sumAbs (inp.weights t) = gross inp t := by
  unfold sumAbs gross
  rw [List.sum_ofFn]

theorem isAfter_iff (inp : Input K m) (t : ℕ) :
    isAfter inp t = true ↔ (t : ℤ) - 1 ∈ inp.rebal := by
  unfold isAfter
  rw [List.contains_iff_mem, List.mem_map]
  constructor
  · rintro ⟨a, ha, h⟩
    rw [← h]; simpa using ha
  · intro h
    exact ⟨_, h, by ring⟩

theorem netChange_eq (inp : Input K m) (t : ℕ) (i : Fin m) :
    netChange inp (t + 1) i = priceMove inp (t + 1) i + inp.dividends (t + 1) i := by
  unfold netChange priceMove
  simp only
  congr 1
  by_cases h : ((t + 1 : ℕ) : ℤ) - 1 ∈ inp.rebal
  · rw [if_pos ((isAfter_iff inp (t + 1)).2 h), if_pos h]
  · rw [if_neg h, if_neg (by rw [isAfter_iff]; exact h)]
    rfl

/-- The value at bar `t` (0 if not finite). -/
def V (inp : Input K m) (t : ℕ) : K := (stateAt inp t).value.getD 0
/-- The holdings after bar `t` (0 if not finite). -/
def H (inp : Input K m) (t : ℕ) (i : Fin m) : K := ((stateAt inp t).holdings i).getD 0

theorem effRebal_iff (inp : Input K m) (t : ℕ) :
    EffRebal inp (t + 1) ↔ (t + 1 + 1 < inp.num ∧ ((t + 1 : ℕ) : ℤ) ∈ inp.rebal) := by
  unfold EffRebal
  constructor
  · rintro ⟨_, h⟩; exact h
  · intro h; exact ⟨by omega, h⟩

theorem fdiv_ne {a b : K} (h : b ≠ 0) : fdiv a b = some (a / b) := if_neg h

/-- Values and holdings stay finite. -/
theorem state_finite (inp : Input K m) (hw : WellFormed inp) (t : ℕ) :
    (stateAt inp t).value = some (V inp t) ∧
      ∀ i, (stateAt inp t).holdings i = some (H inp t i) := by
  have key : ∀ t, ∃ (v : K) (h : Fin m → K), (stateAt inp t).value = some v ∧
      ∀ i, (stateAt inp t).holdings i = some (h i) := by
    intro t
    induction t with
    | zero =>
      refine ⟨1, fun i => inp.weights 0 i * 1 / gross inp 0 / (inp.closes 0 i * inp.fx 0 i), rfl, ?_⟩
      intro i
      show odiv (odiv (omul _ _) _) _ = _
      rw [sumAbs_eq]
      simp only [odiv, omul, Option.bind_some, Option.map_some, fdiv_ne hw.gross0,
        fdiv_ne (hw.price0 i)]
    | succ t ih =>
      obtain ⟨v, h, hv, hh⟩ := ih
      have hval : (stateAt inp (t + 1)).value = some (v + ∑ i,
          h i * netChange inp (t + 1) i * inp.fx (t + 1) i) := by
        show oadd (stateAt inp t).value (osum _) = _
        simp only [hv, hh]
        have : (fun i => omul (omul (some (h i)) (some (netChange inp (t + 1) i)))
            (some (inp.fx (t + 1) i))) =
            fun i => some (h i * netChange inp (t + 1) i * inp.fx (t + 1) i) := rfl
        rw [this, osum_some]
        rfl
      by_cases hr : EffRebal inp (t + 1)
      · refine ⟨_, fun i => inp.weights (t + 1) i * (v + ∑ i,
          h i * netChange inp (t + 1) i * inp.fx (t + 1) i) / gross inp (t + 1) /
          (inp.opens (t + 1 + 1) i * inp.fx (t + 1) i), hval, ?_⟩
        intro i
        show (if t + 1 + 1 < inp.num ∧ ((t + 1 : ℕ) : ℤ) ∈ inp.rebal then
          fun i => odiv (odiv (omul (some (inp.weights (t + 1) i)) (stateAt inp (t + 1)).value)
            (some (sumAbs (inp.weights (t + 1))))) _ else _) i = _
        rw [if_pos ((effRebal_iff inp t).1 hr), hval, sumAbs_eq]
        simp only [odiv, omul, Option.bind_some, Option.map_some, fdiv_ne (hw.grossR _ hr),
          fdiv_ne (hw.priceR _ hr i)]
      · refine ⟨_, h, hval, ?_⟩
        intro i
        show (if t + 1 + 1 < inp.num ∧ ((t + 1 : ℕ) : ℤ) ∈ inp.rebal then _
          else (stateAt inp t).holdings) i = _
        rw [if_neg (fun h => hr ((effRebal_iff inp t).2 h)), hh]
  obtain ⟨v, h, hv, hh⟩ := key t
  refine ⟨?_, ?_⟩
  · rw [V, hv]; rfl
  · intro i; rw [H, hh]; rfl

theorem V_zero (inp : Input K m) : V inp 0 = 1 := rfl

theorem V_succ (inp : Input K m) (hw : WellFormed inp) (t : ℕ) :
    V inp (t + 1) = V inp t + profit inp (H inp t) (t + 1) := by
  have hval : (stateAt inp (t + 1)).value = some (V inp t + ∑ i,
      H inp t i * netChange inp (t + 1) i * inp.fx (t + 1) i) := by
    show oadd (stateAt inp t).value (osum _) = _
    obtain ⟨h1, h2⟩ := state_finite inp hw t
    simp only [h1, h2]
    have : (fun i => omul (omul (some (H inp t i)) (some (netChange inp (t + 1) i)))
        (some (inp.fx (t + 1) i))) =
        fun i => some (H inp t i * netChange inp (t + 1) i * inp.fx (t + 1) i) := rfl
    rw [this, osum_some]
    rfl
  unfold profit
  have := (state_finite inp hw (t + 1)).1
  rw [hval] at this
  rw [← Option.some.inj this]
  simp only [netChange_eq]

theorem H_zero (inp : Input K m) (hw : WellFormed inp) (i : Fin m) :
    H inp 0 i = inp.weights 0 i / gross inp 0 / (inp.closes 0 i * inp.fx 0 i) := by
  have h1 := (state_finite inp hw 0).2 i
  have h2 : (stateAt inp 0).holdings i =
      some (inp.weights 0 i * 1 / gross inp 0 / (inp.closes 0 i * inp.fx 0 i)) := by
    show odiv (odiv (omul _ _) _) _ = _
    rw [sumAbs_eq]
    simp only [odiv, omul, Option.bind_some, Option.map_some, fdiv_ne hw.gross0,
      fdiv_ne (hw.price0 i)]
  rw [h1, mul_one] at h2
  exact Option.some.inj h2

theorem H_rebal (inp : Input K m) (hw : WellFormed inp) (t : ℕ) (hr : EffRebal inp t) (i : Fin m) :
    H inp t i = inp.weights t i * V inp t / gross inp t / (inp.opens (t + 1) i * inp.fx t i) := by
  cases t with
  | zero => exact absurd hr.1 (by omega)
  | succ t =>
    have h1 := (state_finite inp hw (t + 1)).2 i
    have h2 : (stateAt inp (t + 1)).holdings i = some (inp.weights (t + 1) i * V inp (t + 1) /
        gross inp (t + 1) / (inp.opens (t + 1 + 1) i * inp.fx (t + 1) i)) := by
      show (if t + 1 + 1 < inp.num ∧ ((t + 1 : ℕ) : ℤ) ∈ inp.rebal then
          fun i => odiv (odiv (omul (some (inp.weights (t + 1) i)) (stateAt inp (t + 1)).value)
            (some (sumAbs (inp.weights (t + 1))))) _ else _) i = _
      rw [if_pos ((effRebal_iff inp t).1 hr), (state_finite inp hw (t + 1)).1, sumAbs_eq]
      simp only [odiv, omul, Option.bind_some, Option.map_some, fdiv_ne (hw.grossR _ hr),
        fdiv_ne (hw.priceR _ hr i)]
    rw [h1] at h2
    exact Option.some.inj h2

theorem H_keep (inp : Input K m) (t : ℕ) (hr : ¬ EffRebal inp (t + 1)) (i : Fin m) :
    H inp (t + 1) i = H inp t i := by
  unfold H
  show ((if t + 1 + 1 < inp.num ∧ ((t + 1 : ℕ) : ℤ) ∈ inp.rebal then _
    else (stateAt inp t).holdings) i).getD 0 = _
  rw [if_neg (fun h => hr ((effRebal_iff inp t).2 h))]

theorem held (inp : Input K m) (hw : WellFormed inp) (t : ℕ) (i : Fin m) :
    Held inp (V inp) t i (H inp t i) := by
  induction t with
  | zero =>
    right
    refine ⟨fun u hu hr => absurd hr.1 (by omega), ?_⟩
    rw [H_zero inp hw, div_mul_cancel₀ _ (hw.price0 i)]
  | succ t ih =>
    by_cases hr : EffRebal inp (t + 1)
    · left
      refine ⟨t + 1, ⟨le_refl _, hr, fun u h1 h2 => by omega⟩, ?_⟩
      rw [H_rebal inp hw _ hr, div_mul_cancel₀ _ (hw.priceR _ hr i)]
      ring
    · rw [Held, H_keep inp t hr i]
      rcases ih with ⟨s, ⟨h1, h2, h3⟩, h4⟩ | ⟨h1, h2⟩
      · left
        refine ⟨s, ⟨by omega, h2, fun u hu hu' => ?_⟩, h4⟩
        rcases Nat.lt_or_ge t u with h | h
        · have : u = t + 1 := by omega
          rw [this]; exact hr
        · exact h3 u hu h
      · right
        refine ⟨fun u hu => ?_, h2⟩
        rcases Nat.lt_or_ge t u with h | h
        · have : u = t + 1 := by omega
          rw [this]; exact hr
        · exact h1 u h

theorem basketToEtf_eq (inp : Input K m) (hw : WellFormed inp) :
    basketToEtf inp = .ok ((List.range inp.num).map fun t => some (V inp t),
      (List.range inp.num).map (volumeAt inp)) := by
  unfold basketToEtf
  rw [if_neg hw.bars.ne', if_neg hw.instr.ne']
  congr 2
  apply List.map_congr_left
  intro t _
  exact (state_finite inp hw t).1

theorem V_sum (inp : Input K m) (hw : WellFormed inp) (t : ℕ) :
    V inp t = 1 + ∑ s ∈ Finset.range t, profit inp (H inp s) (s + 1) := by
  induction t with
  | zero => rw [V_zero]; simp
  | succ t ih => rw [V_succ inp hw, Finset.sum_range_succ, ih]; ring

/-! ### Scaling weights -/

theorem gross_scale (c : ℕ → K) (inp : Input K m) (t : ℕ) (hc : 0 < c t) :
    gross (scaleWeights c inp) t = c t * gross inp t := by
  unfold gross scaleWeights
  rw [Finset.mul_sum]
  apply Finset.sum_congr rfl
  intro i _
  rw [abs_mul, abs_of_pos hc]

theorem fdiv_scale (c a b : K) (hc : c ≠ 0) : fdiv (c * a) (c * b) = fdiv a b := by
  unfold fdiv
  by_cases hb : b = 0
  · simp [hb]
  · rw [if_neg (mul_ne_zero hc hb), if_neg hb, mul_div_mul_left _ _ hc]

theorem buy_scale (c : ℕ → K) (inp : Input K m) (t : ℕ) (hc : 0 < c t) (i : Fin m) (v : Option K) :
    odiv (omul (some ((scaleWeights c inp).weights t i)) v)
        (some (sumAbs ((scaleWeights c inp).weights t))) =
      odiv (omul (some (inp.weights t i)) v) (some (sumAbs (inp.weights t))) := by
  rw [sumAbs_eq, sumAbs_eq, gross_scale c inp t hc]
  cases v with
  | none => rfl
  | some v =>
    show fdiv (c t * inp.weights t i * v) (c t * gross inp t) = fdiv (inp.weights t i * v) _
    rw [mul_assoc, fdiv_scale _ _ _ hc.ne']

theorem stateAt_scale (c : ℕ → K) (inp : Input K m) (hc : ∀ t, 0 < c t) (t : ℕ) :
    stateAt (scaleWeights c inp) t = stateAt inp t := by
  induction t with
  | zero =>
    show initState _ = initState _
    unfold initState
    congr 1
    funext i
    rw [buy_scale c inp 0 (hc 0)]
    rfl
  | succ t ih =>
    show stepState _ _ _ = stepState _ _ _
    rw [ih]
    unfold stepState
    simp only
    congr 1
    show (if t + 1 + 1 < inp.num ∧ ((t + 1 : ℕ) : ℤ) ∈ inp.rebal then _ else _) =
      (if t + 1 + 1 < inp.num ∧ ((t + 1 : ℕ) : ℤ) ∈ inp.rebal then _ else _)
    by_cases h : t + 1 + 1 < inp.num ∧ ((t + 1 : ℕ) : ℤ) ∈ inp.rebal
    · rw [if_pos h, if_pos h]
      funext i
      have := buy_scale c inp (t + 1) (hc _) i
      rw [this]
      rfl
    · rw [if_neg h, if_neg h]

/-! ### Volumes -/

theorem foldr_fltMin (l : List (Flt K)) (hfin : ∀ x ∈ l, x = .pinf ∨ ∃ q, x = .fin q) :
    (l.foldr Flt.min .pinf = .pinf ∧ ∀ x ∈ l, x = .pinf) ∨
    ∃ q, l.foldr Flt.min .pinf = .fin q ∧ Flt.fin q ∈ l ∧ ∀ q', Flt.fin q' ∈ l → q ≤ q' := by
  induction l with
  | nil => left; exact ⟨rfl, by simp⟩
  | cons a l ih =>
    have ih := ih (fun x hx => hfin x (by simp [hx]))
    rw [List.foldr_cons]
    rcases hfin a (by simp) with rfl | ⟨q, rfl⟩
    · rcases ih with ⟨h1, h2⟩ | ⟨q, h1, h2, h3⟩
      · left; rw [h1]; exact ⟨rfl, by simpa using h2⟩
      · right
        rw [h1]
        exact ⟨q, rfl, by simp [h2], fun q' hq' => h3 q' (by simpa using hq')⟩
    · rcases ih with ⟨h1, h2⟩ | ⟨r, h1, h2, h3⟩
      · right
        rw [h1]
        refine ⟨q, rfl, by simp, ?_⟩
        intro q' hq'
        rcases List.mem_cons.1 hq' with h | h
        · cases h; exact le_refl _
        · have := h2 _ h; cases this
      · right
        rw [h1]
        refine ⟨min q r, rfl, ?_, ?_⟩
        · rcases min_choice q r with h | h <;> rw [h]
          · simp
          · simp [h2]
        · intro q' hq'
          rcases List.mem_cons.1 hq' with h | h
          · cases h; exact min_le_left _ _
          · exact (min_le_right _ _).trans (h3 _ h)

end FinML.Basket
