import Verif.Basket.EtfFloatModel
import Verif.Basket.Lemmas
import Mathlib.Algebra.Order.BigOperators.Group.Finset

/-! # Property C308: instruments without weight, prices of zero -/

set_option linter.unusedSectionVars false

namespace FinML.Basket

variable {K : Type} [Field K] [LinearOrder K] [IsStrictOrderedRing K] {m : ℕ}

/-- The number, if the float is one. -/
def number : FinML.Flt K → Option K
  | .fin x => some x
  | _ => none

theorem infOf_number (x : K) : number (FinML.Flt.infOf x) = none := by
  unfold FinML.Flt.infOf
  split
  · rfl
  · split <;> rfl

theorem number_add (a b : FinML.Flt K) : number (FinML.Flt.add a b) = oadd (number a) (number b) := by
  cases a <;> cases b <;> rfl

theorem number_mul (a b : FinML.Flt K) : number (FinML.Flt.mul a b) = omul (number a) (number b) := by
  cases a <;> cases b <;> first | rfl | exact infOf_number _

theorem number_div (a : FinML.Flt K) (y : K) : number (FinML.Flt.div a (.fin y)) = odiv (number a) (some y) := by
  cases a with
  | fin x =>
    show number (if y = 0 then FinML.Flt.infOf x else .fin (x / y)) = fdiv x y
    unfold fdiv
    split
    · exact infOf_number _
    · rfl
  | posInf => show number (if y < 0 then .negInf else .posInf) = none; split <;> rfl
  | negInf => show number (if y < 0 then .posInf else .negInf) = none; split <;> rfl
  | nan => rfl

theorem number_sum (row : Fin m → FinML.Flt K) : number (fltSum row) = osum fun i => number (row i) := by
  unfold fltSum osum
  rw [show (List.ofFn fun i => number (row i)) = (List.ofFn row).map number by rw [List.map_ofFn]; rfl]
  induction List.ofFn row with
  | nil => rfl
  | cons a l ih => rw [List.foldr_cons, List.map_cons, List.foldr_cons, number_add, ih]

theorem number_units (w : Fin m → K) (v : FinML.Flt K) (p : Fin m → K) (i : Fin m) :
    number (unitsF w v p i) = odiv (odiv (omul (some (w i)) (number v)) (some (sumAbs w))) (some (p i)) := by
  unfold unitsF sumAbs
  rw [number_div, number_div, number_mul]
  rfl

theorem number_state (inp : Input K m) (t : ℕ) : number (stateAtF inp t).value = (stateAt inp t).value ∧
    ∀ i, number ((stateAtF inp t).holdings i) = (stateAt inp t).holdings i := by
  induction t with
  | zero => exact ⟨rfl, fun i => number_units (inp.weights 0) (.fin 1) (fun i => inp.closes 0 i * inp.fx 0 i) i⟩
  | succ t ih =>
    have hv : number (stateAtF inp (t + 1)).value = (stateAt inp (t + 1)).value := by
      unfold stateAtF stateAt stepStateF stepState
      simp only [number_add, number_sum, number_mul, ih.1, ih.2]
      rfl
    refine ⟨hv, fun i => ?_⟩
    by_cases hr : t + 1 + 1 < inp.num ∧ ((t + 1 : ℕ) : ℤ) ∈ inp.rebal
    · have e1 : (stateAtF inp (t + 1)).holdings = unitsF (inp.weights (t + 1)) (stateAtF inp (t + 1)).value
          fun i => inp.opens (t + 1 + 1) i * inp.fx (t + 1) i := by
        show (if _ then _ else _) = _
        rw [if_pos hr]
        rfl
      have e2 : (stateAt inp (t + 1)).holdings = fun i => odiv (odiv (omul (some (inp.weights (t + 1) i))
          (stateAt inp (t + 1)).value) (some (sumAbs (inp.weights (t + 1)))))
          (some (inp.opens (t + 1 + 1) i * inp.fx (t + 1) i)) := by
        show (if _ then _ else _) = _
        rw [if_pos hr]
        rfl
      rw [e1, e2, number_units, hv]
    · have e1 : (stateAtF inp (t + 1)).holdings = (stateAtF inp t).holdings := by
        show (if _ then _ else _) = _
        rw [if_neg hr]
      have e2 : (stateAt inp (t + 1)).holdings = (stateAt inp t).holdings := by
        show (if _ then _ else _) = _
        rw [if_neg hr]
      rw [e1, e2]
      exact ih.2 i

/-- C308: the values that are numbers are those of the model of C16. -/
theorem C308_numbers (inp : Input K m) (vs : List (Option K)) (us : List (Flt K)) (h : basketToEtf inp = .ok (vs, us)) :
    ∃ vsF usF, basketToEtfF inp = .ok (vsF, usF) ∧ vsF.map number = vs := by
  unfold basketToEtf at h
  unfold basketToEtfF
  by_cases h1 : inp.num = 0
  · rw [if_pos h1] at h
    cases h
  rw [if_neg h1] at h ⊢
  by_cases h2 : m = 0
  · rw [if_pos h2] at h
    cases h
  rw [if_neg h2] at h ⊢
  cases h
  refine ⟨_, _, rfl, ?_⟩
  rw [List.map_map]
  exact List.map_congr_left fun t _ => (number_state inp t).1

/-- The same float in the type of C128. -/
def same : FinML.Flt K → Flt K
  | .fin x => .fin x
  | .posInf => .pinf
  | .negInf => .ninf
  | .nan => .nan

theorem same_min (a b : FinML.Flt K) : same (fltMin a b) = Flt.min (same a) (same b) := by
  cases a <;> cases b <;> rfl

theorem same_ratio (v : K) (h : FinML.Flt K) (x : K) (hx : number h = some x) :
    same (FinML.Flt.div (.fin v) (fltAbs h)) = volRatio v (some x) := by
  cases h with
  | fin y =>
    cases hx
    show same (if |x| = 0 then FinML.Flt.infOf v else .fin (v / |x|)) = if x = 0 then _ else _
    by_cases h0 : x = 0
    · rw [if_pos (by rw [h0, abs_zero]), if_pos h0]
      unfold FinML.Flt.infOf
      split
      · rfl
      · split <;> rfl
    · rw [if_neg (abs_ne_zero.2 h0), if_neg h0]
      rfl
  | posInf => cases hx
  | negInf => cases hx
  | nan => cases hx

/-- C308: if nothing is divided by zero both columns are those of C16 and C128. -/
theorem C308_same (inp : Input K m) (hw : WellFormed inp) (vs : List (Option K)) (us : List (Flt K))
    (h : basketToEtf inp = .ok (vs, us)) :
    ∃ vsF usF, basketToEtfF inp = .ok (vsF, usF) ∧ vsF.map number = vs ∧ usF.map same = us := by
  obtain ⟨vsF, usF, hF, hv⟩ := C308_numbers inp vs us h
  refine ⟨vsF, usF, hF, hv, ?_⟩
  unfold basketToEtf at h
  rw [if_neg hw.bars.ne', if_neg hw.instr.ne'] at h
  unfold basketToEtfF at hF
  rw [if_neg hw.bars.ne', if_neg hw.instr.ne'] at hF
  cases h
  cases hF
  rw [List.map_map]
  refine List.map_congr_left fun t _ => ?_
  show same (volumeAtF inp t) = volumeAt inp t
  unfold volumeAtF volumeAt
  have hrow : (List.ofFn fun i => volRatio (inp.volumes t i) ((stateAt inp t).holdings i)) =
      (List.ofFn fun i => FinML.Flt.div (.fin (inp.volumes t i)) (fltAbs ((stateAtF inp t).holdings i))).map same := by
    rw [List.map_ofFn]
    congr 1
    funext i
    have hs := (state_finite inp hw t).2 i
    rw [Function.comp_apply]
    rw [same_ratio _ _ _ (((number_state inp t).2 i).trans hs), hs]
  rw [hrow]
  generalize (List.ofFn fun i => FinML.Flt.div (.fin (inp.volumes t i)) (fltAbs ((stateAtF inp t).holdings i))) = l
  induction l with
  | nil => rfl
  | cons a l ih => rw [List.foldr_cons, same_min, ih, List.map_cons, List.foldr_cons]

/-- Units of some instrument are bought at a price of zero dollars: at the first close, or at the open after the rebalanced
bar `t`. -/
def BuysAtZero (inp : Input K m) (t : ℕ) : Prop :=
  (t = 0 ∧ ∃ i, inp.closes 0 i * inp.fx 0 i = 0) ∨ (EffRebal inp t ∧ ∃ i, inp.opens (t + 1) i * inp.fx t i = 0)

theorem osum_none (row : Fin m → Option K) (i : Fin m) (h : row i = none) : osum row = none := by
  unfold osum
  have : none ∈ List.ofFn row := by rw [List.mem_ofFn]; exact ⟨i, h⟩
  generalize List.ofFn row = l at this
  induction l with
  | nil => cases this
  | cons a l ih =>
    rw [List.foldr_cons]
    rcases List.mem_cons.1 this with rfl | h'
    · rfl
    · rw [ih h']
      cases a <;> rfl

theorem odiv_zero (a : Option K) : odiv a (some 0) = none := by
  cases a with
  | none => rfl
  | some x => show fdiv x 0 = none; exact if_pos rfl

theorem value_none_step (inp : Input K m) (t : ℕ)
    (h : (stateAt inp t).value = none ∨ ∃ i, (stateAt inp t).holdings i = none) : (stateAt inp (t + 1)).value = none := by
  show oadd (stateAt inp t).value (osum _) = none
  rcases h with h | ⟨i, h⟩
  · rw [h]
    rfl
  · rw [osum_none _ i (by rw [h]; rfl)]
    cases (stateAt inp t).value <;> rfl

/-- C308: once units are bought at a price of zero, even with no weight, no later value is a number. -/
theorem C308_ruined (inp : Input K m) (b t : ℕ) (hb : BuysAtZero inp b) (hbt : b < t)
    (vs us : List (FinML.Flt K)) (h : basketToEtfF inp = .ok (vs, us)) (x : K) : vs[t]? ≠ some (.fin x) := by
  have hhold : ∃ i, (stateAt inp b).holdings i = none := by
    rcases hb with ⟨rfl, i, hi⟩ | ⟨hr, i, hi⟩
    · refine ⟨i, ?_⟩
      show odiv _ (some (inp.closes 0 i * inp.fx 0 i)) = none
      rw [hi, odiv_zero]
    · refine ⟨i, ?_⟩
      obtain ⟨h1, h2⟩ := hr
      obtain ⟨c, rfl⟩ : ∃ c, b = c + 1 := ⟨b - 1, by omega⟩
      show (if _ then _ else _ : Fin m → Option K) i = none
      rw [if_pos h2, hi, odiv_zero]
  have hnone : ∀ s, (stateAt inp (b + 1 + s)).value = none := by
    intro s
    induction s with
    | zero => exact value_none_step inp b (.inr hhold)
    | succ s ih => exact value_none_step inp (b + 1 + s) (.inl ih)
  have ht := hnone (t - (b + 1))
  rw [show b + 1 + (t - (b + 1)) = t by omega, ← (number_state inp t).1] at ht
  unfold basketToEtfF at h
  split at h
  · cases h
  split at h
  · cases h
  cases h
  rw [List.getElem?_map]
  intro hc
  rw [Option.map_eq_some_iff] at hc
  obtain ⟨s, hs, hc⟩ := hc
  rw [List.getElem?_range (by
    by_contra hlt
    rw [List.getElem?_eq_none (by simpa using hlt)] at hs
    cases hs)] at hs
  cases hs
  rw [hc] at ht
  cases ht

/-- Two inputs that differ in one instrument only, which has no weight in either. -/
structure Weightless (a b : Input K m) (j : Fin m) : Prop where
  num : a.num = b.num
  rebal : a.rebal = b.rebal
  weights : ∀ t, a.weights t = b.weights t
  zero : ∀ t, a.weights t j = 0
  opens : ∀ t i, i ≠ j → a.opens t i = b.opens t i
  closes : ∀ t i, i ≠ j → a.closes t i = b.closes t i
  fx : ∀ t i, i ≠ j → a.fx t i = b.fx t i
  volumes : ∀ t i, i ≠ j → a.volumes t i = b.volumes t i
  dividends : ∀ t i, i ≠ j → a.dividends t i = b.dividends t i

/-- C308, the full claim: an instrument without weight does not matter. -/
def WeightlessIgnored (K : Type) [Field K] [LinearOrder K] [IsStrictOrderedRing K] : Prop :=
  ∀ (m : ℕ) (a b : Input K m) (j : Fin m), Weightless a b j → basketToEtfF a = basketToEtfF b

/-- Where the instrument is bought it has a price. -/
structure Priced (a : Input K m) (j : Fin m) : Prop where
  first : a.closes 0 j * a.fx 0 j ≠ 0
  later : ∀ t, EffRebal a t → a.opens (t + 1) j * a.fx t j ≠ 0

theorem fltSum_congr {f g : Fin m → FinML.Flt K} (h : ∀ i, f i = g i) : fltSum f = fltSum g := by
  rw [funext h]

theorem mul_assoc_num (a : FinML.Flt K) (x y z w : K)
    (h : a = .fin 0 ∨ a = .nan) : FinML.Flt.mul (FinML.Flt.mul a (.fin x)) (.fin y) =
      FinML.Flt.mul (FinML.Flt.mul a (.fin z)) (.fin w) := by
  rcases h with rfl | rfl
  · show FinML.Flt.fin (0 * x * y) = .fin (0 * z * w)
    simp
  · rfl

theorem units_weightless (w : Fin m → K) (v : FinML.Flt K) (p : Fin m → K) (j : Fin m) (hw : w j = 0) :
    unitsF w v p j = .fin 0 ∨ unitsF w v p j = .nan := by
  unfold unitsF
  rw [hw]
  have key : ∀ y : FinML.Flt K, y = .fin 0 ∨ y = .nan → ∀ s : K,
      FinML.Flt.div y (.fin s) = .fin 0 ∨ FinML.Flt.div y (.fin s) = .nan := by
    rintro y (rfl | rfl) s
    · show (if s = 0 then FinML.Flt.infOf 0 else .fin (0 / s)) = _ ∨ (if s = 0 then FinML.Flt.infOf 0 else .fin (0 / s)) = _
      split
      · right
        simp [FinML.Flt.infOf]
      · left
        rw [zero_div]
    · exact .inr rfl
  refine key _ (key _ ?_ _) _
  cases v with
  | fin x => left; show FinML.Flt.fin (0 * x) = _; rw [zero_mul]
  | posInf => right; simp [FinML.Flt.mul, FinML.Flt.infOf]
  | negInf => right; simp [FinML.Flt.mul, FinML.Flt.infOf]
  | nan => exact .inr rfl

theorem units_weightless_eq (w : Fin m → K) (v : FinML.Flt K) (p q : Fin m → K) (j : Fin m) (hw : w j = 0)
    (hp : p j ≠ 0) (hq : q j ≠ 0) : unitsF w v p j = unitsF w v q j := by
  have key : ∀ y : FinML.Flt K, y = .fin 0 ∨ y = .nan → FinML.Flt.div y (.fin (p j)) = FinML.Flt.div y (.fin (q j)) := by
    rintro y (rfl | rfl)
    · show (if p j = 0 then FinML.Flt.infOf 0 else .fin (0 / p j)) = (if q j = 0 then FinML.Flt.infOf 0 else .fin (0 / q j))
      rw [if_neg hp, if_neg hq, zero_div, zero_div]
    · rfl
  unfold unitsF
  apply key
  have := units_weightless w v (fun _ => 1) j hw
  unfold unitsF at this
  have hdiv1 : ∀ y : FinML.Flt K, FinML.Flt.div y (.fin 1) = y := by
    intro y
    cases y with
    | fin x => show (if (1 : K) = 0 then FinML.Flt.infOf x else .fin (x / 1)) = _; rw [if_neg one_ne_zero, div_one]
    | posInf => show (if (1 : K) < 0 then _ else _) = _; rw [if_neg (by simp)]
    | negInf => show (if (1 : K) < 0 then _ else _) = _; rw [if_neg (by simp)]
    | nan => rfl
  rw [hdiv1] at this
  exact this

theorem state_weightless {a b : Input K m} {j : Fin m} (h : Weightless a b j) (ha : Priced a j) (hb : Priced b j) (t : ℕ) :
    stateAtF a t = stateAtF b t ∧ ((stateAtF a t).holdings j = .fin 0 ∨ (stateAtF a t).holdings j = .nan) := by
  have units_eq : ∀ (v : FinML.Flt K) (p q : Fin m → K) (t : ℕ), p j ≠ 0 → q j ≠ 0 → (∀ i, i ≠ j → p i = q i) →
      unitsF (a.weights t) v p = unitsF (b.weights t) v q := by
    intro v p q t hp hq hpq
    rw [h.weights]
    funext i
    by_cases hi : i = j
    · subst hi
      exact units_weightless_eq _ _ _ _ _ (by rw [← h.weights]; exact h.zero t) hp hq
    · unfold unitsF
      rw [hpq i hi]
  induction t with
  | zero =>
    refine ⟨?_, units_weightless (a.weights 0) (.fin 1) (fun i => a.closes 0 i * a.fx 0 i) j (h.zero 0)⟩
    show StateF.mk _ _ = StateF.mk _ _
    rw [StateF.mk.injEq]
    refine ⟨rfl, units_eq _ _ _ 0 ha.first hb.first fun i hi => ?_⟩
    rw [h.closes 0 i hi, h.fx 0 i hi]
  | succ t ih =>
    have hnet : ∀ i, i ≠ j → netChange a (t + 1) i = netChange b (t + 1) i := by
      intro i hi
      unfold netChange isAfter
      simp only [h.rebal, h.closes _ i hi, h.opens _ i hi, h.dividends _ i hi]
    have hv : (stateAtF a (t + 1)).value = (stateAtF b (t + 1)).value := by
      show FinML.Flt.add (stateAtF a t).value _ = FinML.Flt.add (stateAtF b t).value _
      rw [ih.1]
      congr 1
      refine fltSum_congr fun i => ?_
      by_cases hi : i = j
      · subst hi
        exact mul_assoc_num _ _ _ _ _ (ih.1 ▸ ih.2)
      · rw [hnet i hi, h.fx _ i hi]
    by_cases hr : t + 1 + 1 < a.num ∧ ((t + 1 : ℕ) : ℤ) ∈ a.rebal
    · have hr' : t + 1 + 1 < b.num ∧ ((t + 1 : ℕ) : ℤ) ∈ b.rebal := by rw [← h.num, ← h.rebal]; exact hr
      have e1 : (stateAtF a (t + 1)).holdings = unitsF (a.weights (t + 1)) (stateAtF a (t + 1)).value
          fun i => a.opens (t + 1 + 1) i * a.fx (t + 1) i := by
        show (if _ then _ else _) = _
        rw [if_pos hr]
        rfl
      have e2 : (stateAtF b (t + 1)).holdings = unitsF (b.weights (t + 1)) (stateAtF b (t + 1)).value
          fun i => b.opens (t + 1 + 1) i * b.fx (t + 1) i := by
        show (if _ then _ else _) = _
        rw [if_pos hr']
        rfl
      have hpa := ha.later (t + 1) ⟨by omega, hr⟩
      have hpb := hb.later (t + 1) ⟨by omega, hr'⟩
      have hh : (stateAtF a (t + 1)).holdings = (stateAtF b (t + 1)).holdings := by
        rw [e1, e2, hv]
        refine units_eq _ _ _ _ hpa hpb fun i hi => ?_
        rw [h.opens _ i hi, h.fx _ i hi]
      refine ⟨?_, ?_⟩
      · cases ha' : stateAtF a (t + 1)
        cases hb' : stateAtF b (t + 1)
        rw [ha', hb'] at hv hh
        simp only at hv hh
        rw [hv, hh]
      · rw [e1]
        exact units_weightless _ _ _ _ (h.zero _)
    · have hr' : ¬ (t + 1 + 1 < b.num ∧ ((t + 1 : ℕ) : ℤ) ∈ b.rebal) := by rw [← h.num, ← h.rebal]; exact hr
      have e1 : (stateAtF a (t + 1)).holdings = (stateAtF a t).holdings := by
        show (if _ then _ else _) = _
        rw [if_neg hr]
      have e2 : (stateAtF b (t + 1)).holdings = (stateAtF b t).holdings := by
        show (if _ then _ else _) = _
        rw [if_neg hr']
      refine ⟨?_, by rw [e1]; exact ih.2⟩
      have hh : (stateAtF a (t + 1)).holdings = (stateAtF b (t + 1)).holdings := by rw [e1, e2, ih.1]
      cases ha' : stateAtF a (t + 1)
      cases hb' : stateAtF b (t + 1)
      rw [ha', hb'] at hv hh
      simp only at hv hh
      rw [hv, hh]

/-- C308 with a price wherever the instrument is bought and with volume on every bar. -/
theorem C308_weightless_partial (a b : Input K m) (j : Fin m) (h : Weightless a b j) (ha : Priced a j) (hb : Priced b j)
    (va : ∀ t, t < a.num → 0 < a.volumes t j) (vb : ∀ t, t < a.num → 0 < b.volumes t j) :
    basketToEtfF a = basketToEtfF b := by
  have hs : ∀ t, stateAtF a t = stateAtF b t := fun t => (state_weightless h ha hb t).1
  unfold basketToEtfF
  rw [← h.num]
  by_cases h1 : a.num = 0
  · rw [if_pos h1, if_pos h1]
  rw [if_neg h1, if_neg h1]
  by_cases h2 : m = 0
  · rw [if_pos h2, if_pos h2]
  rw [if_neg h2, if_neg h2]
  congr 2
  · exact List.map_congr_left fun t _ => by rw [hs t]
  · refine List.map_congr_left fun t ht => ?_
    have ht : t < a.num := by simpa using ht
    unfold volumeAtF
    congr 2
    funext i
    rw [← hs t]
    by_cases hi : i = j
    · subst hi
      rcases (state_weightless h ha hb t).2 with e | e
      · rw [e]
        show FinML.Flt.div (.fin _) (.fin |0|) = FinML.Flt.div (.fin _) (.fin |0|)
        rw [abs_zero]
        show (if (0 : K) = 0 then FinML.Flt.infOf (a.volumes t i) else _) =
          (if (0 : K) = 0 then FinML.Flt.infOf (b.volumes t i) else _)
        rw [if_pos rfl, if_pos rfl]
        unfold FinML.Flt.infOf
        rw [if_pos (va t ht), if_pos (vb t ht)]
      · rw [e]
        rfl
    · rw [h.volumes t i hi]

/-- One instrument at a price of 1 with all the weight, another without weight at the price `p` and with the volume `v`. -/
def pair (p v : ℚ) : Input ℚ 2 where
  num := 2
  weights := fun _ i => if i = 0 then 1 else 0
  opens := fun _ i => if i = 0 then 1 else p
  closes := fun _ i => if i = 0 then 1 else p
  fx := fun _ _ => 1
  volumes := fun _ i => if i = 0 then 5 else v
  dividends := fun _ _ => 0
  rebal := []

theorem pair_weightless (p v p' v' : ℚ) : Weightless (pair p v) (pair p' v') 1 where
  num := rfl
  rebal := rfl
  weights := fun _ => rfl
  zero := fun _ => rfl
  opens := fun _ i hi => by simp [pair, show i = 0 by omega]
  closes := fun _ i hi => by simp [pair, show i = 0 by omega]
  fx := fun _ _ _ => rfl
  volumes := fun _ i hi => by simp [pair, show i = 0 by omega]
  dividends := fun _ _ _ => rfl

/-- C308, the full claim does not hold: at a price of zero the instrument without weight turns the value into NaN, and with
a volume of zero the volume. -/
theorem C308_weightless_counterexample : ¬ WeightlessIgnored ℚ ∧
    basketToEtfF (pair 1 1) = .ok ([.fin 1, .fin 1], [.fin 5, .fin 5]) ∧
    basketToEtfF (pair 0 1) = .ok ([.fin 1, .nan], [.nan, .nan]) ∧
    basketToEtfF (pair 1 0) = .ok ([.fin 1, .fin 1], [.nan, .nan]) := by
  have h1 : basketToEtfF (pair 1 1) = .ok ([.fin 1, .fin 1], [.fin 5, .fin 5]) := by decide +kernel
  have h2 : basketToEtfF (pair 0 1) = .ok ([.fin 1, .nan], [.nan, .nan]) := by decide +kernel
  have h3 : basketToEtfF (pair 1 0) = .ok ([.fin 1, .fin 1], [.nan, .nan]) := by decide +kernel
  refine ⟨fun h => ?_, h1, h2, h3⟩
  have := h 2 (pair 1 1) (pair 0 1) 1 (pair_weightless _ _ _ _)
  rw [h1, h2] at this
  exact absurd this (by decide +kernel)

/-- C308: if every instrument has weight and one is first bought at a price of zero, the volume is zero until the basket is
rebalanced. -/
theorem C308_volume (inp : Input K m) (j : Fin m) (t : ℕ) (hp : inp.closes 0 j * inp.fx 0 j = 0)
    (hne : ∀ i, inp.weights 0 i ≠ 0) (hv : ∀ i, 0 ≤ inp.volumes t i) (hr : ∀ s, s ≤ t → ¬ EffRebal inp s) (vs us : List (FinML.Flt K)) (h : basketToEtfF inp = .ok (vs, us))
    (ht : t < inp.num) : us[t]? = some (.fin 0) := by
  have hhold : ∀ s, s ≤ t → (stateAtF inp s).holdings = unitsF (inp.weights 0) (.fin 1) fun i => inp.closes 0 i * inp.fx 0 i := by
    intro s hs
    induction s with
    | zero => rfl
    | succ s ih =>
      rw [← ih (by omega)]
      show (if _ then _ else _) = _
      rw [if_neg]
      intro h'
      exact hr (s + 1) hs ⟨by omega, h'⟩
  have hg : 0 < (List.ofFn fun i => |inp.weights 0 i|).sum := by
    rw [List.sum_ofFn]
    exact Finset.sum_pos (fun i _ => abs_pos.2 (hne i)) ⟨j, Finset.mem_univ _⟩
  have hunit : ∀ i, unitsF (inp.weights 0) (.fin 1) (fun i => inp.closes 0 i * inp.fx 0 i) i =
      if inp.closes 0 i * inp.fx 0 i = 0 then FinML.Flt.infOf (inp.weights 0 i / (List.ofFn fun i => |inp.weights 0 i|).sum)
      else .fin (inp.weights 0 i / (List.ofFn fun i => |inp.weights 0 i|).sum / (inp.closes 0 i * inp.fx 0 i)) := by
    intro i
    unfold unitsF
    show FinML.Flt.div (FinML.Flt.div (.fin (inp.weights 0 i * 1)) _) _ = _
    rw [mul_one]
    show FinML.Flt.div (if _ = 0 then _ else _) _ = _
    rw [if_neg hg.ne']
    rfl
  have hrow : ∀ i, ∃ q : K, 0 ≤ q ∧ FinML.Flt.div (.fin (inp.volumes t i)) (fltAbs ((stateAtF inp t).holdings i)) = .fin q ∧
      (i = j → q = 0) := by
    intro i
    rw [hhold t le_rfl, hunit]
    split
    · next h0 =>
      refine ⟨0, le_rfl, ?_, fun _ => rfl⟩
      have hq : inp.weights 0 i / (List.ofFn fun i => |inp.weights 0 i|).sum ≠ 0 := div_ne_zero (hne i) hg.ne'
      unfold FinML.Flt.infOf
      rcases lt_or_gt_of_ne hq with h' | h'
      · rw [if_neg h'.not_gt, if_pos h']
        rfl
      · rw [if_pos h']
        rfl
    · next h0 =>
      have hq : |inp.weights 0 i / (List.ofFn fun i => |inp.weights 0 i|).sum / (inp.closes 0 i * inp.fx 0 i)| ≠ 0 :=
        abs_ne_zero.2 (div_ne_zero (div_ne_zero (hne i) hg.ne') h0)
      refine ⟨inp.volumes t i / |inp.weights 0 i / (List.ofFn fun i => |inp.weights 0 i|).sum / (inp.closes 0 i * inp.fx 0 i)|,
        div_nonneg (hv i) (abs_nonneg _), ?_, fun hij => absurd (hij ▸ hp) h0⟩
      show (if _ = 0 then _ else _) = _
      rw [if_neg hq]
  have hfold : ∀ l : List (FinML.Flt K), (∀ x ∈ l, ∃ q : K, 0 ≤ q ∧ x = .fin q) →
      (l = [] ∧ l.foldr fltMin .posInf = .posInf) ∨ ∃ q : K, 0 ≤ q ∧ l.foldr fltMin .posInf = .fin q ∧
        ((.fin 0 : FinML.Flt K) ∈ l → q = 0) := by
    intro l hl
    induction l with
    | nil => exact .inl ⟨rfl, rfl⟩
    | cons x l ih =>
      right
      obtain ⟨q, hq, rfl⟩ := hl x (by simp)
      rw [List.foldr_cons]
      rcases ih fun y hy => hl y (by simp [hy]) with ⟨rfl, e⟩ | ⟨r, hr0, e, hmem⟩
      · refine ⟨q, hq, by rw [e]; rfl, fun hm => ?_⟩
        have := List.mem_singleton.1 hm
        injection this with this
        exact this.symm
      · refine ⟨min q r, le_min hq hr0, by rw [e]; rfl, fun hm => ?_⟩
        rcases List.mem_cons.1 hm with hm | hm
        · injection hm with hm
          rw [← hm, min_eq_left hr0]
        · rw [hmem hm, min_eq_right hq]
  have hvol : volumeAtF inp t = .fin 0 := by
    unfold volumeAtF
    rcases hfold (List.ofFn fun i => FinML.Flt.div (.fin (inp.volumes t i)) (fltAbs ((stateAtF inp t).holdings i))) (by
      intro x hx
      rw [List.mem_ofFn] at hx
      obtain ⟨i, rfl⟩ := hx
      obtain ⟨q, hq, e, -⟩ := hrow i
      exact ⟨q, hq, e⟩) with ⟨e, -⟩ | ⟨q, -, e, hm⟩
    · have := congrArg List.length e
      rw [List.length_ofFn] at this
      exact absurd j.isLt (by simp [this])
    · rw [e, hm]
      rw [List.mem_ofFn]
      obtain ⟨r, -, e', hr'⟩ := hrow j
      exact ⟨j, by rw [e', hr' rfl]⟩
  unfold basketToEtfF at h
  split at h
  · cases h
  split at h
  · cases h
  cases h
  rw [List.getElem?_map, List.getElem?_range ht, Option.map_some, hvol]

/-- The hypotheses of the theorems are met. -/
example : Priced (pair 1 1) 1 ∧ Priced (pair 7 2) 1 ∧ BuysAtZero (pair 0 1) 0 := by
  refine ⟨⟨by simp [pair], fun t ht => ?_⟩, ⟨by simp [pair], fun t ht => ?_⟩, .inl ⟨rfl, 1, by simp [pair]⟩⟩
  · simp [pair]
  · simp [pair]

end FinML.Basket
