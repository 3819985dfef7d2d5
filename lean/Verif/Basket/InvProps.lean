import Verif.Basket.Props
import Mathlib.Data.List.FinRange

/-!
# Properties C182-C185: units, instrument order, the list of rebalance bars, overnight and FX moves

Uses the specification of the basket (`Basket/Spec.lean`).
-/

set_option linter.unusedSectionVars false

namespace FinML.Basket

variable {K : Type} [Field K] [LinearOrder K] [IsStrictOrderedRing K] {m : ℕ}

/-! ## C182 -/

/-- The same market quoted in other units: prices and dividends of instrument `i` times `p i`, its FX
rate times `f i`, its traded volume times `v i`. -/
def requote (p f v : Fin m → K) (inp : Input K m) : Input K m :=
  { inp with
    opens := fun t i => p i * inp.opens t i
    closes := fun t i => p i * inp.closes t i
    dividends := fun t i => p i * inp.dividends t i
    fx := fun t i => f i * inp.fx t i
    volumes := fun t i => v i * inp.volumes t i }

/-- Multiply a float by `k`. -/
def scaleFlt (k : K) : Flt K → Flt K
  | .fin x => .fin (k * x)
  | a => a

theorem netChange_requote (p f v : Fin m → K) (inp : Input K m) (t : ℕ) (i : Fin m) :
    netChange (requote p f v inp) t i = p i * netChange inp t i := by
  unfold netChange
  have h : isAfter (requote p f v inp) t = isAfter inp t := rfl
  rw [h]
  cases t with
  | zero =>
    simp only [requote]
    split_ifs <;> ring
  | succ t =>
    simp only [requote]
    split_ifs <;> ring

theorem odiv_requote (x : Option K) (q r c : K) (hc : c ≠ 0) (h : r = c * q) :
    odiv x (some r) = (odiv x (some q)).map fun y => y / c := by
  cases x with
  | none => rfl
  | some x =>
    show fdiv x r = (fdiv x q).map _
    subst h
    unfold fdiv
    by_cases hq : q = 0
    · rw [if_pos (by rw [hq, mul_zero]), if_pos hq]; rfl
    · rw [if_neg (mul_ne_zero hc hq), if_neg hq, Option.map_some]
      congr 1
      field_simp

theorem stateAt_requote (p f v : Fin m → K) (hp : ∀ i, 0 < p i) (hf : ∀ i, 0 < f i)
    (inp : Input K m) (t : ℕ) :
    (stateAt (requote p f v inp) t).value = (stateAt inp t).value ∧
      ∀ i, (stateAt (requote p f v inp) t).holdings i =
        ((stateAt inp t).holdings i).map fun y => y / (p i * f i) := by
  have hc : ∀ i, p i * f i ≠ 0 := fun i => (mul_pos (hp i) (hf i)).ne'
  induction t with
  | zero =>
    refine ⟨rfl, fun i => ?_⟩
    show odiv (odiv (omul _ _) _) (some (p i * inp.closes 0 i * (f i * inp.fx 0 i))) = _
    rw [odiv_requote _ (inp.closes 0 i * inp.fx 0 i) _ (p i * f i) (hc i) (by ring)]
    rfl
  | succ t ih =>
    obtain ⟨ihv, ihh⟩ := ih
    have hv : (stateAt (requote p f v inp) (t + 1)).value = (stateAt inp (t + 1)).value := by
      show oadd (stateAt (requote p f v inp) t).value (osum _) = oadd (stateAt inp t).value (osum _)
      rw [ihv]
      congr 2
      funext i
      rw [ihh, netChange_requote]
      cases (stateAt inp t).holdings i with
      | none => rfl
      | some h =>
        show some _ = some _
        congr 1
        show h / (p i * f i) * (p i * netChange inp (t + 1) i) * (f i * inp.fx (t + 1) i) =
          h * netChange inp (t + 1) i * inp.fx (t + 1) i
        have := hp i
        have := hf i
        field_simp
    refine ⟨hv, fun i => ?_⟩
    show (if t + 1 + 1 < inp.num ∧ ((t + 1 : ℕ) : ℤ) ∈ inp.rebal then
        fun i => odiv (odiv (omul (some (inp.weights (t + 1) i))
          (stateAt (requote p f v inp) (t + 1)).value) (some (sumAbs (inp.weights (t + 1)))))
          (some (p i * inp.opens (t + 1 + 1) i * (f i * inp.fx (t + 1) i)))
        else (stateAt (requote p f v inp) t).holdings) i =
      ((if t + 1 + 1 < inp.num ∧ ((t + 1 : ℕ) : ℤ) ∈ inp.rebal then
        fun i => odiv (odiv (omul (some (inp.weights (t + 1) i))
          (stateAt inp (t + 1)).value) (some (sumAbs (inp.weights (t + 1)))))
          (some (inp.opens (t + 1 + 1) i * inp.fx (t + 1) i))
        else (stateAt inp t).holdings) i).map _
    rw [hv]
    by_cases h : t + 1 + 1 < inp.num ∧ ((t + 1 : ℕ) : ℤ) ∈ inp.rebal
    · rw [if_pos h, if_pos h,
        odiv_requote _ (inp.opens (t + 1 + 1) i * inp.fx (t + 1) i) _ (p i * f i) (hc i) (by ring)]
    · rw [if_neg h, if_neg h]
      exact ihh i

theorem fltMin_scale (k : K) (hk : 0 < k) (a b : Flt K) :
    scaleFlt k (Flt.min a b) = Flt.min (scaleFlt k a) (scaleFlt k b) := by
  cases a <;> cases b <;> try rfl
  simp only [Flt.min, scaleFlt]
  rw [mul_min_of_nonneg _ _ hk.le]

theorem foldr_fltMin_scale (k : K) (hk : 0 < k) (l : List (Flt K)) :
    (l.map (scaleFlt k)).foldr Flt.min .pinf = scaleFlt k (l.foldr Flt.min .pinf) := by
  induction l with
  | nil => rfl
  | cons a l ih => rw [List.map_cons, List.foldr_cons, List.foldr_cons, ih, fltMin_scale k hk]

/-- C182.  Whatever the volumes are multiplied by, the values are the same, and so are the errors. -/
theorem C182_values (p f v : Fin m → K) (hp : ∀ i, 0 < p i) (hf : ∀ i, 0 < f i) (inp : Input K m) :
    (basketToEtf (requote p f v inp)).map Prod.fst = (basketToEtf inp).map Prod.fst := by
  have hst := stateAt_requote p f v hp hf inp
  have hn : (requote p f v inp).num = inp.num := rfl
  unfold basketToEtf
  rw [hn]
  by_cases h0 : inp.num = 0
  · rw [if_pos h0, if_pos h0]
  · rw [if_neg h0, if_neg h0]
    by_cases hm : m = 0
    · rw [if_pos hm, if_pos hm]
    · rw [if_neg hm, if_neg hm]
      show Except.ok _ = Except.ok _
      congr 1
      exact List.map_congr_left fun t _ => (hst t).1

/-- C182.  Quote prices, FX rates and volumes in other units - a redenominated local currency, a share
split, another base currency: the value series is the same.  If the volume factors are consistent,
`v i * p i * f i = k`, the volume column is multiplied by `k`. -/
theorem C182_units (p f v : Fin m → K) (k : K) (hp : ∀ i, 0 < p i) (hf : ∀ i, 0 < f i)
    (hk : 0 < k) (hv : ∀ i, v i * (p i * f i) = k) (inp : Input K m) :
    basketToEtf (requote p f v inp) =
      (basketToEtf inp).map fun r => (r.1, r.2.map (scaleFlt k)) := by
  have hst := stateAt_requote p f v hp hf inp
  have hvol : ∀ t, volumeAt (requote p f v inp) t = scaleFlt k (volumeAt inp t) := by
    intro t
    unfold volumeAt
    rw [← foldr_fltMin_scale k hk, List.map_ofFn]
    congr 1
    congr 1
    funext i
    show volRatio (v i * inp.volumes t i) _ = scaleFlt k (volRatio (inp.volumes t i) _)
    rw [(hst t).2 i]
    have hpf := mul_pos (hp i) (hf i)
    have hvi : 0 < v i := by
      have := hv i
      rw [← this] at hk
      exact pos_of_mul_pos_left hk hpf.le
    cases (stateAt inp t).holdings i with
    | none => rfl
    | some h =>
      simp only [Option.map_some, volRatio]
      by_cases hh : h = 0
      · rw [if_pos hh, if_pos (by rw [hh, zero_div])]
        by_cases h1 : 0 < inp.volumes t i
        · rw [if_pos h1, if_pos (mul_pos hvi h1)]; rfl
        · rw [if_neg h1, if_neg (fun h2 => h1 (pos_of_mul_pos_right h2 hvi.le))]
          by_cases h2 : inp.volumes t i < 0
          · rw [if_pos h2, if_pos (mul_neg_of_pos_of_neg hvi h2)]; rfl
          · rw [if_neg h2, if_neg]
            · rfl
            · have : inp.volumes t i = 0 := le_antisymm (not_lt.1 h1) (not_lt.1 h2)
              rw [this, mul_zero]; exact lt_irrefl _
      · rw [if_neg hh, if_neg (div_ne_zero hh hpf.ne')]
        simp only [scaleFlt]
        rw [← hv i, abs_div, abs_of_pos hpf]
        congr 1
        have := abs_pos.2 hh
        field_simp
  unfold basketToEtf
  show (if inp.num = 0 then _ else _) = Except.map _ (if inp.num = 0 then _ else _)
  by_cases h0 : inp.num = 0
  · rw [if_pos h0, if_pos h0]; rfl
  rw [if_neg h0, if_neg h0]
  by_cases hm : m = 0
  · rw [if_pos hm, if_pos hm]; rfl
  rw [if_neg hm, if_neg hm]
  show Except.ok _ = Except.ok _
  congr 1
  refine Prod.ext ?_ ?_
  · apply List.map_congr_left
    intro t _
    exact (hst t).1
  · simp only [List.map_map]
    apply List.map_congr_left
    intro t _
    exact hvol t

/-- The instruments in another order. -/
def reorder (σ : Equiv.Perm (Fin m)) (inp : Input K m) : Input K m :=
  { inp with
    weights := fun t i => inp.weights t (σ i)
    opens := fun t i => inp.opens t (σ i)
    closes := fun t i => inp.closes t (σ i)
    fx := fun t i => inp.fx t (σ i)
    volumes := fun t i => inp.volumes t (σ i)
    dividends := fun t i => inp.dividends t (σ i) }

instance : LeftCommutative (oadd : Option K → Option K → Option K) where
  left_comm := by
    intro a b c
    cases a <;> cases b <;> cases c <;> try rfl
    show some _ = some _
    congr 1
    exact add_left_comm _ _ _

instance : LeftCommutative (Flt.min : Flt K → Flt K → Flt K) where
  left_comm := by
    intro a b c
    cases a <;> cases b <;> cases c <;> try rfl
    · simp only [Flt.min, min_left_comm]
    · simp only [Flt.min, min_comm]

theorem osum_perm (σ : Equiv.Perm (Fin m)) (row : Fin m → Option K) :
    osum (fun i => row (σ i)) = osum row :=
  List.Perm.foldr_eq (Equiv.Perm.ofFn_comp_perm σ row) _

theorem sumAbs_perm (σ : Equiv.Perm (Fin m)) (w : Fin m → K) :
    sumAbs (fun i => w (σ i)) = sumAbs w :=
  (Equiv.Perm.ofFn_comp_perm σ fun i => |w i|).sum_eq

theorem stateAt_reorder (σ : Equiv.Perm (Fin m)) (inp : Input K m) (t : ℕ) :
    stateAt (reorder σ inp) t =
      ⟨(stateAt inp t).value, fun i => (stateAt inp t).holdings (σ i)⟩ := by
  induction t with
  | zero =>
    show initState _ = _
    unfold initState
    congr 1
    funext i
    show odiv (odiv _ (some (sumAbs fun i => inp.weights 0 (σ i)))) _ = _
    rw [sumAbs_perm]
    rfl
  | succ t ih =>
    show stepState _ _ _ = _
    rw [ih]
    unfold stepState
    simp only
    have hval : (oadd (stateAt inp t).value (osum fun i =>
        omul (omul ((stateAt inp t).holdings (σ i)) (some (netChange (reorder σ inp) (t + 1) i)))
          (some ((reorder σ inp).fx (t + 1) i)))) = (stateAt inp (t + 1)).value := by
      show _ = oadd (stateAt inp t).value (osum _)
      congr 1
      exact osum_perm σ fun i =>
        omul (omul ((stateAt inp t).holdings i) (some (netChange inp (t + 1) i)))
          (some (inp.fx (t + 1) i))
    rw [hval]
    congr 1
    show (if t + 1 + 1 < inp.num ∧ ((t + 1 : ℕ) : ℤ) ∈ inp.rebal then
        fun i => odiv (odiv (omul (some (inp.weights (t + 1) (σ i))) _)
          (some (sumAbs fun i => inp.weights (t + 1) (σ i)))) _ else _) =
      fun i => (if t + 1 + 1 < inp.num ∧ ((t + 1 : ℕ) : ℤ) ∈ inp.rebal then _
        else (stateAt inp t).holdings) (σ i)
    rw [sumAbs_perm]
    by_cases h : t + 1 + 1 < inp.num ∧ ((t + 1 : ℕ) : ℤ) ∈ inp.rebal
    · rw [if_pos h, if_pos h]
      rfl
    · rw [if_neg h, if_neg h]

/-- C182.  The order of the instruments plays no role. -/
theorem C182_instrument_order (σ : Equiv.Perm (Fin m)) (inp : Input K m) :
    basketToEtf (reorder σ inp) = basketToEtf inp := by
  have hvol : ∀ t, volumeAt (reorder σ inp) t = volumeAt inp t := by
    intro t
    unfold volumeAt
    rw [stateAt_reorder]
    exact List.Perm.foldr_eq (Equiv.Perm.ofFn_comp_perm σ fun i =>
      volRatio (inp.volumes t i) ((stateAt inp t).holdings i)) _
  unfold basketToEtf
  simp only [stateAt_reorder]
  rw [show volumeAt (reorder σ inp) = volumeAt inp from funext hvol]
  rfl

/-- A two-for-one split of the first instrument and a second currency in cents. -/
example : (∀ i : Fin 2, (0 : ℚ) < (fun i => if i = 0 then 1 / 2 else 100) i) ∧
    (basketToEtf (requote (fun i => if i = 0 then 1 / 2 else 100)
      (fun i => if i = 0 then 1 else 1 / 100) (fun i => if i = 0 then 2 else 1) exInput)).map
        Prod.fst = .ok [some 1, some (23 / 22), some (3427 / 3168), some (3841 / 3168 : ℚ)] := by
  refine ⟨fun i => ?_, by decide +kernel⟩
  by_cases h : i = 0 <;> simp [h]

/-! ## C183 -/

/-- C183, full claim: only the bars at which the basket is rebalanced matter - a listed first bar, at
which the basket is bought anyway, a listed last bar or a bar outside the table change nothing. -/
def OnlyRebalanceBars : Prop := ∀ (m : ℕ) (inp : Input ℚ m) (rebal : List ℤ),
  (∀ t, EffRebal inp t ↔ EffRebal { inp with rebal := rebal } t) →
  basketToEtf { inp with rebal := rebal } = basketToEtf inp

/-- One instrument bought at 10; it opens at 11 and closes at 12 on the next bar. -/
def gapInput (rebal : List ℤ) : Input ℚ 1 :=
  { num := 2
    weights := fun _ _ => 1
    opens := fun t _ => if t = 0 then 10 else 11
    closes := fun t _ => if t = 0 then 10 else 12
    fx := fun _ _ => 1
    volumes := fun _ _ => 1
    dividends := fun _ _ => 0
    rebal := rebal }

/-- C183, counterexample: with bar 0 listed, the move from the first close to the next open is left
out although the basket was bought at the first close. -/
theorem C183_first_bar_counterexample : ¬ OnlyRebalanceBars := by
  intro h
  have h1 := h 1 (gapInput []) [0] (by
    intro t
    constructor
    · rintro ⟨_, _, h3⟩; simp [gapInput] at h3
    · rintro ⟨h1, h2, _⟩
      have : t + 1 < 2 := h2
      omega)
  have h2 : (basketToEtf (gapInput [])).map Prod.fst = .ok [some 1, some (6 / 5)] := by
    decide +kernel
  have h3 : (basketToEtf { gapInput [] with rebal := [0] }).map Prod.fst =
      .ok [some 1, some (11 / 10)] := by decide +kernel
  rw [h1, h2] at h3
  revert h3
  decide +kernel

/-- C183, what holds: the result depends on the rebalanced bars and on whether bar 0 is listed; the
order of the list, repetitions, the last bar and bars outside the table play no role (missing: bar 0
should not matter). -/
theorem C183_rebalance_bars_partial (inp : Input K m) (rebal : List ℤ)
    (heff : ∀ t, EffRebal inp t ↔ EffRebal { inp with rebal := rebal } t)
    (h0 : (0 : ℤ) ∈ inp.rebal ↔ (0 : ℤ) ∈ rebal) :
    basketToEtf { inp with rebal := rebal } = basketToEtf inp := by
  have hmem : ∀ t : ℕ, t + 1 < inp.num → ((t : ℤ) ∈ rebal ↔ (t : ℤ) ∈ inp.rebal) := by
    intro t ht
    rcases Nat.eq_zero_or_pos t with rfl | hpos
    · exact h0.symm
    · have := heff t
      unfold EffRebal at this
      constructor
      · intro h; exact (this.2 ⟨hpos, ht, h⟩).2.2
      · intro h; exact (this.1 ⟨hpos, ht, h⟩).2.2
  have hnet : ∀ t i, t + 1 < inp.num →
      netChange { inp with rebal := rebal } (t + 1) i = netChange inp (t + 1) i := by
    intro t i ht
    rw [netChange_eq, netChange_eq]
    unfold priceMove
    have : (((t + 1 : ℕ) : ℤ) - 1 ∈ rebal) = (((t + 1 : ℕ) : ℤ) - 1 ∈ inp.rebal) := by
      have e : ((t + 1 : ℕ) : ℤ) - 1 = (t : ℤ) := by push_cast; ring
      rw [e]
      exact propext (hmem t (by omega))
    simp only [this]
  have hst : ∀ t, t < inp.num → stateAt { inp with rebal := rebal } t = stateAt inp t := by
    intro t
    induction t with
    | zero => intro _; rfl
    | succ t ih =>
      intro ht
      show stepState _ _ _ = stepState _ _ _
      rw [ih (by omega)]
      unfold stepState
      have hv : (fun i => omul (omul ((stateAt inp t).holdings i)
          (some (netChange { inp with rebal := rebal } (t + 1) i)))
          (some (inp.fx (t + 1) i))) = fun i => omul (omul ((stateAt inp t).holdings i)
          (some (netChange inp (t + 1) i))) (some (inp.fx (t + 1) i)) := by
        funext i
        rw [hnet t i ht]
      simp only [hv]
      congr 1
      by_cases h : t + 1 + 1 < inp.num
      · have := hmem (t + 1) h
        simp only [h, true_and, this]
      · simp only [h, false_and, if_false]
  unfold basketToEtf
  show (if inp.num = 0 then _ else if m = 0 then _ else _) =
    if inp.num = 0 then _ else if m = 0 then _ else _
  by_cases h1 : inp.num = 0
  · rw [if_pos h1, if_pos h1]
  rw [if_neg h1, if_neg h1]
  by_cases h2 : m = 0
  · rw [if_pos h2, if_pos h2]
  rw [if_neg h2, if_neg h2]
  congr 1
  refine Prod.ext ?_ ?_
  · apply List.map_congr_left
    intro t ht
    rw [hst t (List.mem_range.1 ht)]
  · apply List.map_congr_left
    intro t ht
    unfold volumeAt
    rw [hst t (List.mem_range.1 ht)]

example : (∀ t, EffRebal exInput t ↔ EffRebal { exInput with rebal := [7, 1, -1, 1, 3] } t) ∧
    ((0 : ℤ) ∈ exInput.rebal ↔ (0 : ℤ) ∈ ([7, 1, -1, 1, 3] : List ℤ)) := by
  refine ⟨fun t => ?_, by decide⟩
  unfold EffRebal
  show (1 ≤ t ∧ t + 1 < 4 ∧ (t : ℤ) ∈ ([1] : List ℤ)) ↔
    1 ≤ t ∧ t + 1 < 4 ∧ (t : ℤ) ∈ ([7, 1, -1, 1, 3] : List ℤ)
  simp only [List.mem_cons, List.not_mem_nil, or_false]
  omega

/-! ## C184 -/

/-- Profit of a bar when nothing is left out: the units held before earn the move from the previous
close to the open, the units held after it the move from open to close and the dividend. -/
def fullProfit (inp : Input K m) (before after : Fin m → K) (t : ℕ) : K :=
  ∑ i, (before i * (inp.opens t i - inp.closes (t - 1) i) +
    after i * (inp.closes t i - inp.opens t i + inp.dividends t i)) * inp.fx t i

/-- The units held over the night before bar `t + 1`: those of bar `t - 1`, since a rebalance decided
at bar `t` is done at the open of bar `t + 1`. -/
def heldOvernight (H : ℕ → Fin m → K) (t : ℕ) : Fin m → K := H (t - 1)

/-- C184, full claim: the value changes by the whole profit of the units held, on every bar. -/
def NoMoveLost : Prop := ∀ (m : ℕ) (inp : Input ℚ m), WellFormed inp → (0 : ℤ) ∉ inp.rebal →
  ∃ (V : ℕ → ℚ) (H : ℕ → Fin m → ℚ) (vols : List (Flt ℚ)),
    basketToEtf inp = .ok ((List.range inp.num).map fun t => some (V t), vols) ∧
    (∀ t < inp.num, ∀ i, Held inp V t i (H t i)) ∧
    ∀ t, t + 1 < inp.num → V (t + 1) = V t + fullProfit inp (heldOvernight H t) (H t) (t + 1)

/-- One instrument, rebalanced at bar 1 (into itself); it closes at 10 and opens at 11 on bar 2. -/
def nightInput : Input ℚ 1 :=
  { num := 3
    weights := fun _ _ => 1
    opens := fun t _ => if t ≤ 1 then 10 else 11
    closes := fun t _ => if t ≤ 1 then 10 else 11
    fx := fun _ _ => 1
    volumes := fun _ _ => 1
    dividends := fun _ _ => 0
    rebal := [1] }

theorem nightInput_wf : WellFormed nightInput := by
  refine ⟨by decide, by decide, by decide +kernel, by decide +kernel, ?_, ?_⟩
  · rintro t ⟨h1, h2, h3⟩
    have : t = 1 := by
      have := List.mem_singleton.1 h3; omega
    subst this; decide +kernel
  · rintro t ⟨h1, h2, h3⟩
    have : t = 1 := by
      have := List.mem_singleton.1 h3; omega
    subst this; decide +kernel

/-- C184, counterexample: the instrument gains 10% over the night of the rebalance and the value stays
at 1. -/
theorem C184_rebalance_night_counterexample : ¬ NoMoveLost := by
  intro h
  obtain ⟨V, H, vols, hb, hh, hs⟩ := h 1 nightInput nightInput_wf (by decide)
  have h2 : (basketToEtf nightInput).map Prod.fst = .ok [some 1, some 1, some 1] := by
    decide +kernel
  rw [hb] at h2
  have h3 : [some (V 0), some (V 1), some (V 2)] = ([some 1, some 1, some 1] : List (Option ℚ)) :=
    Except.ok.inj h2
  simp only [List.cons.injEq, Option.some.injEq, and_true] at h3
  obtain ⟨h30, h31, h32⟩ := h3
  have h4 := hs 1 (by decide)
  have h00 : H 0 0 = 1 / 10 := by
    rcases hh 0 (by decide) 0 with ⟨s, ⟨hs1, hs2, _⟩, _⟩ | ⟨_, h5⟩
    · exact absurd hs2.1 (by omega)
    · have : H 0 0 * 10 = 1 := by
        have e1 : nightInput.closes 0 0 * nightInput.fx 0 0 = 10 := by decide +kernel
        have e2 : nightInput.weights 0 0 / gross nightInput 0 = 1 := by decide +kernel
        rw [e1, e2] at h5
        exact h5
      linarith
  have e : fullProfit nightInput (heldOvernight H 1) (H 1) 2 = H 0 0 := by
    unfold fullProfit heldOvernight
    rw [Fin.sum_univ_one]
    have e1 : nightInput.opens 2 0 = 11 := by decide +kernel
    have e2 : nightInput.closes 2 0 = 11 := by decide +kernel
    have e3 : nightInput.closes 1 0 = 10 := by decide +kernel
    have e4 : nightInput.dividends 2 0 = 0 := rfl
    have e5 : nightInput.fx 2 0 = 1 := rfl
    show (H 0 0 * (nightInput.opens 2 0 - nightInput.closes 1 0) + _) * _ = _
    rw [e1, e2, e3, e4, e5]
    ring
  rw [h31, h32, e, h00] at h4
  norm_num at h4

/-- C184, what holds: after a bar that is not a rebalance the value changes by the whole profit; after
a rebalance the overnight move of the units held before is left out, so the value is right if the
prices do not move overnight (missing: that move). -/
theorem C184_moves_partial (inp : Input K m) (hw : WellFormed inp) (h0 : (0 : ℤ) ∉ inp.rebal) :
    ∃ (V : ℕ → K) (H : ℕ → Fin m → K) (vols : List (Flt K)),
      basketToEtf inp = .ok ((List.range inp.num).map fun t => some (V t), vols) ∧
      (∀ t < inp.num, ∀ i, Held inp V t i (H t i)) ∧
      ∀ t, t + 1 < inp.num →
        (¬ EffRebal inp t → V (t + 1) = V t + fullProfit inp (heldOvernight H t) (H t) (t + 1)) ∧
        (EffRebal inp t → V (t + 1) = V t + fullProfit inp (heldOvernight H t) (H t) (t + 1) -
          ∑ i, heldOvernight H t i * (inp.opens (t + 1) i - inp.closes t i) * inp.fx (t + 1) i) ∧
        ((∀ i, inp.opens (t + 1) i = inp.closes t i) →
          V (t + 1) = V t + fullProfit inp (heldOvernight H t) (H t) (t + 1)) := by
  refine ⟨V inp, H inp, _, basketToEtf_eq inp hw, fun t _ i => held inp hw t i, ?_⟩
  intro t ht
  have hA : ¬ EffRebal inp t →
      V inp (t + 1) = V inp t + fullProfit inp (heldOvernight (H inp) t) (H inp t) (t + 1) := by
    intro hr
    have hnot : ¬ (((t + 1 : ℕ) : ℤ) - 1 ∈ inp.rebal) := by
      have e : ((t + 1 : ℕ) : ℤ) - 1 = (t : ℤ) := by push_cast; ring
      rw [e]
      intro hm
      rcases Nat.eq_zero_or_pos t with rfl | hp
      · exact h0 hm
      · exact hr ⟨hp, ht, hm⟩
    have hH : heldOvernight (H inp) t = H inp t := by
      funext i
      unfold heldOvernight
      cases t with
      | zero => rfl
      | succ s => exact (H_keep inp s hr i).symm
    rw [V_succ inp hw, hH]
    congr 1
    unfold profit fullProfit priceMove
    apply Finset.sum_congr rfl
    intro i _
    rw [if_neg hnot]
    ring
  have hB : EffRebal inp t →
      V inp (t + 1) = V inp t + fullProfit inp (heldOvernight (H inp) t) (H inp t) (t + 1) -
          ∑ i, heldOvernight (H inp) t i * (inp.opens (t + 1) i - inp.closes t i) *
            inp.fx (t + 1) i := by
    intro hr
    have hin : ((t + 1 : ℕ) : ℤ) - 1 ∈ inp.rebal := by
      have e : ((t + 1 : ℕ) : ℤ) - 1 = (t : ℤ) := by push_cast; ring
      rw [e]; exact hr.2.2
    rw [V_succ inp hw, add_sub_assoc]
    congr 1
    unfold profit fullProfit priceMove
    rw [← Finset.sum_sub_distrib]
    apply Finset.sum_congr rfl
    intro i _
    rw [if_pos hin]
    show _ = (_ * (inp.opens (t + 1) i - inp.closes t i) + _) * _ - _
    ring
  refine ⟨hA, hB, ?_⟩
  intro hopen
  by_cases hr : EffRebal inp t
  · rw [hB hr]
    have : ∑ i, heldOvernight (H inp) t i * (inp.opens (t + 1) i - inp.closes t i) *
        inp.fx (t + 1) i = 0 := by
      apply Finset.sum_eq_zero
      intro i _
      rw [hopen i]; ring
    rw [this, sub_zero]
  · exact hA hr

example : WellFormed exInput ∧ (0 : ℤ) ∉ exInput.rebal ∧ EffRebal exInput 1 ∧
    ¬ EffRebal exInput 2 :=
  ⟨exInput_wf, by decide, ⟨by decide, by decide, by decide⟩,
    fun h => by have := h.2.2; revert this; decide⟩

/-! ## C185 -/

/-- C185, full claim: without rebalancing and dividends the value is 1 plus the change of the
dollar value of the units held. -/
def DollarValue : Prop := ∀ (m : ℕ) (inp : Input ℚ m), WellFormed inp → inp.rebal = [] →
  (∀ t i, inp.dividends t i = 0) →
  ∃ vols, basketToEtf inp = .ok ((List.range inp.num).map fun t =>
    some (1 + ∑ i, inp.weights 0 i / gross inp 0 / (inp.closes 0 i * inp.fx 0 i) *
      (inp.closes t i * inp.fx t i - inp.closes 0 i * inp.fx 0 i)), vols)

/-- One instrument at a constant price, in a currency that doubles. -/
def fxInput : Input ℚ 1 :=
  { num := 2
    weights := fun _ _ => 1
    opens := fun _ _ => 10
    closes := fun _ _ => 10
    fx := fun t _ => t + 1
    volumes := fun _ _ => 1
    dividends := fun _ _ => 0
    rebal := [] }

/-- C185, counterexample: the currency doubles, the value stays at 1. -/
theorem C185_fx_counterexample : ¬ DollarValue := by
  intro h
  obtain ⟨vols, hb⟩ := h 1 fxInput
    ⟨by decide, by decide, by decide +kernel, by decide +kernel,
      fun t ht => absurd ht.2.2 (by simp [fxInput]),
      fun t ht => absurd ht.2.2 (by simp [fxInput])⟩ rfl (fun _ _ => rfl)
  have h2 : (basketToEtf fxInput).map Prod.fst = .ok [some 1, some 1] := by decide +kernel
  rw [hb] at h2
  have h3 : (List.range fxInput.num).map (fun t : ℕ =>
      some (1 + ∑ i, fxInput.weights 0 i / gross fxInput 0 / (fxInput.closes 0 i * fxInput.fx 0 i) *
        (fxInput.closes t i * fxInput.fx t i - fxInput.closes 0 i * fxInput.fx 0 i))) =
      [some 1, some 1] := Except.ok.inj h2
  clear h2 hb
  revert h3
  decide +kernel

/-- C185, what holds: the value is 1 plus the change of the dollar value of the units held, minus the
revaluation of the previous day's value by each FX change; it is right if FX rates do not move
(missing: FX gains and losses on the units held). -/
theorem C185_dollar_value_partial (inp : Input K m) (hw : WellFormed inp) (hr : inp.rebal = [])
    (hdiv : ∀ t i, inp.dividends t i = 0) :
    ∃ (h : Fin m → K) (vols : List (Flt K)),
      (∀ i, h i = inp.weights 0 i / gross inp 0 / (inp.closes 0 i * inp.fx 0 i)) ∧
      basketToEtf inp = .ok ((List.range inp.num).map fun t =>
        some (1 + ∑ i, h i * (inp.closes t i * inp.fx t i - inp.closes 0 i * inp.fx 0 i) -
          ∑ s ∈ Finset.range t, ∑ i, h i * inp.closes s i * (inp.fx (s + 1) i - inp.fx s i)),
        vols) := by
  have hno : ∀ u, ¬ EffRebal inp u := fun u h => by
    have := h.2.2; rw [hr] at this; simp at this
  have hH : ∀ t i, H inp t i = inp.weights 0 i / gross inp 0 / (inp.closes 0 i * inp.fx 0 i) := by
    intro t i
    induction t with
    | zero => exact H_zero inp hw i
    | succ t ih => rw [H_keep inp t (hno _), ih]
  refine ⟨H inp 0, (List.range inp.num).map (volumeAt inp), fun i => hH 0 i, ?_⟩
  rw [basketToEtf_eq inp hw]
  congr 2
  apply List.map_congr_left
  intro t ht
  clear ht
  congr 1
  induction t with
  | zero => rw [V_zero]; simp
  | succ t ih =>
    rw [V_succ inp hw, ih, Finset.sum_range_succ]
    have e : profit inp (H inp t) (t + 1) =
        ∑ i, H inp 0 i * (inp.closes (t + 1) i * inp.fx (t + 1) i - inp.closes 0 i * inp.fx 0 i) -
        ∑ i, H inp 0 i * (inp.closes t i * inp.fx t i - inp.closes 0 i * inp.fx 0 i) -
        ∑ i, H inp 0 i * inp.closes t i * (inp.fx (t + 1) i - inp.fx t i) := by
      unfold profit priceMove
      rw [← Finset.sum_sub_distrib, ← Finset.sum_sub_distrib]
      apply Finset.sum_congr rfl
      intro i _
      rw [hH t i, ← hH 0 i, hr, if_neg (by simp), hdiv]
      show _ * (inp.closes (t + 1) i - inp.closes t i + 0) * _ = _
      ring
    rw [e]
    ring

end FinML.Basket
