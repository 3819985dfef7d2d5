import Verif.Basket.Lemmas
import Verif.Basket.RollLemmas
import Mathlib.Tactic.FieldSimp
import Mathlib.Algebra.BigOperators.Field
import Mathlib.Tactic.IntervalCases
import Mathlib.Tactic.NormNum
import Mathlib.Tactic.Positivity

/-! # Properties C16-C21, C127, C128 -/

set_option linter.unusedSectionVars false

namespace FinML.Basket

variable {K : Type} [Field K] [LinearOrder K] [IsStrictOrderedRing K] {m : ℕ}

/-! ## C16, C18, C128: the basket as one instrument -/

/-- C16.  The series starts at 1 and at bar `t` is 1 plus the profits of all bars up to `t`, where
the profit of a bar is that of the units bought at the last rebalance before it (or at the start):
units times (price move + dividend) times FX rate. -/
theorem C16_value_is_pnl (inp : Input K m) (hw : WellFormed inp) :
    ∃ (V : ℕ → K) (H : ℕ → Fin m → K) (vols : List (Flt K)),
      basketToEtf inp = .ok ((List.range inp.num).map fun t => some (V t), vols) ∧
      V 0 = 1 ∧
      (∀ t < inp.num, V t = 1 + ∑ s ∈ Finset.range t, profit inp (H s) (s + 1)) ∧
      ∀ t < inp.num, ∀ i, Held inp V t i (H t i) :=
  ⟨V inp, H inp, _, basketToEtf_eq inp hw, rfl, fun t _ => V_sum inp hw t,
    fun t _ i => held inp hw t i⟩

/-- C16.  Without rebalancing, dividends or FX moves the value is 1 plus units times the total price
change. -/
theorem C16_buy_and_hold (inp : Input K m) (hw : WellFormed inp) (hr : inp.rebal = [])
    (hdiv : ∀ t i, inp.dividends t i = 0) (fx : Fin m → K) (hfx : ∀ t i, inp.fx t i = fx i) :
    ∃ (vols : List (Flt K)), basketToEtf inp = .ok ((List.range inp.num).map fun t =>
      some (1 + ∑ i, inp.weights 0 i / gross inp 0 / inp.closes 0 i *
        (inp.closes t i - inp.closes 0 i)), vols) := by
  refine ⟨(List.range inp.num).map (volumeAt inp), ?_⟩
  rw [basketToEtf_eq inp hw]
  congr 2
  apply List.map_congr_left
  intro t ht
  clear ht
  congr 1
  have hno : ∀ u, ¬ EffRebal inp u := fun u h => by
    have := h.2.2; rw [hr] at this; simp at this
  have hH : ∀ t i, H inp t i = inp.weights 0 i / gross inp 0 / (inp.closes 0 i * inp.fx 0 i) := by
    intro t i
    induction t with
    | zero => exact H_zero inp hw i
    | succ t ih => rw [H_keep inp t (hno _), ih]
  induction t with
  | zero => simp [V_zero]
  | succ t ih =>
    rw [V_succ inp hw, ih, profit, add_assoc, ← Finset.sum_add_distrib]
    congr 1
    apply Finset.sum_congr rfl
    intro i _
    have hp : priceMove inp (t + 1) i = inp.closes (t + 1) i - inp.closes t i := by
      unfold priceMove
      rw [hr, if_neg (by simp)]
      rfl
    have h0 := hw.price0 i
    rw [hH, hp, hdiv, hfx, hfx]
    rw [hfx] at h0
    have hc := left_ne_zero_of_mul h0
    have hf := right_ne_zero_of_mul h0
    have hg := hw.gross0
    field_simp
    ring

/-- C16.  A single long instrument held without rebalancing, dividends or FX moves returns its
relative price. -/
theorem C16_single_instrument (inp : Input K 1) (hn : 0 < inp.num) (hr : inp.rebal = [])
    (hdiv : ∀ t i, inp.dividends t i = 0) (fx : K) (hfx : ∀ t i, inp.fx t i = fx) (hf : fx ≠ 0)
    (hc : inp.closes 0 0 ≠ 0) (hwt : 0 < inp.weights 0 0) :
    ∃ (vols : List (Flt K)), basketToEtf inp = .ok ((List.range inp.num).map fun t =>
      some (inp.closes t 0 / inp.closes 0 0), vols) := by
  have hg : gross inp 0 = inp.weights 0 0 := by
    unfold gross
    rw [Fin.sum_univ_one, abs_of_pos hwt]
  have hno : ∀ u, ¬ EffRebal inp u := fun u h => by
    have := h.2.2; rw [hr] at this; simp at this
  have hw : WellFormed inp :=
    { bars := hn, instr := one_pos, gross0 := by rw [hg]; exact hwt.ne'
      price0 := fun i => by
        rw [hfx, Fin.fin_one_eq_zero i]; exact mul_ne_zero hc hf
      grossR := fun t h => absurd h (hno t), priceR := fun t h => absurd h (hno t) }
  obtain ⟨vols, h⟩ := C16_buy_and_hold inp hw hr hdiv (fun _ => fx) (fun t i => hfx t i)
  refine ⟨vols, ?_⟩
  rw [h]
  congr 2
  apply List.map_congr_left
  intro t _
  congr 1
  rw [Fin.sum_univ_one, hg, div_self hwt.ne']
  field_simp
  ring

/-- Two instruments, four bars, one rebalance at bar 1. -/
def exInput : Input ℚ 2 :=
  { num := 4
    weights := fun t i => if t = 0 then (if i = 0 then 1 else 1) else (if i = 0 then 3 else -1)
    opens := fun t i => if i = 0 then 10 + t else 20 - t
    closes := fun t i => if i = 0 then 11 + t else 20
    fx := fun _ i => if i = 0 then 1 else 2
    volumes := fun t _ => 100 + t
    dividends := fun t i => if t = 3 ∧ i = 0 then 1 else 0
    rebal := [1] }

theorem exInput_wf : WellFormed exInput := by
  refine ⟨by decide, by decide, by decide +kernel, by decide +kernel, ?_, ?_⟩
  · rintro t ⟨h1, h2, h3⟩
    have : t = 1 := by
      have := List.mem_singleton.1 h3; omega
    subst this; decide +kernel
  · rintro t ⟨h1, h2, h3⟩
    have : t = 1 := by
      have := List.mem_singleton.1 h3; omega
    subst this; decide +kernel

example : WellFormed exInput ∧ ((basketToEtf exInput).map Prod.fst) =
    .ok [some 1, some (23 / 22), some (3427 / 3168), some (3841 / 3168 : ℚ)] := by
  refine ⟨exInput_wf, ?_⟩
  decide +kernel

/-- C17.  Multiplying every row of the weights by its own positive number changes nothing. -/
theorem C17_weight_scale (inp : Input K m) (c : ℕ → K) (hc : ∀ t, 0 < c t) :
    basketToEtf (scaleWeights c inp) = basketToEtf inp := by
  unfold basketToEtf
  have hvol : volumeAt (scaleWeights c inp) = volumeAt inp := by
    funext t
    unfold volumeAt
    rw [stateAt_scale c inp hc]
    rfl
  simp only [stateAt_scale c inp hc, hvol]
  rfl

example : ∀ t : ℕ, (0 : ℚ) < (fun t : ℕ => (t : ℚ) + 1) t := by intro t; positivity

/-- C18.  At a rebalance the notional bought at the next open is, per instrument, the share
`|w_i| / sum |w|` of the basket value, and in total the whole basket value; at other bars nothing is
traded. -/
theorem C18_self_financing (inp : Input K m) (hw : WellFormed inp) :
    ∃ (V : ℕ → K) (H : ℕ → Fin m → K) (vols : List (Flt K)),
      basketToEtf inp = .ok ((List.range inp.num).map fun t => some (V t), vols) ∧
      (∀ t < inp.num, V t = 1 + ∑ s ∈ Finset.range t, profit inp (H s) (s + 1)) ∧
      (∀ t, EffRebal inp t →
        (∀ i, |H t i * (inp.opens (t + 1) i * inp.fx t i)| =
          |V t| * (|inp.weights t i| / gross inp t)) ∧
        ∑ i, |H t i * (inp.opens (t + 1) i * inp.fx t i)| = |V t|) ∧
      (∀ t, ¬ EffRebal inp (t + 1) → H (t + 1) = H t) := by
  refine ⟨V inp, H inp, _, basketToEtf_eq inp hw, fun t _ => V_sum inp hw t, ?_, ?_⟩
  · intro t hr
    have hg0 : 0 ≤ gross inp t := Finset.sum_nonneg fun i _ => abs_nonneg _
    have key : ∀ i, |H inp t i * (inp.opens (t + 1) i * inp.fx t i)| =
        |V inp t| * (|inp.weights t i| / gross inp t) := by
      intro i
      rw [H_rebal inp hw t hr, div_mul_cancel₀ _ (hw.priceR t hr i), abs_div, abs_mul,
        abs_of_nonneg hg0]
      ring
    refine ⟨key, ?_⟩
    rw [Finset.sum_congr rfl fun i _ => key i, ← Finset.mul_sum, ← Finset.sum_div]
    show |V inp t| * (gross inp t / gross inp t) = _
    rw [div_self (hw.grossR t hr), mul_one]
  · intro t hr
    funext i
    exact H_keep inp t hr i

example : EffRebal exInput 1 ∧ ¬ EffRebal exInput (1 + 1) := by
  refine ⟨⟨le_refl _, by decide, by decide⟩, fun h => ?_⟩
  have := h.2.2
  revert this
  decide

/-- C128.  With positive volumes the VOLUME column is the largest number of basket units that can be
traded: it times the units held of each instrument is at most the traded volume, with equality for
some instrument; with no holdings at all it is infinite. -/
theorem C128_basket_volume (inp : Input K m) (hw : WellFormed inp)
    (hv : ∀ t i, 0 < inp.volumes t i) :
    ∃ (V : ℕ → K) (H : ℕ → Fin m → K) (vols : List (Flt K)),
      basketToEtf inp = .ok ((List.range inp.num).map fun t => some (V t), vols) ∧
      (∀ t < inp.num, ∀ i, Held inp V t i (H t i)) ∧ vols.length = inp.num ∧
      ∀ t < inp.num, (vols[t]? = some .pinf ∧ ∀ i, H t i = 0) ∨
        ∃ q, vols[t]? = some (.fin q) ∧ (∀ i, q * |H t i| ≤ inp.volumes t i) ∧
          ∃ i, H t i ≠ 0 ∧ q * |H t i| = inp.volumes t i := by
  refine ⟨V inp, H inp, _, basketToEtf_eq inp hw, fun t _ i => held inp hw t i, by simp, ?_⟩
  intro t ht
  have hget : ((List.range inp.num).map (volumeAt inp))[t]? = some (volumeAt inp t) := by
    rw [List.getElem?_map, List.getElem?_range ht]; rfl
  rw [hget]
  have hrow : (List.ofFn fun i => volRatio (inp.volumes t i) ((stateAt inp t).holdings i)) =
      List.ofFn fun i => if H inp t i = 0 then Flt.pinf else .fin (inp.volumes t i / |H inp t i|) := by
    congr 1
    funext i
    rw [(state_finite inp hw t).2 i]
    simp only [volRatio]
    by_cases h : H inp t i = 0
    · rw [if_pos h, if_pos h, if_pos (hv t i)]
    · rw [if_neg h, if_neg h]
  unfold volumeAt
  rw [hrow]
  rcases foldr_fltMin (List.ofFn fun i => if H inp t i = 0 then Flt.pinf
      else .fin (inp.volumes t i / |H inp t i|)) (by
    intro x hx
    rw [List.mem_ofFn] at hx
    obtain ⟨i, rfl⟩ := hx
    by_cases h : H inp t i = 0
    · left; rw [if_pos h]
    · right; exact ⟨_, if_neg h⟩) with ⟨h1, h2⟩ | ⟨q, h1, h2, h3⟩
  · left
    refine ⟨by rw [h1], fun i => ?_⟩
    by_contra h
    have := h2 _ (List.mem_ofFn.2 ⟨i, rfl⟩)
    rw [if_neg h] at this
    cases this
  · right
    refine ⟨q, by rw [h1], fun i => ?_, ?_⟩
    · by_cases h : H inp t i = 0
      · rw [h, abs_zero, mul_zero]; exact (hv t i).le
      · rw [← le_div_iff₀ (abs_pos.2 h)]
        exact h3 _ (List.mem_ofFn.2 ⟨i, if_neg h⟩)
    · rw [List.mem_ofFn] at h2
      obtain ⟨i, hi⟩ := h2
      by_cases h : H inp t i = 0
      · rw [if_pos h] at hi; cases hi
      · rw [if_neg h] at hi
        cases hi
        exact ⟨i, h, div_mul_cancel₀ _ (abs_pos.2 h).ne'⟩

example : (basketToEtf exInput).map (fun r => r.2[0]?) = .ok (some (.fin (2200 : ℚ))) := by
  decide +kernel

/-! ## C19-C21, C127: rolled series -/

variable {C : Type} [DecidableEq C]

/-- C19.  The adjusted close changes like the raw close, except that on a roll date only the change
from open to close counts; on a roll date the adjusted open continues the previous adjusted close.
Columns that are not listed are unchanged. -/
theorem C19_roll_gaps_removed (bars : Frame K) (contracts : List C) (hf : FrameOk bars contracts)
    (cols : List Col) (hd : cols.Nodup) (hclose : Col.close ∈ cols) (hopen : Col.open ∈ cols)
    (matchEnd : Bool) (hn : matchEnd = true → 2 ≤ contracts.length) :
    ∃ res, adjustRolledSeries bars contracts cols matchEnd = .ok res ∧ FrameOk res contracts ∧
      (∀ c, c ∉ cols → res c = bars c) ∧
      ∀ t, t + 1 < contracts.length →
        (¬ IsRoll contracts (t + 1) → ∀ c ∈ cols,
          (res c).getD (t + 1) 0 - (res c).getD t 0 =
            (bars c).getD (t + 1) 0 - (bars c).getD t 0) ∧
        (IsRoll contracts (t + 1) →
          (res .close).getD (t + 1) 0 - (res .close).getD t 0 =
            (bars .close).getD (t + 1) 0 - (bars .open).getD (t + 1) 0 ∧
          (res .open).getD (t + 1) 0 = (res .close).getD t 0) := by
  obtain ⟨res, h1, h2, h3, h4⟩ := adjust_ok bars contracts hf cols hd matchEnd hn
  refine ⟨res, h1, h2, h3, ?_⟩
  intro t ht
  constructor
  · intro hr c hc
    rw [h4 c hc _ ht, h4 c hc t (by omega), totalJump_succ, jump,
      if_neg (by rw [rollAt_iff]; exact hr)]
    ring
  · intro hr
    rw [h4 _ hclose _ ht, h4 _ hclose t (by omega), h4 _ hopen _ ht, totalJump_succ, jump,
      if_pos (by rw [rollAt_iff]; exact hr), Nat.add_sub_cancel]
    constructor <;> ring

/-- Five bars; contract 7 rolls into contract 8 at bar 2. -/
def exBars : Frame ℚ
  | .open => [10, 11, 15, 16, 19]
  | .high => [12, 12, 17, 17, 20]
  | .low => [9, 10, 14, 15, 16]
  | .close => [11, 12, 16, 17, 18]
  | .volume => [1, 1, 1, 1, 1]
  | .vwap => [10, 11, 15, 16, 17]

example : FrameOk exBars [7, 7, 8, 8, 8] ∧ IsRoll [7, 7, 8, 8, 8] 2 := by
  refine ⟨fun c => by cases c <;> rfl, by decide, 8, rfl, ?_⟩
  intro j hj
  interval_cases j <;> decide

example : (adjustRolledSeries exBars [7, 7, 8, 8, 8] [.open, .close] true).map (fun f => f .close) =
    .ok [14, 15, 16, 17, 18] := by decide +kernel

/-- C20, full claim: the last (`match_end=True`) or first (`match_end=False`) adjusted price is the
raw one. -/
def RollMatches : Prop := ∀ (bars : Frame ℚ) (contracts : List ℕ) (cols : List Col)
  (matchEnd : Bool), FrameOk bars contracts → cols.Nodup → 2 ≤ contracts.length →
  ∃ res, adjustRolledSeries bars contracts cols matchEnd = .ok res ∧ ∀ c ∈ cols,
    if matchEnd then (res c).getLast? = (bars c).getLast? else (res c).head? = (bars c).head?

/-- C20, counterexample: a roll on the very last bar is not covered by `iloc[-2]`. -/
theorem C20_last_bar_roll_counterexample : ¬ RollMatches := by
  intro h
  obtain ⟨res, h1, h2⟩ := h exBars [7, 7, 7, 7, 8] [.open, .close] true
    (fun c => by cases c <;> rfl) (by decide) (by decide)
  have h3 := h2 .close (by decide)
  have h4 : (adjustRolledSeries exBars [7, 7, 7, 7, 8] [.open, .close] true).map
      (fun f => (f .close).getLast?) = .ok (some 18) := by
    rw [h1]
    exact congrArg Except.ok h3
  revert h4
  decide +kernel

/-- C20, what holds: with `match_end=False` the first bar is unchanged; with `match_end=True` the
last bar but one is, and the last bar is too if it is not a roll date (missing: a roll on the last
bar, which shifts the last price by the roll gap). -/
theorem C20_roll_matches_partial (bars : Frame K) (contracts : List C) (hf : FrameOk bars contracts)
    (cols : List Col) (hd : cols.Nodup) (hn : 2 ≤ contracts.length) :
    (∃ res, adjustRolledSeries bars contracts cols false = .ok res ∧
      ∀ c ∈ cols, (res c).getD 0 0 = (bars c).getD 0 0) ∧
    (∃ res, adjustRolledSeries bars contracts cols true = .ok res ∧
      (∀ c ∈ cols, (res c).getD (contracts.length - 2) 0 = (bars c).getD (contracts.length - 2) 0) ∧
      (¬ IsRoll contracts (contracts.length - 1) →
        ∀ c ∈ cols, (res c).getD (contracts.length - 1) 0 = (bars c).getD (contracts.length - 1) 0) ∧
      (IsRoll contracts (contracts.length - 1) →
        ∀ c ∈ cols, (res c).getD (contracts.length - 1) 0 = (bars c).getD (contracts.length - 1) 0 -
          ((bars .open).getD (contracts.length - 1) 0 -
            (bars .close).getD (contracts.length - 2) 0))) := by
  constructor
  · obtain ⟨res, h1, h2, h3, h4⟩ := adjust_ok bars contracts hf cols hd false (by simp)
    refine ⟨res, h1, fun c hc => ?_⟩
    rw [h4 c hc 0 (by omega), totalJump_zero]
    simp [endShift]
  · obtain ⟨res, h1, h2, h3, h4⟩ := adjust_ok bars contracts hf cols hd true (fun _ => hn)
    obtain ⟨n, hn'⟩ : ∃ n, contracts.length = n + 2 := ⟨contracts.length - 2, by omega⟩
    rw [show contracts.length - 2 = n by omega, show contracts.length - 1 = n + 1 by omega]
    refine ⟨res, h1, ?_, ?_, ?_⟩
    · intro c hc
      rw [h4 c hc n (by omega), endShift, hn', if_pos rfl, Nat.add_sub_cancel]
      ring
    · intro hr c hc
      rw [h4 c hc (n + 1) (by omega), endShift, hn', if_pos rfl, totalJump_succ, jump,
        if_neg (by rw [rollAt_iff]; exact hr), Nat.add_sub_cancel]
      ring
    · intro hr c hc
      rw [h4 c hc (n + 1) (by omega), endShift, hn', if_pos rfl, totalJump_succ, jump,
        if_pos (by rw [rollAt_iff]; exact hr), Nat.add_sub_cancel, Nat.add_sub_cancel]
      ring

/-- C20, single bar: `match_end=True` raises IndexError. -/
theorem C20_single_bar_partial (bars : Frame K) (c : C) (hf : FrameOk bars [c]) (cols : List Col) :
    adjustRolledSeries bars [c] cols true = .error .indexError := by
  have hraw : (List.range (bars .close).length).mapM (rawGap bars [c]) =
      .ok ((List.range (bars .close).length).map (jump bars [c])) := by
    apply mapM_ok_of_forall
    intro i hi
    rw [List.mem_range, hf] at hi
    exact rawGap_ok bars [c] hf i hi
  unfold adjustRolledSeries computeRollGaps
  rw [hraw, py_bind_ok]
  have : ilocM2 (cumsum ((List.range (bars .close).length).map (jump bars [c]))) =
      .error .indexError := by
    unfold ilocM2 cumsum
    rw [cumsumFrom_length, if_pos (by simp [hf .close])]
  simp only [if_true]
  rw [this]
  rfl

example : FrameOk (fun _ => [(1 : ℚ)] : Frame ℚ) [7] := fun _ => rfl

/-- C21, full claim: positive prices give a non-negative RET_PRICES column. -/
def RetPricesNonneg : Prop := ∀ (bars : Frame ℚ) (contracts : List ℕ) (r : List ℚ),
  FrameOk bars contracts → (∀ c, ∀ x ∈ bars c, 0 < x) →
  rolledRetPrices bars contracts [.open, .close] true = .ok r → ∀ x ∈ r, 0 ≤ x

/-- Positive prices; on the roll date the new contract falls from 100 to 80, the old one closed
at 10. -/
def fallBars : Frame ℚ
  | .open => [10, 100, 80]
  | .close => [10, 80, 80]
  | _ => [1, 1, 1]

/-- C21, counterexample. -/
theorem C21_ret_prices_counterexample : ¬ RetPricesNonneg := by
  intro h
  have h1 : rolledRetPrices fallBars [7, 8, 8] [.open, .close] true = .ok [1, -1, -1] := by
    decide +kernel
  have h2 := h fallBars [7, 8, 8] _ (fun c => by cases c <;> rfl) (by
    intro c; cases c <;> decide +kernel) h1 (-1) (by simp)
  norm_num at h2

theorem retPrices_factors (adj raw : List K) (hlen : adj.length = raw.length)
    (hpos : ∀ x ∈ raw, 0 < x)
    (h : ∀ t, t + 1 < adj.length → 0 ≤ raw.getD t 0 + (adj.getD (t + 1) 0 - adj.getD t 0)) :
    ∀ x ∈ ((0 : K) :: rollReturns adj raw).map (fun r => 1 + r), 0 ≤ x := by
  intro x hx
  rw [List.map_cons, List.mem_cons] at hx
  rcases hx with rfl | hx
  · norm_num
  · obtain ⟨r, hr, rfl⟩ := List.mem_map.1 hx
    unfold rollReturns at hr
    obtain ⟨t, ht, rfl⟩ := List.mem_map.1 hr
    rw [List.mem_range] at ht
    have hp : 0 < raw.getD t 0 := by
      rw [List.getD_eq_getElem _ _ (by omega)]
      exact hpos _ (List.getElem_mem _)
    have := h t (by omega)
    have h2 : 1 + (adj.getD (t + 1) 0 - adj.getD t 0) / raw.getD t 0 =
        (raw.getD t 0 + (adj.getD (t + 1) 0 - adj.getD t 0)) / raw.getD t 0 := by
      field_simp
    rw [h2]
    exact div_nonneg this hp.le

/-- C21, what holds: with positive closes the column starts at 1 and is non-negative as long as on
every roll date the new contract does not lose more than the previous close (missing: larger
falls). -/
theorem C21_ret_prices_partial (bars : Frame K) (contracts : List C) (hf : FrameOk bars contracts)
    (cols : List Col) (hd : cols.Nodup) (hclose : Col.close ∈ cols) (hopen : Col.open ∈ cols)
    (matchEnd : Bool) (hn : 1 ≤ contracts.length) (hn2 : matchEnd = true → 2 ≤ contracts.length)
    (hpos : ∀ x ∈ bars .close, 0 < x)
    (hroll : ∀ t, t + 1 < contracts.length → IsRoll contracts (t + 1) →
      0 ≤ (bars .close).getD t 0 + ((bars .close).getD (t + 1) 0 - (bars .open).getD (t + 1) 0)) :
    ∃ r, rolledRetPrices bars contracts cols matchEnd = .ok r ∧ r.length = contracts.length ∧
      r.head? = some 1 ∧ ∀ x ∈ r, 0 ≤ x := by
  obtain ⟨res, h1, h2, h3, h4⟩ :=
    C19_roll_gaps_removed bars contracts hf cols hd hclose hopen matchEnd hn2
  have hl : (res .close).length = contracts.length := h2 _
  have hne : res .close ≠ [] := by
    rw [← List.length_pos_iff]; omega
  have h0 : (0 : K) ∉ (bars .close).dropLast := fun hm =>
    (hpos 0 (List.mem_of_mem_dropLast hm)).ne' rfl
  refine ⟨_, by rw [rolledRetPrices, h1, py_bind_ok, retPrices, if_neg hne, if_neg h0], ?_, ?_, ?_⟩
  · rw [cumprodFrom_length, List.length_map, List.length_cons, rollReturns, List.length_map,
      List.length_range, hl]
    omega
  · simp [cumprodFrom]
  · apply cumprodFrom_mem_nonneg _ _ zero_le_one
    apply retPrices_factors _ _ (by rw [hl, hf]) hpos
    intro t ht
    rw [hl] at ht
    by_cases hr : IsRoll contracts (t + 1)
    · rw [((h4 t ht).2 hr).1]
      exact hroll t ht hr
    · rw [(h4 t ht).1 hr _ hclose]
      have : 0 < (bars .close).getD (t + 1) 0 := by
        rw [List.getD_eq_getElem _ _ (by rw [hf]; exact ht)]
        exact hpos _ (List.getElem_mem _)
      linarith

example : rolledRetPrices exBars [7, 7, 8, 8, 8] [.open, .close] true =
    .ok [1, 12 / 11, 13 / 11, 221 / 176, 117 / 88] := by decide +kernel

/-- C127, full claim: the gap is removed wherever the contract changes. -/
def ChangesAdjusted : Prop := ∀ (bars : Frame ℚ) (contracts : List ℕ) (cols : List Col)
  (matchEnd : Bool) (res : Frame ℚ), FrameOk bars contracts → cols.Nodup → .close ∈ cols →
  .open ∈ cols → adjustRolledSeries bars contracts cols matchEnd = .ok res →
  ∀ t, t + 1 < contracts.length → Changes contracts (t + 1) →
    (res .open).getD (t + 1) 0 = (res .close).getD t 0

/-- C127, counterexample: going back to an earlier contract name is not seen as a roll. -/
theorem C127_returning_contract_counterexample : ¬ ChangesAdjusted := by
  intro h
  cases hr : adjustRolledSeries exBars [7, 8, 7, 7, 7] [.open, .close] false with
  | error e =>
    have : (adjustRolledSeries exBars [7, 8, 7, 7, 7] [.open, .close] false).map (fun _ => ()) =
        .ok () := by decide +kernel
    rw [hr] at this
    cases this
  | ok res =>
    have h1 := h exBars [7, 8, 7, 7, 7] _ false res (fun c => by cases c <;> rfl) (by decide)
      (by decide) (by decide) hr 1 (by decide) ⟨by decide, by decide, by decide⟩
    have h2 : (adjustRolledSeries exBars [7, 8, 7, 7, 7] [.open, .close] false).map
        (fun f => decide ((f .open).getD 2 0 = (f .close).getD 1 0)) = .ok true := by
      rw [hr]
      exact congrArg Except.ok (decide_eq_true h1)
    revert h2
    decide +kernel

/-- C127, what holds: if no contract comes back after a change, the gap is removed at every change
(missing: contract names that are used again later). -/
theorem C127_changes_adjusted_partial (bars : Frame K) (contracts : List C)
    (hf : FrameOk bars contracts) (cols : List Col) (hd : cols.Nodup) (hclose : Col.close ∈ cols)
    (hopen : Col.open ∈ cols) (matchEnd : Bool) (hn : matchEnd = true → 2 ≤ contracts.length)
    (hback : ∀ i j k, i < j → j < k → k < contracts.length → contracts[i]? = contracts[k]? →
      contracts[j]? = contracts[k]?) :
    ∃ res, adjustRolledSeries bars contracts cols matchEnd = .ok res ∧
      ∀ t, t + 1 < contracts.length →
        (Changes contracts (t + 1) →
          (res .open).getD (t + 1) 0 = (res .close).getD t 0 ∧
          (res .close).getD (t + 1) 0 - (res .close).getD t 0 =
            (bars .close).getD (t + 1) 0 - (bars .open).getD (t + 1) 0) ∧
        (¬ Changes contracts (t + 1) → ∀ c ∈ cols,
          (res c).getD (t + 1) 0 - (res c).getD t 0 =
            (bars c).getD (t + 1) 0 - (bars c).getD t 0) := by
  obtain ⟨res, h1, _, _, h4⟩ :=
    C19_roll_gaps_removed bars contracts hf cols hd hclose hopen matchEnd hn
  have key : ∀ t, t + 1 < contracts.length →
      (Changes contracts (t + 1) ↔ IsRoll contracts (t + 1)) := by
    intro t ht
    constructor
    · rintro ⟨_, _, hne⟩
      refine ⟨by omega, contracts[t + 1], List.getElem?_eq_getElem ht, ?_⟩
      intro j hj he
      rw [Nat.add_sub_cancel] at hne
      rcases Nat.lt_or_ge j t with hjt | hjt
      · apply hne
        rw [hback j t (t + 1) hjt (by omega) ht (by rw [he, List.getElem?_eq_getElem ht])]
      · have : j = t := by omega
        subst this
        exact hne (by rw [he, List.getElem?_eq_getElem ht])
    · rintro ⟨_, c, hc, hno⟩
      refine ⟨by omega, ht, ?_⟩
      rw [Nat.add_sub_cancel, hc]
      exact (hno t (by omega)).symm
  refine ⟨res, h1, fun t ht => ⟨fun hc => ?_, fun hc => ?_⟩⟩
  · have := (h4 t ht).2 ((key t ht).1 hc)
    exact ⟨this.2, this.1⟩
  · exact (h4 t ht).1 (fun hr => hc ((key t ht).2 hr))

example : Changes [7, 7, 8, 8, 8] 2 ∧ ∀ i j k, i < j → j < k → k < [7, 7, 8, 8, 8].length →
    [7, 7, 8, 8, 8][i]? = [7, 7, 8, 8, 8][k]? → [7, 7, 8, 8, 8][j]? = [7, 7, 8, 8, 8][k]? := by
  refine ⟨⟨by decide, by decide, by decide⟩, ?_⟩
  intro i j k hij hjk hk
  have hk' : k < 5 := hk
  interval_cases k <;> interval_cases j <;> interval_cases i <;> simp

end FinML.Basket
