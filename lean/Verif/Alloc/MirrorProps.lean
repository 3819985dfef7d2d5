import Verif.Alloc.PosProps
import Verif.Alloc.ProbProps
import Verif.Alloc.DivProps
import Verif.Weights.UnitProps

/-!
# C177: position sizes treat long and short alike, and have no clock and no currency
-/

namespace FinML.Alloc

open FinML.Weights

set_option linter.unusedSectionVars false

section
variable {K : Type} [Field K] [LinearOrder K] [IsStrictOrderedRing K]

/-! ## Long and short -/

/-- The opposite side. -/
def flipSide (e : ℤ × Option ℤ × K) : ℤ × Option ℤ × K := (e.1, e.2.1, -e.2.2)

/-- The opposite of a series. -/
def negSeries (s : NanSeries K) : NanSeries K := s.map fun p => (p.1, p.2.map fun x => -x)

theorem ofSide_flip (events : List (ℤ × Option ℤ × K)) (v : K) :
    ofSide (events.map flipSide) v = ofSide events (-v) := by
  unfold ofSide
  rw [List.filter_map, List.map_map]
  have : ((fun e : ℤ × Option ℤ × K => decide (e.2.2 = v)) ∘ flipSide) = fun e => decide (e.2.2 = -v) := by
    funext e
    simp [flipSide, neg_eq_iff_eq_neg]
  rw [this]
  rfl

theorem sorted_ext {a b : List ℤ} (ha : a.Pairwise (· < ·)) (hb : b.Pairwise (· < ·))
    (h : ∀ t, t ∈ a ↔ t ∈ b) : a = b := by
  have na : a.Nodup := ha.imp fun h => h.ne
  have nb : b.Nodup := hb.imp fun h => h.ne
  have hp : a.Perm b := (List.perm_ext_iff_of_nodup na nb).2 h
  exact hp.eq_of_pairwise (fun x y _ _ h1 h2 => absurd h1 (not_lt.2 h2.le)) ha hb

theorem unionIndex_comm (a b : List ℤ) : unionIndex a b = unionIndex b a :=
  sorted_ext (unionIndex_sorted a b) (unionIndex_sorted b a) fun t => by
    rw [mem_unionIndex, mem_unionIndex, or_comm]

theorem align_sub_swap (a b : NanSeries K) : alignWith (· - ·) b a = negSeries (alignWith (· - ·) a b) := by
  unfold alignWith negSeries
  rw [unionIndex_comm, List.map_map]
  apply List.map_congr_left
  intro t _
  simp only [Function.comp, Prod.mk.injEq, true_and]
  cases lookup a t <;> cases lookup b t <;> simp

/-- C177 (budget): with all sides reversed, the budgeted sizes change their sign. -/
theorem C177_budget_mirror (bars : List ℤ) (events : List (ℤ × Option ℤ × K)) (budgetFn : List K → Py K)
    (s : NanSeries K) :
    budgetedPositionSize bars (events.map flipSide) budgetFn = .ok (negSeries s) ↔
      budgetedPositionSize bars events budgetFn = .ok s := by
  have key : ∀ (events : List (ℤ × Option ℤ × K)) (s : NanSeries K),
      budgetedPositionSize bars events budgetFn = .ok s →
      budgetedPositionSize bars (events.map flipSide) budgetFn = .ok (negSeries s) := by
    intro events s h
    unfold budgetedPositionSize at h ⊢
    obtain ⟨l, hl, h⟩ := py_bind_eq_ok.1 h
    obtain ⟨sh, hs, h⟩ := py_bind_eq_ok.1 h
    obtain ⟨bl, hbl, h⟩ := py_bind_eq_ok.1 h
    obtain ⟨bs, hbs, h⟩ := py_bind_eq_ok.1 h
    rw [ofSide_flip, ofSide_flip, neg_neg, hs, hl]
    simp only [py_bind_ok, hbs, hbl]
    rw [align_sub_swap]
    simp only [py_pure, Except.ok.injEq] at h ⊢
    rw [h]
  have inv : ∀ e : List (ℤ × Option ℤ × K), (e.map flipSide).map flipSide = e := by
    intro e
    rw [List.map_map]
    have : (flipSide ∘ flipSide : ℤ × Option ℤ × K → _) = id := by
      funext x; simp [flipSide]
    rw [this, List.map_id]
  have invs : ∀ e : NanSeries K, negSeries (negSeries e) = e := by
    intro e
    unfold negSeries
    rw [List.map_map]
    conv_rhs => rw [← List.map_id e]
    apply List.map_congr_left
    rintro ⟨t, x⟩ _
    cases x <;> simp
  refine ⟨fun h => ?_, key events s⟩
  have := key _ _ h
  rwa [inv, invs] at this

/-! ## Clock -/

variable {φ : ℤ → ℤ}

theorem lookup_conv (h : StrictMono φ) (s : NanSeries K) (t : ℤ) : lookup (conv φ s) (φ t) = lookup s t := by
  unfold lookup
  rw [find_conv h]
  cases s.find? fun p => decide (p.1 = t) <;> rfl

theorem unionIndex_conv (h : StrictMono φ) (a b : List ℤ) :
    unionIndex (a.map φ) (b.map φ) = (unionIndex a b).map φ := by
  unfold unionIndex
  rw [← List.map_append, List.dedup_map_of_injective h.injective]
  exact (List.map_insertionSort (· ≤ ·) (· ≤ ·) φ _ (fun _ _ _ _ => h.le_iff_le.symm)).symm

theorem conv_fst {α : Type} (s : Series α) : (conv φ s).map Prod.fst = (s.map Prod.fst).map φ := by
  unfold conv
  rw [List.map_map, List.map_map]
  rfl

theorem alignWith_conv (h : StrictMono φ) (f : K → K → K) (a b : NanSeries K) :
    alignWith f (conv φ a) (conv φ b) = conv φ (alignWith f a b) := by
  unfold alignWith
  rw [conv_fst, conv_fst, unionIndex_conv h, List.map_map]
  have e : ∀ (l : List ℤ) (g : ℤ → ℤ × Option K), conv φ (l.map g) = l.map fun t => (φ (g t).1, (g t).2) := by
    intro l g
    simp [conv, Function.comp_def]
  rw [e]
  apply List.map_congr_left
  intro t _
  simp only [Function.comp]
  rw [lookup_conv h, lookup_conv h]

theorem fillIndex_conv (h : StrictMono φ) (bars : List ℤ) (s : NanSeries K) (v : K) :
    fillIndex (bars.map φ) (conv φ s) v = conv φ (fillIndex bars s v) := by
  unfold fillIndex
  have e : (bars.map φ).map (fun t => (t, some v)) = conv φ (bars.map fun t => (t, some v)) := by
    simp [conv, Function.comp_def]
  rw [e, alignWith_conv h]
  simp only [conv, List.map_map]
  rfl

/-- An event with a side on another clock. -/
def reclockSided (φ : ℤ → ℤ) (e : ℤ × Option ℤ × K) : ℤ × Option ℤ × K := (φ e.1, e.2.1.map φ, e.2.2)

theorem ofSide_conv (events : List (ℤ × Option ℤ × K)) (v : K) :
    ofSide (events.map (reclockSided φ)) v = convEvents φ (ofSide events v) := by
  unfold ofSide convEvents
  rw [List.filter_map, List.map_map, List.map_map]
  rfl

/-- C177 (budget): the budgeted sizes are the same on every clock, errors included. -/
theorem C177_budget_clock (h : StrictMono φ) (bars : List ℤ) (events : List (ℤ × Option ℤ × K))
    (budgetFn : List K → Py K) :
    budgetedPositionSize (bars.map φ) (events.map (reclockSided φ)) budgetFn =
      (budgetedPositionSize bars events budgetFn).map (conv φ) := by
  have ed : ∀ (c : Series ℕ) (b : K), divSeries (conv φ c) b = conv φ (divSeries c b) := by
    intro c b
    simp only [divSeries, conv, List.map_map]
    rfl
  have ec : ∀ c : Series ℕ, (conv φ c).map (fun p => (p.2 : K)) = c.map fun p => (p.2 : K) := by
    intro c
    simp only [conv, List.map_map]
    rfl
  unfold budgetedPositionSize
  rw [ofSide_conv, ofSide_conv, C175_counts h, C175_counts h]
  cases countEventsPerBar bars (ofSide events 1) with
  | error x => rfl
  | ok l =>
    cases countEventsPerBar bars (ofSide events (-1)) with
    | error x => rfl
    | ok s =>
      simp only [Except.map, py_bind_ok, ec]
      cases budgetFn (l.map fun p => (p.2 : K)) with
      | error x => rfl
      | ok bl =>
        cases budgetFn (s.map fun p => (p.2 : K)) with
        | error x => rfl
        | ok bs =>
          simp only [py_bind_ok, py_pure, ed, fillIndex_conv h, alignWith_conv h]

theorem netConcurrency_conv (h : StrictMono φ) (bars : List ℤ) (events : List (ℤ × Option ℤ × K)) :
    netConcurrency (bars.map φ) (events.map (reclockSided φ)) =
      (netConcurrency bars events).map (conv φ) := by
  have ea : ∀ c : Series ℕ, (asSeries (conv φ c) : NanSeries K) = conv φ (asSeries c) := by
    intro c
    simp only [asSeries, conv, List.map_map]
    rfl
  unfold netConcurrency
  rw [ofSide_conv, ofSide_conv, C175_counts h, C175_counts h]
  cases countEventsPerBar bars (ofSide events 1) with
  | error x => rfl
  | ok l =>
    cases countEventsPerBar bars (ofSide events (-1)) with
    | error x => rfl
    | ok s => simp only [Except.map, py_bind_ok, py_pure, ea, fillIndex_conv h, alignWith_conv h]

/-! ## Averages of active positions -/

/-- A position in another unit and on another clock. -/
def Position.conv (a : K) (φ : ℤ → ℤ) (p : Position K) : Position K := ⟨φ p.start, p.stop.map φ, a * p.size⟩

variable {a : K}

theorem isActive_conv (h : StrictMono φ) (t : ℤ) (p : Position K) :
    isActive (φ t) (p.conv a φ) = isActive t p := by
  obtain ⟨s, e, x⟩ := p
  cases e <;> simp [isActive, Position.conv, h.le_iff_le]

theorem avgAt_conv (h : StrictMono φ) (ps : List (Position K)) (t : ℤ) :
    avgAt (ps.map (Position.conv a φ)) (φ t) = a * avgAt ps t := by
  have e1 : (((ps.map (Position.conv a φ)).filter (isActive (φ t))).map Position.start).dedup =
      (((ps.filter (isActive t)).map Position.start).dedup).map φ := by
    rw [List.filter_map, ← List.dedup_map_of_injective h.injective, List.map_map, List.map_map]
    have : (isActive (φ t) ∘ Position.conv a φ) = isActive t := by
      funext p
      exact isActive_conv h t p
    rw [this]
    rfl
  have e2 : ∀ s : ℤ, ((ps.map (Position.conv a φ)).filter fun p => p.start = φ s) =
      (ps.filter fun p => p.start = s).map (Position.conv a φ) := by
    intro s
    rw [List.filter_map]
    congr 2
    funext p
    simp [Position.conv, h.injective.eq_iff]
  unfold avgAt
  simp only [e1, List.length_map]
  generalize ((ps.filter (isActive t)).map Position.start).dedup = starts
  have e3 : (((starts.map φ).flatMap fun s => (ps.map (Position.conv a φ)).filter fun p => p.start = s).map
      Position.size) = ((starts.flatMap fun s => ps.filter fun p => p.start = s).map Position.size).map
        (a * ·) := by
    rw [List.flatMap_map]
    simp only [e2]
    rw [← List.map_flatMap, List.map_map, List.map_map]
    rfl
  rw [e3]
  split_ifs
  · unfold meanOf
    rw [List.length_map]
    have := List.sum_map_mul_left ((starts.flatMap fun s => ps.filter fun p => p.start = s).map Position.size) id a
    simp only [List.map_id, id] at this
    rw [this, mul_div_assoc]
  · simp

theorem avgActive_conv (h : StrictMono φ) (ps : List (Position K)) :
    avgActivePositions (ps.map (Position.conv a φ)) =
      (avgActivePositions ps).map fun p => (φ p.1, a * p.2) := by
  have e1 : (ps.map (Position.conv a φ)).map Position.start = (ps.map Position.start).map φ := by
    rw [List.map_map, List.map_map]; rfl
  have e2 : (ps.map (Position.conv a φ)).filterMap Position.stop = (ps.filterMap Position.stop).map φ := by
    rw [List.filterMap_map, List.map_filterMap]; rfl
  unfold avgActivePositions positionTimes
  rw [e1, e2, unionIndex_conv h, List.map_map, List.map_map]
  apply List.map_congr_left
  intro t _
  simp only [Function.comp, avgAt_conv h]

end

variable {φ : ℤ → ℤ}

/-- C177 (mixture): the mixture sizes are the same on every clock, for a fit that looks at values only. -/
theorem C177_mixture_clock (h : StrictMono φ) (fit : NanSeries ℝ → List Component)
    (hfit : ∀ s, fit (conv φ s) = fit s) (bars : List ℤ) (events : List (ℤ × Option ℤ × ℝ)) :
    gaussianMixturePositionSize fit (bars.map φ) (events.map (reclockSided φ)) =
      (gaussianMixturePositionSize fit bars events).map (conv φ) := by
  unfold gaussianMixturePositionSize
  rw [netConcurrency_conv h]
  cases netConcurrency bars events with
  | error x => rfl
  | ok c =>
    simp only [Except.map, py_bind_ok, py_pure, hfit]
    simp only [conv, List.map_map]
    rfl

/-- A forecast on another clock, with the predictions multiplied by a sign. -/
def Forecast.conv (a : ℝ) (φ : ℤ → ℤ) (e : Forecast) : Forecast :=
  ⟨φ e.start, e.stop.map φ, e.side, e.prob, a * e.pred⟩

theorem toPosition_conv (a : ℝ) (n : ℕ) (e : Forecast) :
    toPosition n (e.conv a φ) = (toPosition n e).map (Position.conv a φ) := by
  unfold toPosition eventSize Forecast.conv
  simp only
  cases statCdf n e.prob with
  | none => rfl
  | some c =>
    simp only [Option.map_some, Option.elim_some]
    change Except.ok _ = Except.ok _
    simp only [Position.conv, Except.ok.injEq, Position.mk.injEq, true_and]
    ring

theorem fromProbabilities_conv (a : ℝ) (h : StrictMono φ) (events : List Forecast) (step : ℝ) (n : ℕ)
    (ha : ∀ x : ℝ, step ≠ 0 → discretize step (a * x) = a * discretize step x) :
    positionSizeFromProbabilities (events.map (Forecast.conv a φ)) step n =
      (positionSizeFromProbabilities events step n).map (List.map fun p => (φ p.1, a * p.2)) := by
  unfold positionSizeFromProbabilities
  rw [List.length_map]
  by_cases h0 : events.length = 0
  · rw [if_pos h0, if_pos h0]; rfl
  rw [if_neg h0, if_neg h0]
  by_cases hn : n = 0
  · rw [if_pos hn, if_pos hn]; rfl
  rw [if_neg hn, if_neg hn]
  by_cases h1 : step = 0
  · rw [if_pos h1, if_pos h1]; rfl
  rw [if_neg h1, if_neg h1]
  have e1 : (events.map (Forecast.conv a φ)).mapM (toPosition n) =
      (events.mapM (toPosition n)).map (List.map (Position.conv a φ)) := by
    clear h0
    induction events with
    | nil => rfl
    | cons e es ih =>
      rw [List.map_cons, List.mapM_cons, List.mapM_cons, ih, toPosition_conv]
      cases toPosition n e with
      | error x => rfl
      | ok y => cases es.mapM (toPosition n) <;> rfl
  rw [e1]
  cases events.mapM (toPosition n) with
  | error x => rfl
  | ok ps =>
    simp only [Except.map, py_bind_ok, py_pure, avgActive_conv h, List.map_map, Except.ok.injEq]
    apply List.map_congr_left
    intro p _
    simp only [Function.comp, ha _ h1]

/-- C177 (probabilities): sizes from probabilities are the same on every clock, errors included. -/
theorem C177_probability_clock (h : StrictMono φ) (events : List Forecast) (step : ℝ) (n : ℕ) :
    positionSizeFromProbabilities (events.map fun e => { e with start := φ e.start, stop := e.stop.map φ })
        step n =
      (positionSizeFromProbabilities events step n).map (List.map fun p => (φ p.1, p.2)) := by
  have := fromProbabilities_conv 1 h events step n (fun x _ => by rw [one_mul, one_mul])
  simp only [one_mul] at this
  rw [← this]
  congr 1
  apply List.map_congr_left
  intro e _
  simp [Forecast.conv]

/-- C177 (probabilities): with the opposite predictions the sizes change their sign. -/
theorem C177_probability_mirror (events : List Forecast) (step : ℝ) (hs : 0 < step) (n : ℕ) :
    positionSizeFromProbabilities (events.map fun e => { e with pred := -e.pred }) step n =
      (positionSizeFromProbabilities events step n).map (List.map fun p => (p.1, -p.2)) := by
  have := fromProbabilities_conv (φ := id) (-1) strictMono_id events step n
    (fun x _ => by rw [neg_one_mul, neg_one_mul]; exact (C85_monotone_odd step hs).2 x)
  simp only [neg_one_mul, id] at this
  rw [← this]
  congr 1
  apply List.map_congr_left
  intro e _
  simp [Forecast.conv]

/-! ## Currency -/

theorem scaledSigmoid_scale {c : ℝ} (hc : 0 < c) (w x : ℝ) :
    scaledSigmoid (c ^ 2 * w) (c * x) = scaledSigmoid w x := by
  have e : c ^ 2 * w + (c * x) ^ 2 = c ^ 2 * (w + x ^ 2) := by ring
  have h2 : 0 < c ^ 2 := by positivity
  unfold scaledSigmoid
  rw [e]
  by_cases h0 : w + x ^ 2 = 0
  · rw [if_pos h0, if_pos (by rw [h0, mul_zero])]
  · rw [if_neg h0, if_neg (mul_ne_zero h2.ne' h0)]
    by_cases h1 : w + x ^ 2 < 0
    · rw [if_pos h1, if_pos (mul_neg_of_pos_of_neg h2 h1)]
    · have h1' := not_lt.1 h1
      rw [if_neg h1, if_neg (not_lt.2 (mul_nonneg h2.le h1'))]
      rw [Real.mul_rpow h2.le h1', rpow_neg_half _ h2.le, Real.sqrt_sq hc.le]
      congr 1
      field_simp

/-- C177 (divergence): in another currency, with the coefficient calibrated there, the size is the same. -/
theorem C177_divergence {c : ℝ} (hc : 0 < c) (f p ms w x m : ℝ) :
    positionSizeFromDivergence (c * f) (c * p) ms (c ^ 2 * w) = positionSizeFromDivergence f p ms w ∧
    getSigmoidCoeff (c * x) m = (getSigmoidCoeff x m).map fun w => c ^ 2 * w := by
  constructor
  · unfold positionSizeFromDivergence
    rw [← mul_sub, scaledSigmoid_scale hc]
  · unfold getSigmoidCoeff
    split_ifs
    · rfl
    · change Except.ok _ = Except.ok _
      congr 1
      ring

theorem inversePrice_scale {c : ℝ} (hc : 0 < c) (f w m : ℝ) :
    inversePrice (c * f) (c ^ 2 * w) m = (inversePrice f w m).map fun x => c * x := by
  have h2 : 0 < c ^ 2 := by positivity
  unfold inversePrice
  by_cases h0 : 1 - m ^ 2 = 0
  · rw [if_pos h0, if_pos h0]; rfl
  rw [if_neg h0, if_neg h0, mul_div_assoc]
  by_cases h1 : w / (1 - m ^ 2) < 0
  · rw [if_pos h1, if_pos (mul_neg_of_pos_of_neg h2 h1)]; rfl
  have h1' := not_lt.1 h1
  rw [if_neg h1, if_neg (not_lt.2 (mul_nonneg h2.le h1'))]
  change Except.ok _ = Except.ok _
  congr 1
  rw [Real.mul_rpow h2.le h1', rpow_half, Real.sqrt_sq hc.le]
  ring

/-- C177 (limit price): the limit price is in the currency of the forecast, errors included. -/
theorem C177_limit_price {c : ℝ} (hc : 0 < c) (cur target : ℤ) (m : ℕ) (f w : ℝ) :
    computeLimitPrice cur target m (c * f) (c ^ 2 * w) =
      (computeLimitPrice cur target m f w).map fun x => c * x := by
  unfold computeLimitPrice
  simp only
  generalize pyRange _ _ = js
  have e1 : (js.mapM fun j : ℕ => if m = 0 then (.error .zeroDivision : Py ℝ)
        else inversePrice (c * f) (c ^ 2 * w) ((j : ℝ) / (m : ℝ))) =
      (js.mapM fun j : ℕ => if m = 0 then (.error .zeroDivision : Py ℝ)
        else inversePrice f w ((j : ℝ) / (m : ℝ))).map (List.map fun x => c * x) := by
    rw [← CV.mapM_map_ok]
    congr 1
    funext j
    split_ifs
    · rfl
    · exact inversePrice_scale hc f w _
  rw [e1]
  cases (js.mapM fun j : ℕ => if m = 0 then (.error .zeroDivision : Py ℝ)
        else inversePrice f w ((j : ℝ) / (m : ℝ))) with
  | error x => rfl
  | ok terms =>
    simp only [Except.map, py_bind_ok]
    split_ifs
    · rfl
    · simp only [Except.ok.injEq]
      have := List.sum_map_mul_left terms id c
      simp only [List.map_id, id] at this
      rw [this, mul_div_assoc]

/-- A case of the mirror: one long and two short events. -/
example : budgetedPositionSize (K := ℚ) [1, 2, 3] [(1, some 2, 1), (1, some 3, -1), (2, some 3, -1)] npMax =
      .ok [(1, some (1 / 2)), (2, some 0), (3, some (-1))] ∧
    budgetedPositionSize (K := ℚ) [1, 2, 3] [(1, some 2, -1), (1, some 3, 1), (2, some 3, 1)] npMax =
      .ok [(1, some (-1 / 2)), (2, some 0), (3, some 1)] := by
  decide +kernel

end FinML.Alloc
