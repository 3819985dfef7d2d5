import Verif.Micro.FlowProps
import Verif.Py.OlsUnit

/-! # Property C199: microstructure estimates in other units, and with buys and sells exchanged -/

set_option linter.unusedSectionVars false

namespace FinML.Micro

open Bars (tickRule tickRule_map)

/-! ## Tick rule -/

section Flags

variable {K : Type} [Field K] [LinearOrder K] [IsStrictOrderedRing K]

theorem tickRule_increasing (g : K → K) (hg : StrictMono g) (b0 : K) (p : List K) :
    tickRule b0 (p.map g) = tickRule b0 p := by
  have h := tickRule_map g 1 b0 p (fun x y => hg.injective.eq_iff) (by
    intro x y _
    simp only [hg.lt_iff_lt, one_mul])
  rw [one_mul] at h
  rw [h]
  simp

theorem tickRule_decreasing (g : K → K) (hg : StrictAnti g) (b0 : K) (p : List K) :
    tickRule (-b0) (p.map g) = (tickRule b0 p).map fun b => -b := by
  have h := tickRule_map g (-1) b0 p (fun x y => hg.injective.eq_iff) (by
    intro x y hne
    simp only [hg.lt_iff_gt]
    rcases lt_or_gt_of_ne hne with h | h
    · rw [if_neg (not_lt.2 h.le), if_pos h]; ring
    · rw [if_pos h, if_neg (not_lt.2 h.le)]; ring)
  rw [neg_one_mul] at h
  rw [h]
  simp

theorem groupBy_map {ι α β : Type} [LinearOrder ι] (ids : List ι) (xs : List α) (f : α → β) :
    groupBy ids (xs.map f) = (groupBy ids xs).map fun g => (g.1, g.2.map f) := by
  unfold groupBy
  rw [List.map_map]
  apply List.map_congr_left
  intro k _
  simp only [Function.comp_apply, Prod.mk.injEq, true_and]
  rw [List.zip_map_right, List.filter_map, List.map_map, List.map_map]
  rfl

theorem rolling_scale (n : ℕ) (c : K) (l : List K) :
    rolling n List.sum (l.map fun v => some (c * v)) =
      (rolling n List.sum (l.map some)).map (Option.map fun v => c * v) := by
  unfold rolling
  rw [List.map_map, List.length_map, List.length_map]
  apply List.map_congr_left
  intro i _
  simp only [Function.comp_apply]
  have hs : ∀ m : List K, List.sum (m.map fun v => c * v) = c * m.sum := by
    intro m
    rw [List.sum_map_mul_left m (fun v => v) c]
    simp
  unfold rollAt
  rw [← List.map_drop, ← List.map_drop, ← List.map_take, ← List.map_take, List.any_map, List.any_map]
  generalize (l.drop (i + 1 - n)).take n = m
  have e1 : (m.map fun v => some (c * v)).filterMap id = m.map fun v => c * v := by
    rw [List.filterMap_map]
    simp
  have e2 : (m.map some).filterMap id = m := by
    rw [List.filterMap_map]
    simp
  rw [e1, e2, hs]
  simp only [Function.comp_def, Option.isNone_some]
  split_ifs <;> rfl

end Flags

/-! ## C199: VPIN -/

section Vpin

variable {K : Type} [Field K] [LinearOrder K] [IsStrictOrderedRing K]

/-- The ticks with other prices and volumes. -/
def mapTicks (g v : K → K) (ticks : List (BTick K)) : List (BTick K) :=
  ticks.map fun t => ⟨g t.price, v t.volume, t.bar⟩

theorem vpin_core (ticks : List (BTick K)) (g : K → K) (c s vpb b0 b0' : K) (n : ℕ) (hc : 0 < c)
    (hs : s = 1 ∨ s = -1)
    (hb : tickRule b0' ((ticks.map fun t => t.price).map g) =
      (tickRule b0 (ticks.map fun t => t.price)).map fun b => s * b) :
    vpin (mapTicks g (c * ·) ticks) (c * vpb) n b0' = vpin ticks vpb n b0 := by
  have hids : (mapTicks g (c * ·) ticks).map (fun t => t.bar) = ticks.map fun t => t.bar := by
    unfold mapTicks; rw [List.map_map]; rfl
  have hp : (mapTicks g (c * ·) ticks).map (fun t => t.price) = (ticks.map fun t => t.price).map g := by
    unfold mapTicks; rw [List.map_map, List.map_map]; rfl
  have hnet : List.zipWith netVolume (mapTicks g (c * ·) ticks)
      ((tickRule b0 (ticks.map fun t => t.price)).map fun b => s * b) =
      (List.zipWith netVolume ticks (tickRule b0 (ticks.map fun t => t.price))).map fun v => (s * c) * v := by
    unfold mapTicks
    rw [List.zipWith_map, List.map_zipWith]
    congr 1
    funext t a
    unfold netVolume
    rcases hs with rfl | rfl
    · simp only [one_mul]
      split_ifs <;> ring
    · have e1 : (-1 * a = 1) ↔ a = -1 := by
        constructor <;> intro h <;> linarith
      have e2 : (-1 * a = -1) ↔ a = 1 := by
        constructor <;> intro h <;> linarith
      simp only [e1, e2]
      split_ifs <;> ring
  have hsum : ∀ m : List K, List.sum (m.map fun v => (s * c) * v) = (s * c) * m.sum := by
    intro m
    rw [List.sum_map_mul_left m (fun v => v) (s * c)]
    simp
  have habs : ∀ v : K, |s * c * v| = c * |v| := by
    intro v
    rcases hs with rfl | rfl
    · rw [one_mul, abs_mul, abs_of_pos hc]
    · rw [show -1 * c * v = -(c * v) by ring, abs_neg, abs_mul, abs_of_pos hc]
  have hdiv : ∀ v : K, fdiv |s * c * v| ((n : K) * (c * vpb)) = fdiv |v| ((n : K) * vpb) := by
    intro v
    rw [habs, show (n : K) * (c * vpb) = c * ((n : K) * vpb) by ring]
    unfold fdiv
    by_cases h0 : (n : K) * vpb = 0
    · rw [if_pos h0, if_pos (by rw [h0, mul_zero])]
    · rw [if_neg h0, if_neg (mul_ne_zero hc.ne' h0), mul_div_mul_left _ _ hc.ne']
  unfold vpin
  simp only [hids, hp]
  simp only [hb]
  simp only [hnet]
  simp only [groupBy_map, List.map_map]
  generalize groupBy (ticks.map fun t => t.bar)
    (List.zipWith netVolume ticks (tickRule b0 (ticks.map fun t => t.price))) = G
  have e1 : (G.map ((fun p : ℤ × List K => some p.2.sum) ∘ fun g => (g.1, g.2.map fun v => s * c * v))) =
      (G.map fun p => p.2.sum).map fun v => some (s * c * v) := by
    rw [List.map_map]
    apply List.map_congr_left
    intro p _
    simp only [Function.comp_apply, hsum]
  have e2 : (G.map fun p : ℤ × List K => some p.2.sum) = (G.map fun p => p.2.sum).map some := by
    rw [List.map_map]; rfl
  rw [e1, e2, rolling_scale, List.map_map]
  congr 1
  apply List.map_congr_left
  intro o _
  cases o with
  | none => rfl
  | some v => exact hdiv v

/-- C199, VPIN: it does not depend on the unit of volume nor on the scale of prices, which may be
changed by any increasing function. -/
theorem C199_vpin_units (ticks : List (BTick K)) (g : K → K) (hg : StrictMono g) (c : K) (hc : 0 < c)
    (vpb b0 : K) (n : ℕ) :
    vpin (mapTicks g (c * ·) ticks) (c * vpb) n b0 = vpin ticks vpb n b0 :=
  vpin_core ticks g c 1 vpb b0 b0 n hc (Or.inl rfl) (by rw [tickRule_increasing g hg]; simp)

/-- C199, VPIN: buys and sells play the same part.  Turning the prices upside down and the first flag
round gives the same values. -/
theorem C199_vpin_mirror (ticks : List (BTick K)) (g : K → K) (hg : StrictAnti g) (vpb b0 : K) (n : ℕ) :
    vpin (mapTicks g (fun v => v) ticks) vpb n (-b0) = vpin ticks vpb n b0 := by
  have h := vpin_core ticks g 1 (-1) vpb b0 (-b0) n one_pos (Or.inr rfl) (by
    rw [tickRule_decreasing g hg]; simp)
  simpa [one_mul] using h

/-- Two bars of two ticks. -/
example : vpin (mapTicks (fun p : ℚ => 10 - p) (fun v => v)
      [⟨1, 5, 0⟩, ⟨2, 3, 0⟩, ⟨1, 4, 1⟩, ⟨2, 1, 1⟩]) 8 1 (-1) =
    vpin [⟨1, 5, 0⟩, ⟨2, 3, 0⟩, ⟨1, 4, 1⟩, ⟨2, 1, 1⟩] 8 1 1 ∧
    vpin [⟨(1 : ℚ), 5, 0⟩, ⟨2, 3, 0⟩, ⟨1, 4, 1⟩, ⟨2, 1, 1⟩] 8 1 1 = [(0, some 1), (1, some (3 / 8))] := by
  decide +kernel

end Vpin

/-! ## C199: Roll -/

theorem diff1_affine (a c : ℝ) (l : List ℝ) : diff1 (l.map fun p => a * p + c) = (diff1 l).map (a * ·) := by
  unfold diff1
  rw [← List.map_tail, List.zipWith_map, List.map_zipWith]
  congr 1
  funext x y
  ring

theorem sum_scale (a : ℝ) (l : List ℝ) : (l.map (a * ·)).sum = a * l.sum := by
  have := List.sum_map_mul_left l (fun v => v) a
  simpa using this

theorem mean_scale (a : ℝ) (l : List ℝ) : mean (l.map (a * ·)) = a * mean l := by
  unfold mean
  rw [sum_scale, List.length_map]
  ring

theorem npVar_scale (a : ℝ) (l : List ℝ) : npVar (l.map (a * ·)) = (npVar l).map fun v => a ^ 2 * v := by
  unfold npVar
  by_cases h : l = []
  · rw [if_pos h, if_pos (by simp [h])]; rfl
  · rw [if_neg h, if_neg (by simpa using h), List.map_map, List.length_map, mean_scale]
    have e : (l.map ((fun x => (x - a * mean l) ^ 2) ∘ (a * ·))) =
        (l.map fun x => (x - mean l) ^ 2).map (a ^ 2 * ·) := by
      rw [List.map_map]
      apply List.map_congr_left
      intro x _
      simp only [Function.comp_apply]
      ring
    rw [e, sum_scale]
    simp only [Option.map_some]
    congr 1
    ring

theorem npCov_scale (a : ℝ) (l m : List ℝ) :
    npCov (l.map (a * ·)) (m.map (a * ·)) = (npCov l m).map fun v => a ^ 2 * v := by
  unfold npCov
  rw [List.length_map]
  by_cases h : l.length < 2
  · rw [if_pos h, if_pos h]; rfl
  · rw [if_neg h, if_neg h, mean_scale, mean_scale, List.zipWith_map]
    have e : List.zipWith (fun x y => (a * x - a * mean l) * (a * y - a * mean m)) l m =
        (List.zipWith (fun x y => (x - mean l) * (y - mean m)) l m).map (a ^ 2 * ·) := by
      rw [List.map_zipWith]
      congr 1
      funext x y
      ring
    rw [e, sum_scale]
    simp only [Option.map_some]
    congr 1
    ring

/-- C199, Roll: the spread is in the unit of price and the variance in its square; neither depends on the
origin, and turning prices upside down changes nothing. -/
theorem C199_roll (a c : ℝ) (prices : List ℝ) :
    (rollSpread (prices.map fun p => a * p + c)).1 = |a| * (rollSpread prices).1 ∧
    (rollSpread (prices.map fun p => a * p + c)).2 = (rollSpread prices).2.map fun v => a ^ 2 * v := by
  unfold rollSpread
  simp only [diff1_affine, npVar_scale, ← List.map_dropLast, ← List.map_tail, npCov_scale]
  generalize npVar (diff1 prices) = V
  generalize npCov (diff1 prices).dropLast (diff1 prices).tail = C
  constructor
  · cases C with
    | none => simp
    | some v =>
      simp only [Option.map_some, Option.elim_some]
      rw [show max 0 (-(a ^ 2 * v)) = a ^ 2 * max 0 (-v) by
        rw [mul_max_of_nonneg _ _ (sq_nonneg a)]; simp, Real.sqrt_mul (sq_nonneg a), Real.sqrt_sq_eq_abs]
      ring
  · cases V with
    | none => rfl
    | some v =>
      cases C with
      | none => rfl
      | some w =>
        simp only [Option.map_some, Option.bind_some]
        congr 1
        ring

/-! ## C199: Kyle, Amihud, Hasbrouck -/

theorem kyle_slope (ols : List (List ℝ) → List ℝ → List ℝ) (prices volumes : List ℝ) (b0 : ℝ) :
    kyleLambda ols prices volumes b0 =
      slope ols (List.zipWith (· * ·) volumes (tickRule b0 prices)).tail (diff1 prices) := rfl

theorem kyle_core (ols : List (List ℝ) → List ℝ → List ℝ) (hols : IsOls ols) (prices volumes : List ℝ)
    (b0 b0' a b c s : ℝ) (ha : a ≠ 0) (hb : b ≠ 0) (hs : s ≠ 0) (hlen : volumes.length = prices.length)
    (h0 : ∃ u ∈ volumes.tail, u ≠ 0) (hb0 : b0 = 1 ∨ b0 = -1)
    (ht : tickRule b0' (prices.map fun p => a * p + c) = (tickRule b0 prices).map fun v => s * v) :
    kyleLambda ols (prices.map fun p => a * p + c) (volumes.map (b * ·)) b0' =
      (kyleLambda ols prices volumes b0).map fun v => a / (s * b) * v := by
  rw [kyle_slope, kyle_slope, ht, diff1_affine]
  have e : (List.zipWith (· * ·) (volumes.map (b * ·)) ((tickRule b0 prices).map fun v => s * v)).tail =
      (List.zipWith (· * ·) volumes (tickRule b0 prices)).tail.map (s * b * ·) := by
    rw [List.zipWith_map, List.map_tail, List.map_zipWith]
    congr 2
    funext x y
    ring
  rw [e]
  have hl : (List.zipWith (· * ·) volumes (tickRule b0 prices)).tail.length = (diff1 prices).length := by
    rw [diff1_length]; simp [hlen]
  apply slope_rescale ols hols _ _ a (s * b) ha (mul_ne_zero hs hb) hl
  right
  obtain ⟨u, hu, hu0⟩ := h0
  obtain ⟨i, hi⟩ := List.mem_iff_getElem?.1 hu
  rw [List.getElem?_tail] at hi
  have hi' : i + 1 < prices.length := by
    have := (List.getElem?_eq_some_iff.1 hi).1
    omega
  have hi2 : i + 1 < (tickRule b0 prices).length := by simpa using hi'
  have hsgn := Bars.C58_tick_rule_flags b0 hb0 prices _ (List.getElem_mem hi2)
  refine ⟨u * (tickRule b0 prices)[i + 1], ?_, ?_⟩
  · apply List.mem_of_getElem? (i := i)
    rw [List.getElem?_tail, List.getElem?_zipWith, hi, List.getElem?_eq_getElem hi2]
  · apply mul_ne_zero hu0
    rcases hsgn with h | h <;> rw [h] <;> norm_num

/-- C199, Kyle: the estimate is price per volume.  With prices in units of `1/a` and volumes in units of
`1/b` it is `a/b` times as large (errors stay errors). -/
theorem C199_kyle_units (ols : List (List ℝ) → List ℝ → List ℝ) (hols : IsOls ols)
    (prices volumes : List ℝ) (b0 a b c : ℝ) (ha : 0 < a) (hb : 0 < b)
    (hlen : volumes.length = prices.length) (h0 : ∃ u ∈ volumes.tail, u ≠ 0) (hb0 : b0 = 1 ∨ b0 = -1) :
    kyleLambda ols (prices.map fun p => a * p + c) (volumes.map (b * ·)) b0 =
      (kyleLambda ols prices volumes b0).map fun v => a / b * v := by
  have h := kyle_core ols hols prices volumes b0 b0 a b c 1 ha.ne' hb.ne' one_ne_zero hlen h0 hb0 (by
    rw [tickRule_increasing (fun p => a * p + c) (fun x y h => by
      have := mul_lt_mul_of_pos_left h ha
      simp only
      linarith)]
    simp)
  simpa using h

/-- C199, Kyle: buys and sells play the same part. -/
theorem C199_kyle_mirror (ols : List (List ℝ) → List ℝ → List ℝ) (hols : IsOls ols)
    (prices volumes : List ℝ) (b0 c : ℝ)
    (hlen : volumes.length = prices.length) (h0 : ∃ u ∈ volumes.tail, u ≠ 0) (hb0 : b0 = 1 ∨ b0 = -1) :
    kyleLambda ols (prices.map fun p => c - p) volumes (-b0) = kyleLambda ols prices volumes b0 := by
  have h := kyle_core ols hols prices volumes b0 (-b0) (-1) 1 c (-1) (by norm_num) one_ne_zero (by norm_num)
    hlen h0 hb0 (by
      rw [tickRule_decreasing (fun p => -1 * p + c) (fun x y h => by simp only; linarith)]
      simp)
  have e1 : (prices.map fun p => -1 * p + c) = prices.map fun p => c - p := by
    apply List.map_congr_left
    intro p _
    ring
  rw [e1] at h
  have e2 : volumes.map ((1 : ℝ) * ·) = volumes := by simp
  rw [e2] at h
  rw [h]
  have e3 : (fun v : ℝ => -1 / (-1 * 1) * v) = id := by
    funext v
    simp
  rw [e3]
  cases kyleLambda ols prices volumes b0 <;> rfl

theorem diff_log_scale (c : ℝ) (hc : 0 < c) (l : List ℝ) (hl : ∀ x ∈ l, 0 < x) :
    diff1 ((l.map (c * ·)).map Real.log) = diff1 (l.map Real.log) := by
  have e : (l.map (c * ·)).map Real.log = (l.map Real.log).map fun v => 1 * v + Real.log c := by
    rw [List.map_map, List.map_map]
    apply List.map_congr_left
    intro x hx
    simp only [Function.comp_apply]
    rw [Real.log_mul hc.ne' (hl x hx).ne']
    ring
  rw [e, diff1_affine]
  simp

/-- C199, Amihud: return per unit of money traded.  With prices in units of `1/c` and volumes in units of
`1/b` it is divided by `c b`. -/
theorem C199_amihud_units (ols : List (List ℝ) → List ℝ → List ℝ) (hols : IsOls ols)
    (closes vwaps volumes : List ℝ) (b c : ℝ) (hb : 0 < b) (hc : 0 < c)
    (hlen : volumes.length = closes.length) (hlen' : vwaps.length = closes.length)
    (hpos : ∀ v ∈ closes, 0 < v) (h0 : ∃ u ∈ (List.zipWith (· * ·) vwaps volumes).tail, u ≠ 0) :
    amihudLambda ols (closes.map (c * ·)) (vwaps.map (c * ·)) (volumes.map (b * ·)) =
      (amihudLambda ols closes vwaps volumes).map fun v => v / (c * b) := by
  classical
  unfold amihudLambda
  rw [if_neg (by
    rintro ⟨x, hx, h⟩
    obtain ⟨y, hy, rfl⟩ := List.mem_map.1 hx
    exact absurd h (not_le.2 (mul_pos hc (hpos y hy)))), if_neg (by
    rintro ⟨x, hx, h⟩
    exact absurd h (not_le.2 (hpos x hx))), diff_log_scale c hc closes hpos]
  have e : (List.zipWith (· * ·) (vwaps.map (c * ·)) (volumes.map (b * ·))).tail =
      (List.zipWith (· * ·) vwaps volumes).tail.map (c * b * ·) := by
    rw [List.zipWith_map, List.map_tail, List.map_zipWith]
    congr 2
    funext x y
    ring
  rw [e]
  have hl : (List.zipWith (· * ·) vwaps volumes).tail.length =
      ((diff1 (closes.map Real.log)).map fun x => |x|).length := by
    rw [List.length_map, diff1_length]; simp [hlen, hlen']
  have h := slope_rescale ols hols _ ((diff1 (closes.map Real.log)).map fun x => |x|) 1 (c * b) one_ne_zero
    (mul_pos hc hb).ne' hl (Or.inr h0)
  simp only [one_mul, List.map_id'] at h
  change slope ols _ _ = Except.map _ (slope ols _ _)
  rw [h]
  congr 1
  funext v
  ring

/-- C199, Hasbrouck: return per square root of money traded.  With prices in units of `1/c` and volumes in
units of `1/b` it is divided by `√(b c)`. -/
theorem C199_hasbrouck_units (ols : List (List ℝ) → List ℝ → List ℝ) (hols : IsOls ols)
    (ticks : List (BTick ℝ)) (b0 b c : ℝ) (hb : 0 < b) (hc : 0 < c)
    (hpos : ∀ t ∈ ticks, 0 < t.price ∧ 0 ≤ t.volume)
    (h0 : ∃ k ∈ (barIds ticks).tail, flowOf ticks b0 k ≠ 0) :
    hasbrouckLambda ols (mapTicks (c * ·) (b * ·) ticks) b0 =
      (hasbrouckLambda ols ticks b0).map fun v => v / √(b * c) := by
  classical
  have hids : (mapTicks (c * ·) (b * ·) ticks).map (fun t => t.bar) = ticks.map fun t => t.bar := by
    unfold mapTicks; rw [List.map_map]; rfl
  have hp : (mapTicks (c * ·) (b * ·) ticks).map (fun t => t.price) =
      (ticks.map fun t => t.price).map (c * ·) := by
    unfold mapTicks; rw [List.map_map, List.map_map]; rfl
  have ht : tickRule b0 ((ticks.map fun t => t.price).map (c * ·)) = tickRule b0 (ticks.map fun t => t.price) :=
    tickRule_increasing _ (fun x y h => mul_lt_mul_of_pos_left h hc) _ _
  unfold hasbrouckLambda
  rw [if_neg (by
    rintro ⟨x, hx, h⟩
    obtain ⟨y, hy, rfl⟩ := List.mem_map.1 hx
    obtain ⟨h1, h2⟩ := hpos y hy
    rcases h with h | h
    · exact absurd h (not_le.2 (mul_pos hc h1))
    · exact absurd h (not_lt.2 (mul_nonneg hb.le h2))), if_neg (by
    rintro ⟨x, hx, h⟩
    obtain ⟨h1, h2⟩ := hpos x hx
    rcases h with h | h <;> linarith)]
  simp only [hids, hp, ht]
  have hx : List.zipWith (fun (t : BTick ℝ) a => √(t.volume * t.price) * a) (mapTicks (c * ·) (b * ·) ticks)
      (tickRule b0 (ticks.map fun t => t.price)) =
      (List.zipWith (fun (t : BTick ℝ) a => √(t.volume * t.price) * a) ticks
        (tickRule b0 (ticks.map fun t => t.price))).map (√(b * c) * ·) := by
    unfold mapTicks
    rw [List.zipWith_map_left, List.map_zipWith]
    congr 1
    funext t a
    rw [show b * t.volume * (c * t.price) = (b * c) * (t.volume * t.price) by ring,
      Real.sqrt_mul (mul_pos hb hc).le]
    ring
  rw [hx, groupBy_map, groupBy_map]
  have hcl : ((groupBy (ticks.map fun t => t.bar) (ticks.map fun t => t.price)).map
      fun g => (g.1, g.2.map (c * ·))).map (fun g : ℤ × List ℝ => lastD g.2) =
      ((groupBy (ticks.map fun t => t.bar) (ticks.map fun t => t.price)).map fun g => lastD g.2).map (c * ·) := by
    rw [List.map_map, List.map_map]
    apply List.map_congr_left
    intro g _
    simp only [Function.comp_apply]
    unfold lastD
    rw [List.getLastD_eq_getLast?, List.getLastD_eq_getLast?, List.getLast?_map]
    cases g.2.getLast? <;> simp
  have hfl : ∀ G : List (ℤ × List ℝ), (G.map fun g => (g.1, g.2.map (√(b * c) * ·))).map
      (fun g : ℤ × List ℝ => g.2.sum) = (G.map fun g => g.2.sum).map (√(b * c) * ·) := by
    intro G
    rw [List.map_map, List.map_map]
    apply List.map_congr_left
    intro g _
    simp only [Function.comp_apply, sum_scale]
  rw [hcl, hfl]
  have hclpos : ∀ x ∈ (groupBy (ticks.map fun t => t.bar) (ticks.map fun t => t.price)).map fun g => lastD g.2,
      0 < x := by
    intro x hx
    obtain ⟨g, hg, rfl⟩ := List.mem_map.1 hx
    have hne := groupBy_ne_nil (ticks.map fun t => t.bar) (ticks.map fun t => t.price) (by simp) g hg
    have hmem : lastD g.2 ∈ g.2 := by
      unfold lastD
      rw [List.getLastD_eq_getLast?, List.getLast?_eq_getLast_of_ne_nil hne]
      exact List.getLast_mem hne
    unfold groupBy at hg
    obtain ⟨k, -, rfl⟩ := List.mem_map.1 hg
    obtain ⟨q, hq, hqe⟩ := List.mem_map.1 hmem
    have := List.of_mem_zip (List.mem_of_mem_filter hq)
    obtain ⟨t, ht, hte⟩ := List.mem_map.1 this.2
    rw [← hqe, ← hte]
    exact (hpos t ht).1
  rw [diff_log_scale c hc _ hclpos, ← List.map_tail]
  have hl : ((groupBy (ticks.map fun t => t.bar) (List.zipWith (fun (t : BTick ℝ) a => √(t.volume * t.price) * a)
      ticks (tickRule b0 (ticks.map fun t => t.price)))).map fun g => g.2.sum).tail.length =
      (diff1 (((groupBy (ticks.map fun t => t.bar) (ticks.map fun t => t.price)).map
        fun g => lastD g.2).map Real.log)).length := by
    rw [diff1_length]
    simp [groupBy]
  have hnz : ∃ u ∈ ((groupBy (ticks.map fun t => t.bar) (List.zipWith (fun (t : BTick ℝ) a =>
      √(t.volume * t.price) * a) ticks (tickRule b0 (ticks.map fun t => t.price)))).map fun g => g.2.sum).tail,
      u ≠ 0 := by
    obtain ⟨k, hk, hk0⟩ := h0
    refine ⟨flowOf ticks b0 k, ?_, hk0⟩
    unfold groupBy
    rw [List.map_map, ← List.map_tail]
    refine List.mem_map.2 ⟨k, hk, ?_⟩
    simp only [Function.comp_apply]
    rw [filter_zip_sum]
    rfl
  have h := slope_rescale ols hols _ (diff1 (((groupBy (ticks.map fun t => t.bar)
    (ticks.map fun t => t.price)).map fun g => lastD g.2).map Real.log)) 1 (√(b * c)) one_ne_zero
    (Real.sqrt_pos.2 (mul_pos hb hc)).ne' hl (Or.inr hnz)
  simp only [one_mul, List.map_id'] at h
  change slope ols _ _ = Except.map _ (slope ols _ _)
  rw [h]
  congr 1
  funext v
  ring

/-- Four ticks with volumes that are not zero; a solver exists. -/
example : ∃ ols, IsOls ols ∧ kyleLambda ols ([1, 2, 2, 1].map fun p => 100 * p + 0)
    ([5, 3, 4, 1].map ((1 / 10) * ·)) 1 =
      (kyleLambda ols [1, 2, 2, 1] [5, 3, 4, 1] 1).map fun v => 100 / (1 / 10) * v := by
  obtain ⟨ols, h⟩ := exists_isOls
  exact ⟨ols, h, C199_kyle_units ols h _ _ 1 100 (1 / 10) 0 (by norm_num) (by norm_num) rfl
    ⟨3, by simp, by norm_num⟩ (Or.inl rfl)⟩

end FinML.Micro
