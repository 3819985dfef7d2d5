import Verif.Micro.Props

/-!
# Property C328: range estimators for inverse quotes, and bounds of the Corwin-Schultz estimates
-/

namespace FinML.Micro

/-- The bar of the inverse quote: high and low exchange their parts. -/
noncomputable def inverse (b : HL) : HL := ⟨1 / b.low, 1 / b.high⟩

theorem inverse_pos (bars : List HL) (h : Pos bars) : Pos (bars.map inverse) := by
  intro b hb
  obtain ⟨c, hc, rfl⟩ := List.mem_map.1 hb
  obtain ⟨h1, h2⟩ := h c hc
  exact ⟨by unfold inverse; positivity, by unfold inverse; positivity⟩

theorem hiAt_inverse (bars : List HL) (i : ℕ) (hi : i < bars.length) : hiAt (bars.map inverse) i = 1 / loAt bars i := by
  simp [hiAt, loAt, List.getD_eq_getElem?_getD, hi, inverse]

theorem loAt_inverse (bars : List HL) (i : ℕ) (hi : i < bars.length) : loAt (bars.map inverse) i = 1 / hiAt bars i := by
  simp [hiAt, loAt, List.getD_eq_getElem?_getD, hi, inverse]

theorem one_div_max {a b : ℝ} (ha : 0 < a) (hb : 0 < b) : max (1 / a) (1 / b) = 1 / min a b := by
  rcases le_total a b with h | h
  · rw [min_eq_left h, max_eq_left (one_div_le_one_div_of_le ha h)]
  · rw [min_eq_right h, max_eq_right (one_div_le_one_div_of_le hb h)]

theorem one_div_min {a b : ℝ} (ha : 0 < a) (hb : 0 < b) : min (1 / a) (1 / b) = 1 / max a b := by
  rcases le_total a b with h | h
  · rw [max_eq_right h, min_eq_right (one_div_le_one_div_of_le ha h)]
  · rw [max_eq_left h, min_eq_left (one_div_le_one_div_of_le hb h)]

theorem inv_ratio (a b : ℝ) : 1 / a / (1 / b) = b / a := by
  rw [one_div, one_div, div_inv_eq_mul, mul_comm, div_eq_mul_inv]

/-- C328.  The inverse quote (yen per dollar instead of dollars per yen) has the same high-low volatility and the same
Corwin-Schultz spreads and volatilities. -/
theorem C328_inverse (index : List ℤ) (bars : List HL) (h : Pos bars) (w : ℕ) :
    highLowVol (bars.map inverse) w = highLowVol bars w ∧
    spreadTable index (bars.map inverse) w = spreadTable index bars w ∧
    volTable index (bars.map inverse) w = volTable index bars w := by
  have hp := inverse_pos bars h
  have hrange : ∀ i < bars.length, rangeSq (bars.map inverse) i = rangeSq bars i := by
    intro i hi
    have h1 := hiAt_pos bars h i
    have h2 := loAt_pos bars h i
    unfold rangeSq
    rw [hiAt_inverse bars i hi, loAt_inverse bars i hi, inv_ratio]
  have e1 : (bars.map inverse).map hlSq = bars.map hlSq := by
    refine has_unique (n := bars.length) (lo := 0) ?_ (has_hlSq bars h)
    have := has_hlSq _ hp
    rw [List.length_map] at this
    exact has_congr this fun i hi _ => hrange i hi
  have e2 : ((bars.map inverse).map fun b => hlRatioSq b.high b.low) = bars.map fun b => hlRatioSq b.high b.low := by
    refine has_unique (n := bars.length) (lo := 0) ?_ (has_ratioSq bars h)
    have := has_ratioSq _ hp
    rw [List.length_map] at this
    exact has_congr this fun i hi _ => hrange i hi
  have hb : beta (bars.map inverse) w = beta bars w := by
    unfold beta
    rw [e2]
  have hg : gamma (bars.map inverse) = gamma bars := by
    refine has_unique (n := bars.length) (lo := 1) ?_ (has_gamma bars h)
    have := has_gamma _ hp
    rw [List.length_map] at this
    refine has_congr this fun i hi hi1 => ?_
    unfold rangeSq2
    rw [hiAt_inverse bars i hi, loAt_inverse bars i hi, hiAt_inverse bars _ (by omega), loAt_inverse bars _ (by omega),
      one_div_max (loAt_pos bars h _) (loAt_pos bars h _), one_div_min (hiAt_pos bars h _) (hiAt_pos bars h _),
      inv_ratio]
  refine ⟨?_, ?_, ?_⟩
  · unfold highLowVol
    rw [e1]
  · unfold spreadTable spreadCol
    rw [hb, hg]
  · unfold volTable volCol
    rw [hb, hg]

theorem denom_eq : denom = (√2 - 1) ^ 2 := by
  have hs2 : √(2 : ℝ) ^ 2 = 2 := Real.sq_sqrt (by norm_num)
  unfold denom
  rw [rpow_half]
  linear_combination -hs2

theorem sqrt_two_gt : (1 : ℝ) < √2 := by
  have hs2 : √(2 : ℝ) ^ 2 = 2 := Real.sq_sqrt (by norm_num)
  nlinarith [Real.sqrt_nonneg (2 : ℝ)]

theorem alphaOf_eq (b g : ℝ) : alphaOf b g = clip ((√b - √g) / (√2 - 1)) := by
  have hs := sqrt_two_gt
  have hs2 : √(2 : ℝ) ^ 2 = 2 := Real.sq_sqrt (by norm_num)
  unfold alphaOf
  rw [rpow_half, rpow_half, rpow_half, denom_eq, Real.sqrt_mul (by norm_num), Real.sqrt_div' _ (sq_nonneg _),
    Real.sqrt_sq (by linarith)]
  congr 1
  have : √(2 : ℝ) - 1 ≠ 0 := by intro h; linarith
  field_simp
  try ring

theorem sigmaOf_eq (b g : ℝ) : sigmaOf b g = clip ((√2 * √g - √b) / (√2 * k2 * (√2 - 1))) := by
  have hs := sqrt_two_gt
  have hk : 0 < k2 := Real.rpow_pos_of_pos (div_pos (by norm_num) Real.pi_pos) _
  have hm : (2 : ℝ) ^ (-0.5 : ℝ) = (√2)⁻¹ := by
    rw [Real.rpow_neg (by norm_num), rpow_half]
  unfold sigmaOf
  rw [rpow_half, rpow_half, denom_eq, hm, ← mul_pow, Real.sqrt_div' _ (sq_nonneg _),
    Real.sqrt_sq (mul_nonneg hk.le (by linarith))]
  congr 1
  have : √(2 : ℝ) - 1 ≠ 0 := by intro h; linarith
  field_simp
  ring

theorem clip_pos_iff (x : ℝ) : 0 < clip x ↔ 0 < x := by
  unfold clip
  split
  · constructor <;> intro h <;> linarith
  · rfl

theorem spreadOf_pos_iff (a : ℝ) : 0 < spreadOf a ↔ 0 < a := by
  unfold spreadOf
  have h : 0 < 1 + Real.exp a := by positivity
  rw [div_pos_iff_of_pos_right h]
  constructor
  · intro h1
    exact Real.one_lt_exp_iff.1 (by linarith)
  · intro h1
    have := Real.one_lt_exp_iff.2 h1
    linarith

theorem spreadOf_mono {a b : ℝ} (h : a ≤ b) : spreadOf a ≤ spreadOf b := by
  unfold spreadOf
  have h1 := Real.exp_le_exp.2 h
  have h2 := Real.exp_pos a
  have h3 := Real.exp_pos b
  rw [div_le_div_iff₀ (by linarith) (by linarith)]
  nlinarith

theorem betaAt_nonneg (bars : List HL) (w i : ℕ) : 0 ≤ betaAt bars w i := by
  unfold betaAt rangeSq
  positivity

/-- C328.  There is a spread exactly where the mean squared ranges of neighbouring bars exceed that of the pair, and a
volatility exactly where they are less than twice that of the pair. -/
theorem C328_signs (index : List ℤ) (bars : List HL) (h : Pos bars) (w : ℕ) (hw : 1 ≤ w)
    (hlen : index.length = bars.length) (k : ℕ) (hk : k + w < bars.length) :
    ∃ row v, (spreadTable index bars w)[k]? = some row ∧ (volTable index bars w)[k]? = some v ∧
      (0 < row.spread ↔ rangeSq2 bars (k + w) < betaAt bars w (k + w)) ∧
      (0 < v.2 ↔ betaAt bars w (k + w) < 2 * rangeSq2 bars (k + w)) := by
  have hs := sqrt_two_gt
  refine ⟨⟨index.getD (k + w) 0, spreadOf (alphaOf (betaAt bars w (k + w)) (rangeSq2 bars (k + w))),
    index.getD k 0⟩, (index.getD (k + w) 0, sigmaOf (betaAt bars w (k + w)) (rangeSq2 bars (k + w))), ?_, ?_, ?_, ?_⟩
  · rw [spreadTable_eq index bars h w hw hlen, List.getElem?_map, List.getElem?_range (by omega)]
    rfl
  · unfold volTable
    rw [rowsOf_has index _ _ _ _ hlen (has_volCol bars h w hw), List.getElem?_map, List.getElem?_range' (by omega)]
    simp [Nat.add_comm w k]
  · show 0 < spreadOf (alphaOf _ _) ↔ _
    rw [spreadOf_pos_iff, alphaOf_eq, clip_pos_iff, div_pos_iff_of_pos_right (by linarith), sub_pos,
      Real.sqrt_lt_sqrt_iff (show 0 ≤ rangeSq2 bars (k + w) from sq_nonneg _)]
  · show 0 < sigmaOf _ _ ↔ _
    have hk2 : 0 < k2 := Real.rpow_pos_of_pos (div_pos (by norm_num) Real.pi_pos) _
    have : 0 < √2 * k2 * (√2 - 1) := mul_pos (mul_pos (by linarith) hk2) (by linarith)
    rw [sigmaOf_eq, clip_pos_iff, div_pos_iff_of_pos_right this, sub_pos, ← Real.sqrt_mul (by norm_num),
      Real.sqrt_lt_sqrt_iff (betaAt_nonneg _ _ _)]

/-- The quoted spread of a bar that ranges between bid and ask. -/
noncomputable def barSpread (bars : List HL) (i : ℕ) : ℝ :=
  2 * (hiAt bars i - loAt bars i) / (hiAt bars i + loAt bars i)

/-- The full claim: an estimate is at most the relative range of the widest bar it is made from. -/
def SpreadBound : Prop :=
  ∀ (index : List ℤ) (bars : List HL) (w k : ℕ) (row : SpreadRow), Pos bars → (∀ b ∈ bars, b.low ≤ b.high) → 1 ≤ w →
    index.length = bars.length → (spreadTable index bars w)[k]? = some row →
    ∃ j ≤ w, row.spread ≤ barSpread bars (k + j)

theorem lo_le_hi (bars : List HL) (h : ∀ b ∈ bars, b.low ≤ b.high) (i : ℕ) : loAt bars i ≤ hiAt bars i := by
  unfold hiAt loAt
  rw [List.getD_eq_getElem?_getD, List.getElem?_map, List.getD_eq_getElem?_getD, List.getElem?_map]
  cases hb : bars[i]? with
  | none => simp
  | some b => simpa using h b (List.mem_of_getElem? hb)

theorem spreadOf_log (bars : List HL) (h : Pos bars) (i : ℕ) :
    spreadOf (Real.log (hiAt bars i / loAt bars i)) = barSpread bars i := by
  have h1 := hiAt_pos bars h i
  have h2 := loAt_pos bars h i
  unfold spreadOf barSpread
  rw [Real.exp_log (div_pos h1 h2)]
  have : hiAt bars i + loAt bars i ≠ 0 := by linarith
  field_simp
  try ring

/-- C328 (partial).  With a window of 1 an estimate is at most the relative range of the wider of its two bars.  Missing:
longer windows, see `C328_bound_counterexample`. -/
theorem C328_bound_partial (index : List ℤ) (bars : List HL) (k : ℕ) (row : SpreadRow) (h : Pos bars)
    (hlh : ∀ b ∈ bars, b.low ≤ b.high) (hlen : index.length = bars.length)
    (hrow : (spreadTable index bars 1)[k]? = some row) : ∃ j ≤ 1, row.spread ≤ barSpread bars (k + j) := by
  have hs := sqrt_two_gt
  rw [spreadTable_eq index bars h 1 le_rfl hlen] at hrow
  have hk : k < bars.length - 1 := by
    by_contra hc
    rw [List.getElem?_eq_none (by simp; omega)] at hrow
    cases hrow
  rw [List.getElem?_map, List.getElem?_range hk] at hrow
  cases hrow
  simp only
  set x := Real.log (hiAt bars k / loAt bars k) with hx
  set y := Real.log (hiAt bars (k + 1) / loAt bars (k + 1)) with hy
  have hlog : ∀ i, 0 ≤ Real.log (hiAt bars i / loAt bars i) := fun i =>
    Real.log_nonneg (by rw [le_div_iff₀ (loAt_pos bars h i)]; linarith [lo_le_hi bars hlh i])
  have hx0 : 0 ≤ x := hlog k
  have hy0 : 0 ≤ y := hlog (k + 1)
  have hbeta : betaAt bars 1 (k + 1) = x ^ 2 + y ^ 2 := by
    simp [betaAt, rangeSq, hx, hy]
  have hle : ∀ i, (i = k ∨ i = k + 1) → Real.log (hiAt bars i / loAt bars i) ≤ √(rangeSq2 bars (k + 1)) := by
    intro i hi
    unfold rangeSq2
    rw [Real.sqrt_sq_eq_abs]
    refine le_trans ?_ (le_abs_self _)
    have p1 := hiAt_pos bars h i
    have p2 := loAt_pos bars h i
    have p3 : 0 < min (loAt bars (k + 1 - 1)) (loAt bars (k + 1)) := lt_min (loAt_pos bars h _) (loAt_pos bars h _)
    refine Real.log_le_log (div_pos p1 p2) (div_le_div₀ ?_ ?_ p3 ?_)
    · exact le_max_of_le_left (hiAt_pos bars h _).le
    · rcases hi with rfl | rfl
      · exact le_max_left _ _
      · exact le_max_right _ _
    · rcases hi with rfl | rfl
      · exact min_le_left _ _
      · exact min_le_right _ _
  have key : ∀ M, 0 ≤ M → x ≤ M → y ≤ M → M ≤ √(rangeSq2 bars (k + 1)) →
      spreadOf (alphaOf (betaAt bars 1 (k + 1)) (rangeSq2 bars (k + 1))) ≤ spreadOf M := by
    intro M hM hxM hyM hMg
    apply spreadOf_mono
    rw [alphaOf_eq]
    have hb : √(betaAt bars 1 (k + 1)) ≤ √2 * M := by
      rw [hbeta, ← Real.sqrt_sq hM, ← Real.sqrt_mul (by norm_num)]
      apply Real.sqrt_le_sqrt
      nlinarith
    have : (√(betaAt bars 1 (k + 1)) - √(rangeSq2 bars (k + 1))) / (√2 - 1) ≤ M := by
      rw [div_le_iff₀ (by linarith)]
      linarith
    unfold clip
    split <;> assumption
  rcases le_total x y with hxy | hxy
  · exact ⟨1, le_rfl, (key y hy0 hxy le_rfl (hle _ (Or.inr rfl))).trans (spreadOf_log bars h (k + 1)).le⟩
  · exact ⟨0, by norm_num, (key x hx0 le_rfl hxy (hle _ (Or.inl rfl))).trans (spreadOf_log bars h k).le⟩

/-- C328 (refuted).  A bar from 1 to 2 and two bars at 1, window 2: the estimate exceeds the range of the first. -/
theorem C328_bound_counterexample : ¬ SpreadBound := by
  intro hb
  have hs := sqrt_two_gt
  have hs2 : √(2 : ℝ) ^ 2 = 2 := Real.sq_sqrt (by norm_num)
  set bars : List HL := [⟨2, 1⟩, ⟨1, 1⟩, ⟨1, 1⟩] with hbars
  have hpos : Pos bars := by
    intro b hb
    simp only [hbars, List.mem_cons, List.not_mem_nil, or_false] at hb
    rcases hb with rfl | rfl | rfl <;> norm_num
  have hlh : ∀ b ∈ bars, b.low ≤ b.high := by
    intro b hb
    simp only [hbars, List.mem_cons, List.not_mem_nil, or_false] at hb
    rcases hb with rfl | rfl | rfl <;> norm_num
  have e := spreadTable_eq [0, 1, 2] bars hpos 2 (by norm_num) rfl
  set r := Real.log 2 with hr
  have hr0 : 0 < r := Real.log_pos (by norm_num)
  have hbeta : betaAt bars 2 2 = r ^ 2 / 2 := by
    simp [betaAt, rangeSq, Finset.sum_range_succ, hiAt, loAt, hbars, hr]
  have hgamma : rangeSq2 bars 2 = 0 := by
    simp [rangeSq2, hiAt, loAt, hbars]
  have hrow : (spreadTable [0, 1, 2] bars 2)[0]? = some ⟨2, spreadOf (alphaOf (r ^ 2 / 2) 0), 0⟩ := by
    rw [e, ← hbeta, ← hgamma]
    rfl
  obtain ⟨j, hj, hle⟩ := hb [0, 1, 2] bars 2 0 _ hpos hlh (by norm_num) rfl hrow
  simp only at hle
  have halpha : r < alphaOf (r ^ 2 / 2) 0 := by
    have h1 : √(r ^ 2 / 2) = r / √2 := by rw [Real.sqrt_div' _ (by norm_num), Real.sqrt_sq hr0.le]
    have h2 : r < r / √2 / (√2 - 1) := by
      rw [lt_div_iff₀ (by linarith), lt_div_iff₀ (by linarith)]
      nlinarith
    rw [alphaOf_eq, h1, Real.sqrt_zero, sub_zero]
    unfold clip
    rw [if_neg (by linarith)]
    exact h2
  have hsp : 2 / 3 < spreadOf (alphaOf (r ^ 2 / 2) 0) := by
    have : spreadOf r < spreadOf (alphaOf (r ^ 2 / 2) 0) := by
      refine lt_of_le_of_ne (spreadOf_mono halpha.le) ?_
      intro heq
      unfold spreadOf at heq
      have h1 := Real.exp_lt_exp.2 halpha
      have h2 := Real.exp_pos r
      rw [div_eq_div_iff (by linarith) (by linarith)] at heq
      nlinarith
    have h3 : spreadOf r = 2 / 3 := by
      unfold spreadOf
      rw [hr, Real.exp_log (by norm_num)]
      norm_num
    linarith
  have hbar : barSpread bars (0 + j) ≤ 2 / 3 := by
    interval_cases j <;> norm_num [barSpread, hiAt, loAt, hbars]
  linarith

end FinML.Micro
