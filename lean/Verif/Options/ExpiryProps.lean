import Verif.Options.BsmProps
import Verif.Options.BinomProps
import Verif.Options.ScaleProps
import Mathlib.Analysis.Complex.ExponentialBounds

/-! # Properties C205 and C206: time to maturity -/

namespace FinML.Options

open Set Filter Topology

theorem bs_left {a a' b s : ℝ} (ha : 0 < a) (hb : 0 < b) (hs : 0 < s) (h : a < a') :
    0 < bs a' b s - bs a b s ∧ bs a' b s - bs a b s < a' - a := by
  obtain ⟨z, hz, he⟩ := exists_hasDerivAt_eq_slope (fun a => bs a b s)
    (fun a => normCdf (Real.log (a / b) / s + s / 2)) h
    (fun x hx => (bs_hasDerivAt_left (lt_of_lt_of_le ha hx.1) hb hs).continuousAt.continuousWithinAt)
    (fun x hx => bs_hasDerivAt_left (ha.trans hx.1) hb hs)
  have h1 := normCdf_pos (Real.log (z / b) / s + s / 2)
  have h2 := normCdf_lt_one (Real.log (z / b) / s + s / 2)
  have hd : 0 < a' - a := sub_pos.2 h
  rw [eq_div_iff hd.ne'] at he
  constructor <;> nlinarith

/-! ## C205 -/

/-- C205, full claim: an option that runs longer is worth at least as much. -/
def LongerIsDearer : Prop := ∀ (ot : OptionType) (s0 k r sigma t t' v v' : ℝ), (ot = .call ∨ ot = .put) →
  0 < s0 → 0 < k → 0 ≤ r → 0 < sigma → 0 < t → t < t' →
  bsmOptionPrice ot s0 k r sigma t none 0 false = .ok (some v) →
  bsmOptionPrice ot s0 k r sigma t' none 0 false = .ok (some v') → v ≤ v'

/-- C205, counterexample: a put far in the money loses interest on its strike. -/
theorem C205_put_counterexample : ¬ LongerIsDearer := by
  intro h
  obtain ⟨-, p, -, hp, -, -, h1, -⟩ := C109_bounds (s0 := 1) (k := 100) (r := 1) (sigma := 1) (t := 1) (q := 0)
    (divs := none) (fut := false) (Or.inl rfl) (by simp [pv]) (by norm_num) (by norm_num) (by norm_num) rfl rfl
  obtain ⟨-, p', -, hp', -, -, -, h2⟩ := C109_bounds (s0 := 1) (k := 100) (r := 1) (sigma := 1) (t := 2) (q := 0)
    (divs := none) (fut := false) (Or.inl rfl) (by simp [pv]) (by norm_num) (by norm_num) (by norm_num) rfl rfl
  have hle := h .put 1 100 1 1 1 2 p p' (Or.inr rfl) (by norm_num) (by norm_num) (by norm_num) (by norm_num)
    (by norm_num) (by norm_num) hp hp'
  have h1' := lt_of_le_of_lt (le_max_right _ _) h1
  simp only [pv, sub_zero, Bool.false_eq_true, if_false, neg_zero, Real.exp_zero, mul_one, one_mul]
    at h1' h2
  have e2 : Real.exp (-2) = Real.exp (-1) ^ 2 := by
    rw [← Real.exp_nat_mul]; norm_num
  rw [e2] at h2
  have hlo := Real.exp_neg_one_gt_d9
  have hhi := Real.exp_neg_one_lt_d9
  nlinarith

/-- C205, what holds: a call runs up in value with its maturity if interest is not negative and the
underlying pays nothing (or less); a put if interest is not positive and the underlying pays (missing:
the other cases). -/
theorem C205_longer_partial {s0 k r sigma t t' q v v' : ℝ} {divs : Option (List (ℝ × ℝ))} {fut : Bool}
    (hs0 : pv r divs < s0) (hk : 0 < k) (hs : 0 < sigma) (ht : 0 < t) (htt : t < t') :
    (0 ≤ r → (if fut then r else q) ≤ 0 →
      bsmOptionPrice .call s0 k r sigma t divs q fut = .ok (some v) →
      bsmOptionPrice .call s0 k r sigma t' divs q fut = .ok (some v') → v < v') ∧
    (r ≤ 0 → 0 ≤ (if fut then r else q) →
      bsmOptionPrice .put s0 k r sigma t divs q fut = .ok (some v) →
      bsmOptionPrice .put s0 k r sigma t' divs q fut = .ok (some v') → v < v') := by
  have ht' := ht.trans htt
  have hS := sub_pos.2 hs0
  generalize hy : (if fut then r else q) = y
  have ha : 0 < (s0 - pv r divs) * Real.exp (-y * t) := mul_pos hS (Real.exp_pos _)
  have ha' : 0 < (s0 - pv r divs) * Real.exp (-y * t') := mul_pos hS (Real.exp_pos _)
  have hb : 0 < k * Real.exp (-r * t) := mul_pos hk (Real.exp_pos _)
  have hb' : 0 < k * Real.exp (-r * t') := mul_pos hk (Real.exp_pos _)
  have hv : 0 < sigma * √t := mul_pos hs (Real.sqrt_pos.2 ht)
  have hvv : sigma * √t < sigma * √t' := mul_lt_mul_of_pos_left (Real.sqrt_lt_sqrt ht.le htt) hs
  have hm := bs_strictMonoOn ha hb hv (hv.trans hvv) hvv
  have hv' := hv.trans hvv
  constructor
  · intro hr hq h h'
    obtain ⟨-, -, h⟩ := call_cases h
    obtain ⟨-, -, h'⟩ := call_cases h'
    rw [hy, bsmCall_eq hS hk hs ht, Option.some.injEq] at h
    rw [hy, bsmCall_eq hS hk hs ht', Option.some.injEq] at h'
    rw [h, h']
    have hle1 : (s0 - pv r divs) * Real.exp (-y * t) ≤ (s0 - pv r divs) * Real.exp (-y * t') :=
      mul_le_mul_of_nonneg_left (Real.exp_le_exp.2 (by nlinarith)) hS.le
    have hle2 : k * Real.exp (-r * t') ≤ k * Real.exp (-r * t) :=
      mul_le_mul_of_nonneg_left (Real.exp_le_exp.2 (by nlinarith)) hk.le
    have s1 : bs ((s0 - pv r divs) * Real.exp (-y * t)) (k * Real.exp (-r * t)) (sigma * √t') ≤
        bs ((s0 - pv r divs) * Real.exp (-y * t')) (k * Real.exp (-r * t)) (sigma * √t') := by
      rcases hle1.eq_or_lt with e | e
      · rw [e]
      · linarith [(bs_left ha hb hv' e).1]
    have s2 : bs ((s0 - pv r divs) * Real.exp (-y * t')) (k * Real.exp (-r * t)) (sigma * √t') ≤
        bs ((s0 - pv r divs) * Real.exp (-y * t')) (k * Real.exp (-r * t')) (sigma * √t') := by
      rcases hle2.eq_or_lt with e | e
      · rw [e]
      · linarith [(bs_spread ha' hv' hb' e).1]
    linarith
  · intro hr hq h h'
    obtain ⟨c, h, e⟩ := call_of_put h
    obtain ⟨c', h', e'⟩ := call_of_put h'
    obtain ⟨-, -, h⟩ := call_cases h
    obtain ⟨-, -, h'⟩ := call_cases h'
    rw [hy, bsmCall_eq hS hk hs ht, Option.some.injEq] at h
    rw [hy, bsmCall_eq hS hk hs ht', Option.some.injEq] at h'
    rw [hy, ← neg_mul, ← neg_mul] at e e'
    rw [e, e', h, h']
    have hle1 : (s0 - pv r divs) * Real.exp (-y * t') ≤ (s0 - pv r divs) * Real.exp (-y * t) :=
      mul_le_mul_of_nonneg_left (Real.exp_le_exp.2 (by nlinarith)) hS.le
    have hle2 : k * Real.exp (-r * t) ≤ k * Real.exp (-r * t') :=
      mul_le_mul_of_nonneg_left (Real.exp_le_exp.2 (by nlinarith)) hk.le
    have s1 : bs ((s0 - pv r divs) * Real.exp (-y * t)) (k * Real.exp (-r * t)) (sigma * √t') -
          (s0 - pv r divs) * Real.exp (-y * t) ≤
        bs ((s0 - pv r divs) * Real.exp (-y * t')) (k * Real.exp (-r * t)) (sigma * √t') -
          (s0 - pv r divs) * Real.exp (-y * t') := by
      rcases hle1.eq_or_lt with e | e
      · rw [e]
      · linarith [(bs_left ha' hb hv' e).2]
    have s2 : bs ((s0 - pv r divs) * Real.exp (-y * t')) (k * Real.exp (-r * t)) (sigma * √t') +
          k * Real.exp (-r * t) ≤
        bs ((s0 - pv r divs) * Real.exp (-y * t')) (k * Real.exp (-r * t')) (sigma * √t') +
          k * Real.exp (-r * t') := by
      rcases hle2.eq_or_lt with e | e
      · rw [e]
      · linarith [(bs_spread ha' hv' hb e).2]
    linarith

/-- A call at rate 5% without dividends, for one and two years. -/
example : ∃ v v', bsmOptionPrice .call 100 100 (1 / 20) (1 / 5) 1 none 0 false = .ok (some v) ∧
    bsmOptionPrice .call 100 100 (1 / 20) (1 / 5) 2 none 0 false = .ok (some v') ∧ v < v' := by
  obtain ⟨v, -, hv, -⟩ := C109_bounds (s0 := 100) (k := 100) (r := 1 / 20) (sigma := 1 / 5) (t := 1) (q := 0)
    (divs := none) (fut := false) (Or.inl rfl) (by simp [pv]) (by norm_num) (by norm_num) (by norm_num) rfl rfl
  obtain ⟨v', -, hv', -⟩ := C109_bounds (s0 := 100) (k := 100) (r := 1 / 20) (sigma := 1 / 5) (t := 2) (q := 0)
    (divs := none) (fut := false) (Or.inl rfl) (by simp [pv]) (by norm_num) (by norm_num) (by norm_num) rfl rfl
  exact ⟨v, v', hv, hv', (C205_longer_partial (by simp [pv]) (by norm_num) (by norm_num) (by norm_num)
    (by norm_num)).1 (by norm_num) (by simp) hv hv'⟩

/-! ## C206 -/

/-- The payoff of a call or put. -/
noncomputable def payoffOf (ot : OptionType) (s k : ℝ) : ℝ := if ot = .call then max (s - k) 0 else max (k - s) 0

/-- C206, full claim: at expiry an option is worth its payoff. -/
def PayoffAtExpiry : Prop := ∀ (ot style : OptionType) (s0 k r sigma q : ℝ) (n : ℕ),
  (ot = .call ∨ ot = .put) → (style = .american ∨ style = .european) → 0 < s0 → 0 < k → 0 < sigma → 0 < n →
  bsmOptionPrice ot s0 k r sigma 0 none q false = .ok (some (payoffOf ot s0 k)) ∧
  binomOptionPrice ot style s0 k 0 r sigma q false n = .ok (some (payoffOf ot s0 k))

theorem bsmCall_expiry {s k r sigma q : ℝ} (hs : 0 < s) (hk : 0 < k) :
    bsmCall s k r sigma 0 q = if s = k then none else some (max (s - k) 0) := by
  have e1 : bsmD1 s k r sigma 0 q = if 0 < Real.log (s / k) then .posInf
      else if Real.log (s / k) < 0 then .negInf else .nan := by
    unfold bsmD1 logRatio npLog
    rw [if_neg (lt_irrefl _), if_neg hk.ne', if_pos (div_pos hs hk)]
    simp only [FExt.add, FExt.div, mul_zero, add_zero, Real.sqrt_zero, if_true]
  unfold bsmCall bsmD2
  rw [e1]
  rcases lt_trichotomy s k with h | h | h
  · have := Real.log_neg (div_pos hs hk) ((div_lt_one hk).2 h)
    rw [if_neg (by linarith), if_pos this, if_neg h.ne, max_eq_right (by linarith)]
    simp [FExt.cdf, FExt.add]
  · subst h
    simp [FExt.cdf, div_self hs.ne']
  · have := Real.log_pos ((one_lt_div hk).2 h)
    rw [if_pos this, if_neg h.ne', max_eq_left (by linarith)]
    simp [FExt.cdf, FExt.add]

/-- C206, counterexamples: the closed formula gives NaN for an option at the money, the tree gives NaN for
every option. -/
theorem C206_expiry_counterexample : ¬ PayoffAtExpiry ∧
    (∀ s r sigma q : ℝ, 0 < s → bsmOptionPrice .call s s r sigma 0 none q false = .ok none ∧
      bsmOptionPrice .put s s r sigma 0 none q false = .ok none) ∧
    ∀ (ot style : OptionType) (s0 k r sigma q : ℝ) (n : ℤ) (v : ℝ),
      binomOptionPrice ot style s0 k 0 r sigma q false n ≠ .ok (some v) := by
  have h3 : ∀ (ot style : OptionType) (s0 k r sigma q : ℝ) (n : ℤ) (v : ℝ),
      binomOptionPrice ot style s0 k 0 r sigma q false n ≠ .ok (some v) := by
    intro ot style s0 k r sigma q n v h
    have := (C103_defined ot style s0 k 0 r sigma q false n).1 ⟨v, h⟩
    exact lt_irrefl _ this.2.2.2.1
  refine ⟨fun h => ?_, fun s r sigma q hs => ?_, h3⟩
  · exact h3 _ _ _ _ _ _ _ _ _ (h .call .european 1 1 0 1 0 1 (Or.inl rfl) (Or.inr rfl) (by norm_num)
      (by norm_num) (by norm_num) (by norm_num)).2
  · rw [call_ok (Or.inl rfl) hs.ne', put_ok (Or.inl rfl) hs.ne', bsmPut_eq]
    simp only [pv, sub_zero, Bool.false_eq_true, if_false]
    rw [bsmCall_expiry hs hs, if_pos rfl]
    exact ⟨rfl, rfl⟩

/-- C206, what holds: away from the money the closed formula gives the payoff at expiry (missing: at the
money, and trees). -/
theorem C206_expiry_partial {ot : OptionType} {s0 k r sigma q : ℝ} {divs : Option (List (ℝ × ℝ))} {fut : Bool}
    (ho : ot = .call ∨ ot = .put) (hd : divs = none ∨ q = 0) (hs0 : pv r divs < s0) (hk : 0 < k)
    (hne : s0 - pv r divs ≠ k) :
    bsmOptionPrice ot s0 k r sigma 0 divs q fut = .ok (some (payoffOf ot (s0 - pv r divs) k)) := by
  rcases ho with rfl | rfl
  · rw [call_ok hd hk.ne', bsmCall_expiry (sub_pos.2 hs0) hk, if_neg hne]
    simp [payoffOf]
  · rw [put_ok hd hk.ne', bsmPut_eq, bsmCall_expiry (sub_pos.2 hs0) hk, if_neg hne]
    simp only [payoffOf, mul_zero, Real.exp_zero, mul_one, Option.map_some, reduceCtorEq, if_false]
    congr 2
    rcases le_total (s0 - pv r divs) k with h | h
    · rw [max_eq_right (by linarith), max_eq_left (by linarith)]; ring
    · rw [max_eq_left (by linarith), max_eq_right (by linarith)]; ring

/-- C206.  Towards expiry the price goes to the payoff, at the money as well. -/
theorem C206_limit {ot : OptionType} {s0 k r sigma q : ℝ} {divs : Option (List (ℝ × ℝ))} {fut : Bool}
    (ho : ot = .call ∨ ot = .put) (hd : divs = none ∨ q = 0) (hs0 : pv r divs < s0) (hk : 0 < k)
    (hs : 0 < sigma) : ∃ price : ℝ → ℝ,
      (∀ t, 0 < t → bsmOptionPrice ot s0 k r sigma t divs q fut = .ok (some (price t))) ∧
      Tendsto price (𝓝[>] 0) (𝓝 (payoffOf ot (s0 - pv r divs) k)) := by
  have hS := sub_pos.2 hs0
  generalize hSdef : s0 - pv r divs = S at *
  generalize hy : (if fut then r else q) = y
  have hA : Tendsto (fun t : ℝ => S * Real.exp (-y * t)) (𝓝[>] 0) (𝓝 S) := by
    have : Continuous fun t : ℝ => S * Real.exp (-y * t) := by fun_prop
    have := (this.tendsto 0).mono_left (nhdsWithin_le_nhds (s := Ioi 0))
    simpa using this
  have hB : Tendsto (fun t : ℝ => k * Real.exp (-r * t)) (𝓝[>] 0) (𝓝 k) := by
    have : Continuous fun t : ℝ => k * Real.exp (-r * t) := by fun_prop
    have := (this.tendsto 0).mono_left (nhdsWithin_le_nhds (s := Ioi 0))
    simpa using this
  have hV : Tendsto (fun t : ℝ => sigma * √t) (𝓝[>] 0) (𝓝[>] 0) := by
    refine tendsto_nhdsWithin_iff.2 ⟨?_, ?_⟩
    · have : Continuous fun t : ℝ => sigma * √t := by fun_prop
      have := (this.tendsto 0).mono_left (nhdsWithin_le_nhds (s := Ioi 0))
      simpa using this
    · filter_upwards [self_mem_nhdsWithin] with t ht
      exact mul_pos hs (Real.sqrt_pos.2 ht)
  have h0 := (bs_tendsto_zero hS hk).comp hV
  have hdiff : ∀ t : ℝ, 0 < t →
      |bs (S * Real.exp (-y * t)) (k * Real.exp (-r * t)) (sigma * √t) - bs S k (sigma * √t)| ≤
        |S * Real.exp (-y * t) - S| + |k * Real.exp (-r * t) - k| := by
    intro t ht
    have hv := mul_pos hs (Real.sqrt_pos.2 ht)
    have ha : 0 < S * Real.exp (-y * t) := mul_pos hS (Real.exp_pos _)
    have hb : 0 < k * Real.exp (-r * t) := mul_pos hk (Real.exp_pos _)
    generalize S * Real.exp (-y * t) = a at *
    generalize k * Real.exp (-r * t) = b at *
    have d1 : |bs a b (sigma * √t) - bs S b (sigma * √t)| ≤ |a - S| := by
      rcases lt_trichotomy a S with h | h | h
      · have := bs_left ha hb hv h
        rw [abs_le, abs_of_neg (sub_neg.2 h)]
        constructor <;> linarith [this.1, this.2]
      · simp [h]
      · have := bs_left hS hb hv h
        rw [abs_le, abs_of_pos (sub_pos.2 h)]
        constructor <;> linarith [this.1, this.2]
    have d2 : |bs S b (sigma * √t) - bs S k (sigma * √t)| ≤ |b - k| := by
      rcases lt_trichotomy b k with h | h | h
      · have := bs_spread hS hv hb h
        rw [abs_le, abs_of_neg (sub_neg.2 h)]
        constructor <;> linarith [this.1, this.2]
      · simp [h]
      · have := bs_spread hS hv hk h
        rw [abs_le, abs_of_pos (sub_pos.2 h)]
        constructor <;> linarith [this.1, this.2]
    calc _ = |(bs a b (sigma * √t) - bs S b (sigma * √t)) + (bs S b (sigma * √t) - bs S k (sigma * √t))| := by
          congr 1; ring
      _ ≤ _ := (abs_add_le _ _).trans (add_le_add d1 d2)
  have hz : Tendsto (fun t : ℝ => |S * Real.exp (-y * t) - S| + |k * Real.exp (-r * t) - k|) (𝓝[>] 0) (𝓝 0) := by
    have := ((hA.sub_const S).abs).add ((hB.sub_const k).abs)
    simpa using this
  have hcall : Tendsto (fun t : ℝ => bs (S * Real.exp (-y * t)) (k * Real.exp (-r * t)) (sigma * √t)) (𝓝[>] 0)
      (𝓝 (max (S - k) 0)) := by
    have hd0 : Tendsto (fun t : ℝ => bs (S * Real.exp (-y * t)) (k * Real.exp (-r * t)) (sigma * √t) -
        bs S k (sigma * √t)) (𝓝[>] 0) (𝓝 0) := by
      apply squeeze_zero_norm' _ hz
      filter_upwards [self_mem_nhdsWithin] with t ht
      rw [Real.norm_eq_abs]
      exact hdiff t ht
    have := hd0.add h0
    simpa using this
  rcases ho with rfl | rfl
  · refine ⟨fun t => bs (S * Real.exp (-y * t)) (k * Real.exp (-r * t)) (sigma * √t), fun t ht => ?_, ?_⟩
    · rw [call_ok hd hk.ne', hSdef, hy, bsmCall_eq hS hk hs ht]
    · simpa [payoffOf] using hcall
  · refine ⟨fun t => bs (S * Real.exp (-y * t)) (k * Real.exp (-r * t)) (sigma * √t) -
      (S * Real.exp (-y * t) - k * Real.exp (-r * t)), fun t ht => ?_, ?_⟩
    · rw [put_ok hd hk.ne', hSdef, hy, bsmPut_eq, bsmCall_eq hS hk hs ht]
      rfl
    · have := hcall.sub (hA.sub hB)
      have e : max (S - k) 0 - (S - k) = payoffOf .put S k := by
        simp only [payoffOf, reduceCtorEq, if_false]
        rcases le_total S k with h | h
        · rw [max_eq_right (by linarith), max_eq_left (by linarith)]; ring
        · rw [max_eq_left (by linarith), max_eq_right (by linarith)]; ring
      rw [e] at this
      exact this

/-- A call 10 in the money. -/
example : bsmOptionPrice .call 110 100 (1 / 20) (1 / 5) 0 none 0 false = .ok (some 10) := by
  rw [C206_expiry_partial (Or.inl rfl) (Or.inl rfl) (by simp [pv]) (by norm_num) (by simp [pv])]
  norm_num [payoffOf, pv]

end FinML.Options
