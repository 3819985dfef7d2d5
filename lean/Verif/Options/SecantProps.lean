import Verif.Options.SecantModel
import Verif.Options.ExpiryProps

/-! # Property C331: the asset price implied by a call -/

namespace FinML.Options

open Set Filter Topology

/-! ## Lemmas: the secant method on an increasing convex function -/

theorem secantStep_eq {p0 q0 p1 q1 : ℝ} (h : q1 ≠ q0) :
    secantStep p0 q0 p1 q1 = p1 - q1 * (p1 - p0) / (q1 - q0) := by
  have hd : q1 - q0 ≠ 0 := sub_ne_zero.2 h
  unfold secantStep
  split_ifs with hc
  · have h1 : q1 ≠ 0 := by
      rintro rfl
      rw [abs_zero] at hc
      exact absurd hc (not_lt.2 (abs_nonneg _))
    have : 1 - q0 / q1 ≠ 0 := by
      rw [sub_ne_zero]
      intro he
      rw [eq_div_iff h1, one_mul] at he
      exact h he
    have e : 1 - q0 / q1 = (q1 - q0) / q1 := by field_simp
    rw [e]
    field_simp
    ring
  · have h0 : q0 ≠ 0 := by
      rintro rfl
      apply hc
      rw [abs_zero]
      exact abs_pos.2 h
    have hd' : q0 - q1 ≠ 0 := sub_ne_zero.2 h.symm
    have e : 1 - q1 / q0 = (q0 - q1) / q0 := by field_simp
    rw [e]
    have e2 : q1 - q0 = -(q0 - q1) := by ring
    rw [e2]
    field_simp
    ring

/-- The properties of a call as a function of the asset price: increasing with slope at most `L`,
convex. -/
structure CallLike (g : ℝ → ℝ) (L : ℝ) : Prop where
  mono : ∀ x y, 0 < x → x < y → g x < g y
  lip : ∀ x y, 0 < x → x < y → g y - g x ≤ L * (y - x)
  convex : ∀ x y z, 0 < x → x < y → y < z → (g y - g x) * (z - y) ≤ (g z - g y) * (y - x)

theorem CallLike.inj {g : ℝ → ℝ} {L : ℝ} (hg : CallLike g L) {x y : ℝ} (hx : 0 < x) (hy : 0 < y)
    (hne : x ≠ y) : g x ≠ g y := by
  rcases lt_or_gt_of_ne hne with h | h
  · exact (hg.mono x y hx h).ne
  · exact (hg.mono y x hy h).ne'

/-- One step from two points: its place, the first point being the lower one. -/
theorem step_lower {g : ℝ → ℝ} {L : ℝ} (hg : CallLike g L) {a b ρ : ℝ} (ha : 0 < a) (hab : a < b)
    (hρ : 0 < ρ) (hr : g ρ = 0) :
    ∃ m, 0 < m ∧ m ≤ L ∧ g b - g a = m * (b - a) ∧ secantStep a (g a) b (g b) = b - g b / m ∧
      secantStep b (g b) a (g a) = b - g b / m ∧ b - g b / m = a - g a / m ∧
      (g a ≤ 0 → a ≤ a - g a / m) ∧ (0 ≤ g a → ρ ≤ a - g a / m) := by
  have hd : 0 < b - a := sub_pos.2 hab
  have hgd : 0 < g b - g a := sub_pos.2 (hg.mono a b ha hab)
  have hm : 0 < (g b - g a) / (b - a) := div_pos hgd hd
  have hgd' : g a - g b ≠ 0 := by intro h; linarith
  have hd' : a - b ≠ 0 := by intro h; linarith
  refine ⟨(g b - g a) / (b - a), hm, ?_, ?_, ?_, ?_, ?_, ?_, ?_⟩
  · rw [div_le_iff₀ hd]; exact hg.lip a b ha hab
  · field_simp
  · rw [secantStep_eq (hg.mono a b ha hab).ne']
    field_simp
  · rw [secantStep_eq (hg.mono a b ha hab).ne]
    field_simp
    have e : g a - g b = -(g b - g a) := by ring
    rw [e]
    field_simp
    ring
  · field_simp
    ring
  · intro h
    have := div_nonneg (neg_nonneg.2 h) hm.le
    rw [neg_div] at this
    linarith
  · intro h
    have hle : ρ ≤ a := by
      by_contra hlt
      have := hg.mono a ρ ha (not_le.1 hlt)
      linarith
    rcases hle.lt_or_eq with hlt | heq
    · have hc := hg.convex ρ a b hρ hlt hab
      rw [hr, sub_zero] at hc
      have : g a / ((g b - g a) / (b - a)) ≤ a - ρ := by
        rw [div_le_iff₀ hm, mul_div_assoc', le_div_iff₀ hd]
        linarith
      linarith
    · rw [← heq, hr]; simp

/-- One step from two points. -/
theorem step_facts {g : ℝ → ℝ} {L : ℝ} (hg : CallLike g L) {p0 p1 ρ : ℝ} (h0 : 0 < p0) (h1 : 0 < p1)
    (hne : p0 ≠ p1) (hρ : 0 < ρ) (hr : g ρ = 0) :
    0 < secantStep p0 (g p0) p1 (g p1) ∧
      ∃ m, 0 < m ∧ m ≤ L ∧ g p1 = m * (p1 - secantStep p0 (g p0) p1 (g p1)) := by
  rcases lt_or_gt_of_ne hne with h | h
  · obtain ⟨m, hm, hmL, _, e1, _, e3, h4, h5⟩ := step_lower hg h0 h hρ hr
    rw [e1]
    refine ⟨?_, m, hm, hmL, by field_simp; ring⟩
    rw [e3]
    rcases le_total (g p0) 0 with hs | hs
    · exact lt_of_lt_of_le h0 (h4 hs)
    · exact lt_of_lt_of_le hρ (h5 hs)
  · obtain ⟨m, hm, hmL, _, _, e2, e3, h4, h5⟩ := step_lower hg h1 h hρ hr
    rw [e2, e3]
    refine ⟨?_, m, hm, hmL, by field_simp; ring⟩
    rcases le_total (g p1) 0 with hs | hs
    · exact lt_of_lt_of_le h1 (h4 hs)
    · exact lt_of_lt_of_le hρ (h5 hs)

/-- The value at the step is at most the slope times the length of the step. -/
theorem step_value {g : ℝ → ℝ} {L : ℝ} (hg : CallLike g L) {p1 p m : ℝ} (h1 : 0 < p1) (hp : 0 < p)
    (hm : 0 < m) (hmL : m ≤ L) (hv : g p1 = m * (p1 - p)) : |g p| ≤ L * |p - p1| := by
  rcases lt_trichotomy p p1 with h | h | h
  · have h2 := hg.mono p p1 hp h
    have h3 := hg.lip p p1 hp h
    have h4 : m * (p1 - p) ≤ L * (p1 - p) := mul_le_mul_of_nonneg_right hmL (by linarith)
    rw [abs_of_neg (by linarith : p - p1 < 0), abs_le]
    have h5 : 0 ≤ m * (p1 - p) := mul_nonneg hm.le (by linarith)
    have e : L * -(p - p1) = L * (p1 - p) := by ring
    rw [e]
    constructor <;> linarith
  · rw [h, hv, h]; simp
  · have h2 := hg.mono p1 p h1 h
    have h3 := hg.lip p1 p h1 h
    have h4 : m * (p - p1) ≤ L * (p - p1) := mul_le_mul_of_nonneg_right hmL (by linarith)
    rw [abs_of_pos (by linarith : 0 < p - p1), abs_le]
    have h5 : 0 ≤ m * (p - p1) := mul_nonneg hm.le (by linarith)
    have e : m * (p1 - p) = -(m * (p - p1)) := by ring
    rw [e] at hv
    constructor <;> linarith

/-- What the loop returns is positive and almost a zero. -/
theorem loop_value {f : ℝ → Py (Option ℝ)} {g : ℝ → ℝ} {L : ℝ} (hg : CallLike g L)
    (hf : ∀ x, 0 < x → f x = .ok (some (g x))) {ρ : ℝ} (hρ : 0 < ρ) (hr : g ρ = 0) {tol : ℝ}
    (ht : 0 < tol) (n : ℕ) : ∀ {p0 p1 : ℝ}, 0 < p0 → 0 < p1 → p0 ≠ p1 →
    (∀ p, secantLoop f tol n p0 (g p0) p1 (g p1) = .ok p → 0 < p ∧ |g p| ≤ L * tol) ∧
    ∀ e, secantLoop f tol n p0 (g p0) p1 (g p1) = .error e → e = .runtimeError := by
  induction n with
  | zero =>
    intro p0 p1 _ _ _
    refine ⟨fun p h => ?_, fun e h => ?_⟩
    · unfold secantLoop at h; cases h
    · unfold secantLoop at h; cases h; rfl
  | succ n ih =>
    intro p0 p1 h0 h1 hne
    obtain ⟨hp, m, hm, hmL, hv⟩ := step_facts hg h0 h1 hne hρ hr
    unfold secantLoop
    rw [if_neg (hg.inj h0 h1 hne).symm]
    by_cases hc : |secantStep p0 (g p0) p1 (g p1) - p1| ≤ tol
    · rw [if_pos hc]
      refine ⟨fun p h => ?_, fun e h => by cases h⟩
      cases h
      refine ⟨hp, (step_value hg h1 hp hm hmL hv).trans ?_⟩
      exact mul_le_mul_of_nonneg_left hc (hm.le.trans hmL)
    · rw [if_neg hc, hf _ hp]
      refine ih h1 hp ?_
      intro he
      apply hc
      rw [← he, sub_self, abs_zero]
      exact ht.le

theorem second_gt {x0 : ℝ} (h : 0 < x0) : x0 < secondPoint x0 := by
  have h1 : 0 ≤ x0 * (1 + 1 / 10000) := by positivity
  unfold secondPoint
  simp only
  rw [if_pos h1]
  linarith

theorem newton_value {f : ℝ → Py (Option ℝ)} {g : ℝ → ℝ} {L : ℝ} (hg : CallLike g L)
    (hf : ∀ x, 0 < x → f x = .ok (some (g x))) {ρ : ℝ} (hρ : 0 < ρ) (hr : g ρ = 0) {tol : ℝ}
    (ht : 0 < tol) {n : ℕ} (hn : 1 ≤ n) {x0 : ℝ} (h0 : 0 < x0) :
    (∀ p, newtonSecant f x0 tol n = .ok p → 0 < p ∧ |g p| ≤ L * tol) ∧
    ∀ e, newtonSecant f x0 tol n = .error e → e = .runtimeError := by
  have h1 := second_gt h0
  have hp1 := h0.trans h1
  unfold newtonSecant
  rw [if_neg (not_le.2 ht), if_neg (not_lt.2 hn), hf x0 h0, hf _ hp1]
  simp only [Except.bind]
  split_ifs
  · exact loop_value hg hf hρ hr ht n hp1 h0 h1.ne'
  · exact loop_value hg hf hρ hr ht n h0 hp1 h1.ne

/-- From above the zero the iterates fall, each time by more than the tolerance until they stop. -/
theorem loop_above {f : ℝ → Py (Option ℝ)} {g : ℝ → ℝ} {L : ℝ} (hg : CallLike g L)
    (hf : ∀ x, 0 < x → f x = .ok (some (g x))) {ρ : ℝ} (hρ : 0 < ρ) (hr : g ρ = 0) {tol : ℝ}
    (n : ℕ) : ∀ {p0 p1 : ℝ}, ρ ≤ p1 → p1 < p0 → p1 ≤ n * tol →
    ∃ p, secantLoop f tol n p0 (g p0) p1 (g p1) = .ok p ∧ ρ ≤ p := by
  induction n with
  | zero =>
    intro p0 p1 h1 _ h
    simp at h
    linarith
  | succ n ih =>
    intro p0 p1 h1 h2 h
    have hp1 : 0 < p1 := lt_of_lt_of_le hρ h1
    have hg1 : 0 ≤ g p1 := by
      rcases h1.lt_or_eq with h1 | h1
      · rw [← hr]; exact (hg.mono ρ p1 hρ h1).le
      · rw [← h1, hr]
    obtain ⟨m, hm, hmL, _, _, e2, e3, _, h5⟩ := step_lower hg hp1 h2 hρ hr
    have hle : p1 - g p1 / m ≤ p1 := by
      have := div_nonneg hg1 hm.le
      linarith
    unfold secantLoop
    rw [if_neg (hg.mono p1 p0 hp1 h2).ne, e2, e3]
    by_cases hc : |p1 - g p1 / m - p1| ≤ tol
    · rw [if_pos hc]
      exact ⟨_, rfl, h5 hg1⟩
    · rw [if_neg hc, hf _ (lt_of_lt_of_le hρ (h5 hg1))]
      rw [abs_of_nonpos (by linarith)] at hc
      push_cast at h
      have hne : p1 - g p1 / m ≠ p1 := by
        intro he
        rw [he] at hc
        have : (0 : ℝ) ≤ tol := by
          by_contra hneg
          have : ((n : ℝ) + 1) * tol ≤ 0 :=
            mul_nonpos_of_nonneg_of_nonpos (by positivity) (by linarith)
          linarith
        apply hc
        linarith
      exact ih (h5 hg1) (lt_of_le_of_ne hle hne) (by linarith)

theorem newton_above {f : ℝ → Py (Option ℝ)} {g : ℝ → ℝ} {L : ℝ} (hg : CallLike g L)
    (hf : ∀ x, 0 < x → f x = .ok (some (g x))) {ρ : ℝ} (hρ : 0 < ρ) (hr : g ρ = 0) {tol : ℝ}
    (ht : 0 < tol) {n : ℕ} {x0 : ℝ} (h0 : ρ ≤ x0) (hn : x0 + tol ≤ n * tol) :
    ∃ p, newtonSecant f x0 tol n = .ok p ∧ ρ ≤ p := by
  have hx0 : 0 < x0 := lt_of_lt_of_le hρ h0
  have h1 := second_gt hx0
  have hp1 := hx0.trans h1
  have hg0 : 0 ≤ g x0 := by
    rcases h0.lt_or_eq with h0 | h0
    · rw [← hr]; exact (hg.mono ρ x0 hρ h0).le
    · rw [← h0, hr]
  have hg1 := hg.mono x0 _ hx0 h1
  obtain ⟨k, rfl⟩ : ∃ k, n = k + 1 := by
    cases n with
    | zero => simp at hn; linarith
    | succ k => exact ⟨k, rfl⟩
  unfold newtonSecant
  rw [if_neg (not_le.2 ht), if_neg (by omega), hf x0 hx0, hf _ hp1]
  simp only [Except.bind]
  rw [abs_of_nonneg hg0, abs_of_nonneg (hg0.trans hg1.le), if_neg (not_lt.2 hg1.le)]
  obtain ⟨m, hm, hmL, _, e1, _, e3, _, h5⟩ := step_lower hg hx0 h1 hρ hr
  have hle : x0 - g x0 / m ≤ x0 := by
    have := div_nonneg hg0 hm.le
    linarith
  unfold secantLoop
  rw [if_neg hg1.ne', e1, e3]
  by_cases hc : |x0 - g x0 / m - secondPoint x0| ≤ tol
  · rw [if_pos hc]
    exact ⟨_, rfl, h5 hg0⟩
  · rw [if_neg hc, hf _ (lt_of_lt_of_le hρ (h5 hg0))]
    push_cast at hn
    exact loop_above hg hf hρ hr k (h5 hg0) (by linarith) (by linarith)

/-! ## The call -/

/-- The slope of the call lies between the delta at the lower price and the discount factor. -/
theorem bs_slope {a a' b s : ℝ} (ha : 0 < a) (hb : 0 < b) (hs : 0 < s) (h : a < a') :
    normCdf (Real.log (a / b) / s + s / 2) * (a' - a) ≤ bs a' b s - bs a b s := by
  obtain ⟨z, hz, he⟩ := exists_hasDerivAt_eq_slope (fun a => bs a b s)
    (fun a => normCdf (Real.log (a / b) / s + s / 2)) h
    (fun x hx => (bs_hasDerivAt_left (lt_of_lt_of_le ha hx.1) hb hs).continuousAt.continuousWithinAt)
    (fun x hx => bs_hasDerivAt_left (ha.trans hx.1) hb hs)
  have hd : 0 < a' - a := sub_pos.2 h
  have hlog : Real.log (a / b) < Real.log (z / b) :=
    Real.log_lt_log (div_pos ha hb) (div_lt_div_of_pos_right hz.1 hb)
  have h1 := normCdf_strictMono.monotone
    (by have := div_lt_div_of_pos_right hlog hs; linarith :
      Real.log (a / b) / s + s / 2 ≤ Real.log (z / b) / s + s / 2)
  rw [eq_div_iff hd.ne'] at he
  have := mul_le_mul_of_nonneg_right h1 hd.le
  linarith

theorem bs_convex_left {a b c k s : ℝ} (ha : 0 < a) (hk : 0 < k) (hs : 0 < s) (hab : a < b)
    (hbc : b < c) : (bs b k s - bs a k s) * (c - b) ≤ (bs c k s - bs b k s) * (b - a) := by
  obtain ⟨z, hz, he⟩ := exists_hasDerivAt_eq_slope (fun a => bs a k s)
    (fun a => normCdf (Real.log (a / k) / s + s / 2)) hab
    (fun x hx => (bs_hasDerivAt_left (lt_of_lt_of_le ha hx.1) hk hs).continuousAt.continuousWithinAt)
    (fun x hx => bs_hasDerivAt_left (ha.trans hx.1) hk hs)
  have h1 := bs_slope (ha.trans hab) hk hs hbc
  have hlog : Real.log (z / k) < Real.log (b / k) :=
    Real.log_lt_log (div_pos (ha.trans hz.1) hk) (div_lt_div_of_pos_right hz.2 hk)
  have h2 := normCdf_strictMono.monotone
    (by have := div_lt_div_of_pos_right hlog hs; linarith :
      Real.log (z / k) / s + s / 2 ≤ Real.log (b / k) / s + s / 2)
  have hd : 0 < b - a := sub_pos.2 hab
  have hd' : 0 < c - b := sub_pos.2 hbc
  rw [eq_div_iff hd.ne'] at he
  have h3 := mul_le_mul_of_nonneg_right h2 hd'.le
  have h4 := mul_le_mul_of_nonneg_right (h3.trans h1) hd.le
  calc (bs b k s - bs a k s) * (c - b)
      = normCdf (Real.log (z / k) / s + s / 2) * (c - b) * (b - a) := by rw [← he]; ring
    _ ≤ _ := h4

theorem bs_callLike {A b s v : ℝ} (hA : 0 < A) (hb : 0 < b) (hs : 0 < s) :
    CallLike (fun x => bs (x * A) b s - v) A where
  mono x y hx hxy := by
    have := (bs_left (mul_pos hx hA) hb hs (mul_lt_mul_of_pos_right hxy hA)).1
    show bs (x * A) b s - v < bs (y * A) b s - v
    linarith
  lip x y hx hxy := by
    have := (bs_left (mul_pos hx hA) hb hs (mul_lt_mul_of_pos_right hxy hA)).2
    show bs (y * A) b s - v - (bs (x * A) b s - v) ≤ _
    linarith
  convex x y z hx hxy hyz := by
    have := bs_convex_left (mul_pos hx hA) hb hs (mul_lt_mul_of_pos_right hxy hA)
      (mul_lt_mul_of_pos_right hyz hA)
    show (bs (y * A) b s - v - (bs (x * A) b s - v)) * (z - y) ≤
      (bs (z * A) b s - v - (bs (y * A) b s - v)) * (y - x)
    have e1 : (bs (y * A) b s - bs (x * A) b s) * (z * A - y * A) =
      A * ((bs (y * A) b s - v - (bs (x * A) b s - v)) * (z - y)) := by ring
    have e2 : (bs (z * A) b s - bs (y * A) b s) * (y * A - x * A) =
      A * ((bs (z * A) b s - v - (bs (y * A) b s - v)) * (y - x)) := by ring
    rw [e1, e2] at this
    exact le_of_mul_le_mul_left this hA

/-- The quotes as the code passes them to the solver. -/
theorem call_function {k r sigma t q v : ℝ} {fut : Bool} (hk : 0 < k) (hs : 0 < sigma) (ht : 0 < t)
    {x : ℝ} (hx : 0 < x) :
    (bsmOptionPrice .call x k r sigma t none q fut).map (fun p => p.map fun x => x - v) =
      .ok (some (bs (x * Real.exp (-(if fut then r else q) * t)) (k * Real.exp (-r * t))
        (sigma * √t) - v)) := by
  rw [call_ok (.inl rfl) hk.ne', bsmCall_eq (by simpa [pv] using hx) hk hs ht]
  simp only [pv, sub_zero]
  rfl

/-! ## C331 -/

/-- C331.  `implied_asset_price` for a call with a positive price, from a positive first estimate: it
returns or raises RuntimeError, and what it returns is a positive price of the asset at which the call
is worth the given price up to the tolerance times the discount factor of the yield. -/
theorem C331_reprice {k r sigma t q v x0 tol : ℝ} {fut : Bool} {n : ℕ} (hk : 0 < k) (hs : 0 < sigma)
    (ht : 0 < t) (hv : 0 < v) (hx0 : 0 < x0) (htol : 0 < tol) (hn : 1 ≤ n) :
    (∀ e, impliedAssetPrice newtonSecant v x0 (fun s => bsmOptionPrice .call s k r sigma t none q fut)
      n tol = .error e → e = .runtimeError) ∧
    ∀ p, impliedAssetPrice newtonSecant v x0
        (fun s => bsmOptionPrice .call s k r sigma t none q fut) n tol = .ok p →
      0 < p ∧ ∃ c, bsmOptionPrice .call p k r sigma t none q fut = .ok (some c) ∧
        |c - v| ≤ tol * Real.exp (-((if fut then r else q) * t)) := by
  obtain ⟨ρ, ⟨hρ, hc⟩, _⟩ := C142_asset_price (r := r) (q := q) (fut := fut) hk hs ht hv
  have hroot := call_function (r := r) (q := q) (v := v) (fut := fut) hk hs ht hρ
  rw [hc] at hroot
  have hr : bs (ρ * Real.exp (-(if fut then r else q) * t)) (k * Real.exp (-r * t)) (sigma * √t) - v
      = 0 := by
    simp only [Except.map, Option.map_some, Except.ok.injEq, Option.some.injEq] at hroot
    linarith
  have hg := bs_callLike (v := v) (Real.exp_pos (-(if fut then r else q) * t))
    (mul_pos hk (Real.exp_pos (-r * t))) (mul_pos hs (Real.sqrt_pos.2 ht))
  obtain ⟨h1, h2⟩ := newton_value hg (fun x hx => call_function hk hs ht hx) hρ hr htol hn hx0
  refine ⟨h2, fun p hp => ?_⟩
  obtain ⟨h3, h4⟩ := h1 p hp
  refine ⟨h3, bs (p * Real.exp (-(if fut then r else q) * t)) (k * Real.exp (-r * t)) (sigma * √t),
    ?_, ?_⟩
  · rw [call_ok (.inl rfl) hk.ne', bsmCall_eq (by simpa [pv] using h3) hk hs ht]
    simp only [pv, sub_zero]
  · rw [mul_comm tol, ← neg_mul]
    exact h4

/-- C331.  From a first estimate at which the call is worth at least the given price, it returns, if
`maxiter` tolerances reach one tolerance beyond the estimate, and the result is not below the price
of the asset. -/
theorem C331_from_above {k r sigma t q v x0 tol ρ : ℝ} {fut : Bool} {n : ℕ} (hk : 0 < k)
    (hs : 0 < sigma) (ht : 0 < t) (htol : 0 < tol) (hρ : 0 < ρ)
    (hv : bsmOptionPrice .call ρ k r sigma t none q fut = .ok (some v)) (hx0 : ρ ≤ x0)
    (hn : x0 + tol ≤ n * tol) :
    ∃ p, impliedAssetPrice newtonSecant v x0
        (fun s => bsmOptionPrice .call s k r sigma t none q fut) n tol = .ok p ∧ ρ ≤ p := by
  have hroot := call_function (r := r) (q := q) (v := v) (fut := fut) hk hs ht hρ
  rw [hv] at hroot
  have hr : bs (ρ * Real.exp (-(if fut then r else q) * t)) (k * Real.exp (-r * t)) (sigma * √t) - v
      = 0 := by
    simp only [Except.map, Option.map_some, Except.ok.injEq, Option.some.injEq] at hroot
    linarith
  have hg := bs_callLike (v := v) (Real.exp_pos (-(if fut then r else q) * t))
    (mul_pos hk (Real.exp_pos (-r * t))) (mul_pos hs (Real.sqrt_pos.2 ht))
  exact newton_above hg (fun x hx => call_function hk hs ht hx) hρ hr htol hx0 hn

/-- C331, the full claim: what is returned is within the tolerance of the price of the asset. -/
def AssetPriceWithin : Prop :=
  ∀ (k r sigma t q v x0 tol ρ : ℝ) (fut : Bool) (n : ℕ) (p : ℝ), 0 < k → 0 < sigma → 0 < t → 0 < ρ →
    0 < x0 → 0 < tol → bsmOptionPrice .call ρ k r sigma t none q fut = .ok (some v) →
    impliedAssetPrice newtonSecant v x0 (fun s => bsmOptionPrice .call s k r sigma t none q fut)
      n tol = .ok p → |p - ρ| ≤ tol

/-- C331 as far as it holds: the error is at most the tolerance divided by `Φ(d1)` at the lower of the
two prices, thus at most twice the tolerance if `d1` is not negative there.  Missing: calls out of the
money, for which `Φ(d1)` is small. -/
theorem C331_error_partial {k r sigma t q v x0 tol ρ p : ℝ} {fut : Bool} {n : ℕ} (hk : 0 < k)
    (hs : 0 < sigma) (ht : 0 < t) (hρ : 0 < ρ) (hx0 : 0 < x0) (htol : 0 < tol) (hn : 1 ≤ n)
    (hv : bsmOptionPrice .call ρ k r sigma t none q fut = .ok (some v))
    (hp : impliedAssetPrice newtonSecant v x0
      (fun s => bsmOptionPrice .call s k r sigma t none q fut) n tol = .ok p) {d1 : ℝ}
    (hd1 : d1 = (Real.log (min p ρ / k) + (r - (if fut then r else q) + sigma ^ 2 / 2) * t) /
      (sigma * √t)) :
    |p - ρ| * normCdf d1 ≤ tol ∧ (0 ≤ d1 → |p - ρ| ≤ 2 * tol) := by
  set y := (if fut = true then r else q) with hy
  set A := Real.exp (-y * t) with hA
  set B := Real.exp (-r * t) with hB
  have hA0 : 0 < A := Real.exp_pos _
  have hB0 : 0 < B := Real.exp_pos _
  have hb : 0 < k * B := mul_pos hk hB0
  have hσ : 0 < sigma * √t := mul_pos hs (Real.sqrt_pos.2 ht)
  have hval : ∀ x : ℝ, 0 < x → ∀ c, bsmOptionPrice .call x k r sigma t none q fut = .ok (some c) →
      bs (x * A) (k * B) (sigma * √t) = c := by
    intro x hx c hc
    rw [call_ok (.inl rfl) hk.ne', bsmCall_eq (by simpa [pv] using hx) hk hs ht] at hc
    simpa only [pv, sub_zero, ← hy, ← hA, ← hB, Except.ok.injEq, Option.some.injEq] using hc
  have hv0 : 0 < v := by
    rw [← hval ρ hρ v hv]
    exact lt_of_le_of_lt (le_max_right _ _) (bs_gt (mul_pos hρ hA0) hb hσ)
  obtain ⟨hp0, c, hc, hcv⟩ := (C331_reprice (r := r) (q := q) (fut := fut) hk hs ht hv0 hx0 htol hn).2
    p hp
  rw [← hy, ← neg_mul, ← hA, ← hval ρ hρ v hv, ← hval p hp0 c hc] at hcv
  have hd : ∀ x, 0 < x → Real.log (x * A / (k * B)) / (sigma * √t) + sigma * √t / 2 =
      (Real.log (x / k) + (r - y + sigma ^ 2 / 2) * t) / (sigma * √t) := by
    intro x hx
    have h1 : 0 < √t := Real.sqrt_pos.2 ht
    have h2 : √t ^ 2 = t := Real.sq_sqrt ht.le
    have e : Real.log (x * A / (k * B)) = Real.log (x / k) + (r - y) * t := by
      rw [Real.log_div (mul_pos hx hA0).ne' hb.ne', Real.log_mul hx.ne' hA0.ne',
        Real.log_mul hk.ne' hB0.ne', hA, hB, Real.log_exp, Real.log_exp, Real.log_div hx.ne' hk.ne']
      ring
    rw [e]
    field_simp
    rw [h2]
    ring
  have key : |p - ρ| * normCdf d1 ≤ tol := by
    rcases lt_trichotomy p ρ with h | h | h
    · have h1 := bs_slope (mul_pos hp0 hA0) hb hσ (mul_lt_mul_of_pos_right h hA0)
      rw [hd p hp0] at h1
      rw [min_eq_left h.le] at hd1
      rw [← hd1] at h1
      rw [abs_of_neg (by linarith : p - ρ < 0)]
      have h2 := (abs_le.1 hcv).1
      have h3 : A * (-(p - ρ) * normCdf d1) ≤ A * tol := by
        have e : A * (-(p - ρ) * normCdf d1) = normCdf d1 * (ρ * A - p * A) := by ring
        rw [e]
        linarith
      exact le_of_mul_le_mul_left h3 hA0
    · rw [h]; simp [htol.le]
    · have h1 := bs_slope (mul_pos hρ hA0) hb hσ (mul_lt_mul_of_pos_right h hA0)
      rw [hd ρ hρ] at h1
      rw [min_eq_right h.le] at hd1
      rw [← hd1] at h1
      rw [abs_of_pos (by linarith : 0 < p - ρ)]
      have h2 := (abs_le.1 hcv).2
      have h3 : A * ((p - ρ) * normCdf d1) ≤ A * tol := by
        have e : A * ((p - ρ) * normCdf d1) = normCdf d1 * (p * A - ρ * A) := by ring
        rw [e]
        linarith
      exact le_of_mul_le_mul_left h3 hA0
  refine ⟨key, fun h0 => ?_⟩
  have h1 := normCdf_strictMono.monotone h0
  rw [normCdf_zero] at h1
  have := mul_le_mul_of_nonneg_left h1 (abs_nonneg (p - ρ))
  linarith

/-- The hypotheses hold: a call at the money, from an estimate of twice the price of the asset, with the
default tolerance and enough iterations. -/
example : ∃ v p, bsmOptionPrice .call 100 100 0 (1 / 5) 1 none 0 false = .ok (some v) ∧
    impliedAssetPrice newtonSecant v 200
      (fun s => bsmOptionPrice .call s 100 0 (1 / 5) 1 none 0 false) 20001 (1 / 100) = .ok p := by
  obtain ⟨v, hc⟩ : ∃ v, bsmOptionPrice .call 100 100 0 (1 / 5) 1 none 0 false = .ok (some v) := by
    rw [call_ok (.inl rfl) (by norm_num), bsmCall_eq (by simp [pv]) (by norm_num) (by norm_num)
      (by norm_num)]
    exact ⟨_, rfl⟩
  obtain ⟨p, hp, _⟩ := C331_from_above (x0 := 200) (tol := 1 / 100) (n := 20001) (by norm_num)
    (by norm_num) (by norm_num) (by norm_num) (by norm_num) hc (by norm_num) (by norm_num)
  exact ⟨_, p, hc, hp⟩

/-- C331 fails out of the money: asset at 1/2, strike 1.0001 and a small volatility; from the estimate
1 the second point 1.0002 is beyond the strike, the line through the two values reaches zero close to
1, and the call returns at once, with the default tolerance of one hundredth. -/
theorem C331_error_counterexample : ¬ AssetPriceWithin := by
  intro h
  have hK : (0 : ℝ) < 10001 / 10000 := by norm_num
  have hlim := bs_tendsto_zero (a := 1) (b := 10001 / 10000) one_pos hK
  rw [show max ((1 : ℝ) - 10001 / 10000) 0 = 0 by norm_num] at hlim
  obtain ⟨s, hs1, hs⟩ := ((hlim.eventually (gt_mem_nhds (show (0 : ℝ) < 1 / 100000 by norm_num))).and
    self_mem_nhdsWithin).exists
  have hs : 0 < s := hs
  have hval : ∀ x : ℝ, 0 < x → bsmOptionPrice .call x (10001 / 10000) 0 s 1 none 0 false =
      .ok (some (bs x (10001 / 10000) s)) := by
    intro x hx
    rw [call_ok (.inl rfl) hK.ne', bsmCall_eq (by simpa [pv] using hx) hK hs one_pos]
    simp [pv]
  set g := fun x => bs x (10001 / 10000) s - bs (1 / 2) (10001 / 10000) s with hgdef
  have hv : 0 < bs (1 / 2) (10001 / 10000) s :=
    lt_of_le_of_lt (le_max_right _ _) (bs_gt (by norm_num) hK hs)
  have h0 : 0 < g 1 := by
    have := (bs_left (a := 1 / 2) (a' := 1) (by norm_num) hK hs (by norm_num)).1
    show 0 < bs 1 _ s - bs (1 / 2) _ s
    linarith
  have h0' : g 1 < 1 / 100000 := by
    show bs 1 _ s - bs (1 / 2) _ s < _
    linarith
  have h1 : 9 / 100000 < g (10002 / 10000) := by
    have h2 := lt_of_le_of_lt (le_max_left _ _) (bs_gt (a := 10002 / 10000) (by norm_num) hK hs)
    show _ < bs (10002 / 10000) _ s - bs (1 / 2) _ s
    have h3 : bs (1 / 2) (10001 / 10000) s < 1 / 100000 := by
      have : g 1 = bs 1 (10001 / 10000) s - bs (1 / 2) (10001 / 10000) s := rfl
      linarith
    norm_num at h2 h3 ⊢
    linarith
  have hf : ∀ x : ℝ, 0 < x → (bsmOptionPrice .call x (10001 / 10000) 0 s 1 none 0 false).map
      (fun p => p.map fun x => x - bs (1 / 2) (10001 / 10000) s) = .ok (some (g x)) := by
    intro x hx
    rw [hval x hx]
    rfl
  have h2p : secondPoint 1 = 10002 / 10000 := by
    unfold secondPoint
    norm_num
  set p := secantStep 1 (g 1) (10002 / 10000) (g (10002 / 10000)) with hpdef
  have hp : p = 10002 / 10000 - g (10002 / 10000) * (2 / 10000) / (g (10002 / 10000) - g 1) := by
    rw [hpdef, secantStep_eq (by linarith)]
    norm_num
  have hd : 0 < g (10002 / 10000) - g 1 := by linarith
  have hq0 : 0 ≤ g (10002 / 10000) * (2 / 10000) / (g (10002 / 10000) - g 1) :=
    div_nonneg (mul_nonneg (by linarith) (by norm_num)) hd.le
  have hq1 : g (10002 / 10000) * (2 / 10000) / (g (10002 / 10000) - g 1) ≤ 4 / 10000 := by
    rw [div_le_iff₀ hd]
    linarith
  have hrun : impliedAssetPrice newtonSecant (bs (1 / 2) (10001 / 10000) s) 1
      (fun x => bsmOptionPrice .call x (10001 / 10000) 0 s 1 none 0 false) 100 (1 / 100) = .ok p := by
    unfold impliedAssetPrice
    generalize hF : (fun x : ℝ => (bsmOptionPrice .call x (10001 / 10000) 0 s 1 none 0 false).map
      (fun p => p.map fun x => x - bs (1 / 2) (10001 / 10000) s)) = F
    replace hf : ∀ x : ℝ, 0 < x → F x = .ok (some (g x)) := by
      intro x hx
      rw [← hF]
      exact hf x hx
    unfold newtonSecant
    rw [if_neg (by norm_num), if_neg (by norm_num), hf 1 one_pos, h2p, hf _ (by norm_num)]
    simp only [Except.bind]
    rw [if_neg (by rw [abs_of_pos h0, abs_of_pos (by linarith)]; linarith)]
    unfold secantLoop
    rw [if_neg (by linarith), ← hpdef, if_pos]
    rw [hp, abs_le]
    constructor <;> linarith
  have := h _ _ _ _ _ _ _ _ (1 / 2) false 100 p hK hs one_pos (by norm_num) one_pos (by norm_num)
    (hval (1 / 2) (by norm_num)) hrun
  rw [hp] at this
  have := (abs_le.1 this).2
  linarith

end FinML.Options
