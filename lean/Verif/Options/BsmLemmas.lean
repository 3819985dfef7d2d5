import Verif.Options.Model
import Mathlib.Analysis.Calculus.Deriv.MeanValue
import Mathlib.Analysis.SpecialFunctions.Log.Deriv
import Mathlib.Analysis.SpecialFunctions.ExpDeriv
import Mathlib.Tactic.FieldSimp
import Mathlib.Tactic.Linarith
import Mathlib.Tactic.Positivity

/-! # Lemmas about the Black-Scholes formula -/

namespace FinML.Options

open Filter Topology Set

/-- The formula in terms of the discounted forward `a`, the discounted strike `b` and the total
volatility `s`. -/
noncomputable def bs (a b s : ℝ) : ℝ :=
  a * normCdf (Real.log (a / b) / s + s / 2) - b * normCdf (Real.log (a / b) / s - s / 2)

theorem normPdf_shift (x s : ℝ) : normPdf (x + s) = normPdf x * Real.exp (-(x * s) - s ^ 2 / 2) := by
  rw [normPdf_eq, normPdf_eq, mul_assoc, ← Real.exp_add]
  congr 2
  ring

theorem bs_identity {a b s : ℝ} (ha : 0 < a) (hb : 0 < b) (hs : s ≠ 0) :
    a * normPdf (Real.log (a / b) / s + s / 2) = b * normPdf (Real.log (a / b) / s - s / 2) := by
  have h := normPdf_shift (Real.log (a / b) / s - s / 2) s
  have e1 : Real.log (a / b) / s - s / 2 + s = Real.log (a / b) / s + s / 2 := by ring
  have e2 : -((Real.log (a / b) / s - s / 2) * s) - s ^ 2 / 2 = -Real.log (a / b) := by field_simp; ring
  rw [e1, e2, Real.exp_neg, Real.exp_log (div_pos ha hb)] at h
  rw [h]
  field_simp

/-- The value of exercising where the normal variable is at most `x`. -/
noncomputable def gval (a b s x : ℝ) : ℝ := a * normCdf (x + s) - b * normCdf x

theorem gval_hasDerivAt (a b s x : ℝ) : HasDerivAt (gval a b s) (normPdf x * (a * Real.exp (-(x * s) - s ^ 2 / 2) - b)) x := by
  have h1 : HasDerivAt (fun x : ℝ => normCdf (x + s)) (normPdf (x + s)) x := by
    have h := (normCdf_hasDerivAt (x + s)).comp x ((hasDerivAt_id x).add_const s)
    rw [mul_one] at h
    exact h
  have h2 := (h1.const_mul a).sub ((normCdf_hasDerivAt x).const_mul b)
  rw [normPdf_shift] at h2
  refine h2.congr_deriv ?_
  ring

theorem gval_continuous (a b s : ℝ) : Continuous (gval a b s) :=
  continuous_iff_continuousAt.2 fun x => (gval_hasDerivAt a b s x).continuousAt

/-- The sign of the derivative: positive below `log(a/b)/s - s/2`, negative above. -/
theorem gval_deriv_sign {a b s : ℝ} (ha : 0 < a) (hb : 0 < b) (hs : 0 < s) (x : ℝ) :
    (x < Real.log (a / b) / s - s / 2 → b < a * Real.exp (-(x * s) - s ^ 2 / 2)) ∧
    (Real.log (a / b) / s - s / 2 < x → a * Real.exp (-(x * s) - s ^ 2 / 2) < b) := by
  have hexp : a * Real.exp (-Real.log (a / b)) = b := by
    rw [Real.exp_neg, Real.exp_log (div_pos ha hb)]; field_simp
  have he : (Real.log (a / b) / s - s / 2) * s = Real.log (a / b) - s ^ 2 / 2 := by field_simp
  constructor
  · intro h
    have := mul_lt_mul_of_pos_right h hs
    rw [← hexp]
    have : -Real.log (a / b) < -(x * s) - s ^ 2 / 2 := by linarith
    exact mul_lt_mul_of_pos_left (Real.exp_lt_exp.2 this) ha
  · intro h
    have := mul_lt_mul_of_pos_right h hs
    have : -(x * s) - s ^ 2 / 2 < -Real.log (a / b) := by linarith
    have := mul_lt_mul_of_pos_left (Real.exp_lt_exp.2 this) ha
    rwa [hexp] at this

theorem gval_strictMonoOn {a b s : ℝ} (ha : 0 < a) (hb : 0 < b) (hs : 0 < s) :
    StrictMonoOn (gval a b s) (Iic (Real.log (a / b) / s - s / 2)) := by
  apply strictMonoOn_of_deriv_pos (convex_Iic _) (gval_continuous a b s).continuousOn
  intro x hx
  rw [interior_Iic] at hx
  rw [(gval_hasDerivAt a b s x).deriv]
  have := (gval_deriv_sign ha hb hs x).1 hx
  exact mul_pos (normPdf_pos x) (by linarith)

theorem gval_strictAntiOn {a b s : ℝ} (ha : 0 < a) (hb : 0 < b) (hs : 0 < s) :
    StrictAntiOn (gval a b s) (Ici (Real.log (a / b) / s - s / 2)) := by
  apply strictAntiOn_of_deriv_neg (convex_Ici _) (gval_continuous a b s).continuousOn
  intro x hx
  rw [interior_Ici] at hx
  rw [(gval_hasDerivAt a b s x).deriv]
  have := (gval_deriv_sign ha hb hs x).2 hx
  exact mul_neg_of_pos_of_neg (normPdf_pos x) (by linarith)

theorem gval_tendsto_atBot (a b s : ℝ) : Tendsto (gval a b s) atBot (𝓝 0) := by
  have h1 : Tendsto (fun x : ℝ => normCdf (x + s)) atBot (𝓝 0) :=
    normCdf_tendsto_atBot.comp (tendsto_atBot_add_const_right _ s tendsto_id)
  have h := (h1.const_mul a).sub (normCdf_tendsto_atBot.const_mul b)
  rw [mul_zero, mul_zero, sub_zero] at h
  exact h

theorem gval_tendsto_atTop (a b s : ℝ) : Tendsto (gval a b s) atTop (𝓝 (a - b)) := by
  have h1 : Tendsto (fun x : ℝ => normCdf (x + s)) atTop (𝓝 1) :=
    normCdf_tendsto_atTop.comp (tendsto_atTop_add_const_right _ s tendsto_id)
  have h := (h1.const_mul a).sub (normCdf_tendsto_atTop.const_mul b)
  rw [mul_one, mul_one] at h
  exact h

/-- Below the best threshold the value is positive. -/
theorem gval_pos {a b s x : ℝ} (ha : 0 < a) (hb : 0 < b) (hs : 0 < s)
    (hx : x ≤ Real.log (a / b) / s - s / 2) : 0 < gval a b s x := by
  have hm := gval_strictMonoOn ha hb hs
  have h1 : gval a b s (x - 1) < gval a b s x := hm (by simp only [mem_Iic]; linarith) hx (by linarith)
  refine lt_of_le_of_lt ?_ h1
  refine le_of_tendsto (gval_tendsto_atBot a b s) ?_
  filter_upwards [eventually_le_atBot (x - 1)] with y hy
  exact hm.monotoneOn (by simp only [mem_Iic]; linarith) (by simp only [mem_Iic]; linarith) hy

theorem gval_gt {a b s x : ℝ} (ha : 0 < a) (hb : 0 < b) (hs : 0 < s)
    (hx : Real.log (a / b) / s - s / 2 ≤ x) : a - b < gval a b s x := by
  have hm := gval_strictAntiOn ha hb hs
  have h1 : gval a b s (x + 1) < gval a b s x := hm hx (by simp only [mem_Ici]; linarith) (by linarith)
  refine lt_of_le_of_lt ?_ h1
  refine le_of_tendsto (gval_tendsto_atTop a b s) ?_
  filter_upwards [eventually_ge_atTop (x + 1)] with y hy
  exact hm.antitoneOn (by simp only [mem_Ici]; linarith) (by simp only [mem_Ici]; linarith) hy

theorem bs_eq_gval (a b s : ℝ) : bs a b s = gval a b s (Real.log (a / b) / s - s / 2) := by
  unfold bs gval
  rw [show Real.log (a / b) / s - s / 2 + s = Real.log (a / b) / s + s / 2 by ring]

theorem bs_gt {a b s : ℝ} (ha : 0 < a) (hb : 0 < b) (hs : 0 < s) : max (a - b) 0 < bs a b s := by
  rw [bs_eq_gval]
  exact max_lt (gval_gt ha hb hs (le_refl _)) (gval_pos ha hb hs (le_refl _))

theorem bs_lt {a b s : ℝ} (ha : 0 < a) (hb : 0 < b) : bs a b s < a := by
  unfold bs
  have h1 := mul_lt_mul_of_pos_left (normCdf_lt_one (Real.log (a / b) / s + s / 2)) ha
  have h2 := mul_pos hb (normCdf_pos (Real.log (a / b) / s - s / 2))
  linarith

theorem bs_hasDerivAt {a b s : ℝ} (ha : 0 < a) (hb : 0 < b) (hs : 0 < s) :
    HasDerivAt (bs a b) (a * normPdf (Real.log (a / b) / s + s / 2)) s := by
  have hi := bs_identity ha hb hs.ne'
  have h0 : HasDerivAt (fun s : ℝ => Real.log (a / b) / s) (-(Real.log (a / b)) / s ^ 2) s := by
    have := (hasDerivAt_inv hs.ne').const_mul (Real.log (a / b))
    refine (this.congr_deriv ?_).congr_of_eventuallyEq ?_
    · field_simp
    · exact Eventually.of_forall fun x => by simp only [div_eq_mul_inv]
  have hh : HasDerivAt (fun s : ℝ => s / 2) (1 / 2) s := (hasDerivAt_id s).div_const 2
  have h1 := (normCdf_hasDerivAt (Real.log (a / b) / s + s / 2)).comp s (h0.add hh)
  have h2 := (normCdf_hasDerivAt (Real.log (a / b) / s - s / 2)).comp s (h0.sub hh)
  have h3 := (h1.const_mul a).sub (h2.const_mul b)
  refine h3.congr_deriv ?_
  linear_combination (-(Real.log (a / b)) / s ^ 2 - 1 / 2) * hi

theorem bs_continuousOn {a b : ℝ} (ha : 0 < a) (hb : 0 < b) : ContinuousOn (bs a b) (Ioi 0) :=
  fun _ hs => (bs_hasDerivAt ha hb hs).continuousAt.continuousWithinAt

theorem bs_strictMonoOn {a b : ℝ} (ha : 0 < a) (hb : 0 < b) : StrictMonoOn (bs a b) (Ioi 0) := by
  apply strictMonoOn_of_deriv_pos (convex_Ioi _) (bs_continuousOn ha hb)
  intro s hs
  rw [interior_Ioi] at hs
  rw [(bs_hasDerivAt ha hb hs).deriv]
  exact mul_pos ha (normPdf_pos _)

/-- The slope in the underlying. -/
theorem bs_hasDerivAt_left {a b s : ℝ} (ha : 0 < a) (hb : 0 < b) (hs : 0 < s) :
    HasDerivAt (fun a => bs a b s) (normCdf (Real.log (a / b) / s + s / 2)) a := by
  have hi := bs_identity ha hb hs.ne'
  have h0 : HasDerivAt (fun a : ℝ => Real.log (a / b) / s) (1 / a / s) a := by
    have h := ((hasDerivAt_id a).div_const b).log (div_pos ha hb).ne'
    refine (h.div_const s).congr_deriv ?_
    simp only [id_eq]
    field_simp
  have h1 := (normCdf_hasDerivAt (Real.log (a / b) / s + s / 2)).comp a (h0.add_const (s / 2))
  have h2 := (normCdf_hasDerivAt (Real.log (a / b) / s - s / 2)).comp a (h0.sub_const (s / 2))
  have h3 := ((hasDerivAt_id a).mul h1).sub (h2.const_mul b)
  refine h3.congr_deriv ?_
  simp only [Function.comp_apply, id_eq]
  linear_combination (1 / a / s) * hi

/-- The slope in the strike. -/
theorem bs_hasDerivAt_right {a b s : ℝ} (ha : 0 < a) (hb : 0 < b) (hs : 0 < s) :
    HasDerivAt (fun b => bs a b s) (-normCdf (Real.log (a / b) / s - s / 2)) b := by
  have hi := bs_identity ha hb hs.ne'
  have h0 : HasDerivAt (fun b : ℝ => Real.log (a / b) / s) (-(1 / b) / s) b := by
    have h : HasDerivAt (fun b : ℝ => Real.log a - Real.log b) (-b⁻¹) b := by
      simpa using (Real.hasDerivAt_log hb.ne').const_sub (Real.log a)
    refine ((h.div_const s).congr_deriv (by rw [one_div])).congr_of_eventuallyEq ?_
    filter_upwards [eventually_gt_nhds hb] with y hy
    rw [Real.log_div ha.ne' (ne_of_gt hy)]
  have h1 := (normCdf_hasDerivAt (Real.log (a / b) / s + s / 2)).comp b (h0.add_const (s / 2))
  have h2 := (normCdf_hasDerivAt (Real.log (a / b) / s - s / 2)).comp b (h0.sub_const (s / 2))
  have h3 := (h1.const_mul a).sub ((hasDerivAt_id b).mul h2)
  refine h3.congr_deriv ?_
  simp only [Function.comp_apply, id_eq]
  linear_combination (-(1 / b) / s) * hi

theorem bs_tendsto_atTop (a b : ℝ) : Tendsto (bs a b) atTop (𝓝 a) := by
  have hs : Tendsto (fun s : ℝ => s / 2) atTop atTop := tendsto_id.atTop_div_const (by norm_num)
  have h0 : Tendsto (fun s : ℝ => Real.log (a / b) / s) atTop (𝓝 0) := tendsto_const_nhds.div_atTop tendsto_id
  have h1 : Tendsto (fun s : ℝ => normCdf (Real.log (a / b) / s + s / 2)) atTop (𝓝 1) :=
    normCdf_tendsto_atTop.comp (h0.add_atTop hs)
  have h2 : Tendsto (fun s : ℝ => normCdf (Real.log (a / b) / s - s / 2)) atTop (𝓝 0) := by
    refine normCdf_tendsto_atBot.comp ?_
    simp only [sub_eq_add_neg]
    exact h0.add_atBot (tendsto_neg_atTop_atBot.comp hs)
  have h := (h1.const_mul a).sub (h2.const_mul b)
  rw [mul_one, mul_zero, sub_zero] at h
  exact h

theorem bs_tendsto_zero {a b : ℝ} (ha : 0 < a) (hb : 0 < b) :
    Tendsto (bs a b) (𝓝[>] 0) (𝓝 (max (a - b) 0)) := by
  have hs : Tendsto (fun s : ℝ => s / 2) (𝓝[>] 0) (𝓝 0) := by
    have : Tendsto (fun s : ℝ => s / 2) (𝓝 0) (𝓝 (0 / 2)) := (continuous_id.div_const 2).tendsto 0
    rw [zero_div] at this
    exact this.mono_left nhdsWithin_le_nhds
  have hinv : Tendsto (fun s : ℝ => s⁻¹) (𝓝[>] 0) atTop := tendsto_inv_nhdsGT_zero
  rcases lt_trichotomy a b with h | h | h
  · have hl : Real.log (a / b) < 0 := Real.log_neg (div_pos ha hb) ((div_lt_one hb).2 h)
    have h0 : Tendsto (fun s : ℝ => Real.log (a / b) / s) (𝓝[>] 0) atBot := by
      simp only [div_eq_mul_inv]
      exact hinv.const_mul_atTop_of_neg hl
    have h1 := normCdf_tendsto_atBot.comp (h0.atBot_add hs)
    have hs' : Tendsto (fun s : ℝ => -(s / 2)) (𝓝[>] 0) (𝓝 0) := by simpa using hs.neg
    have h2 := normCdf_tendsto_atBot.comp (h0.atBot_add hs')
    rw [max_eq_right (by linarith)]
    have h3 := (h1.const_mul a).sub (h2.const_mul b)
    simp only [mul_zero, sub_zero] at h3
    exact h3
  · subst h
    have hc : Tendsto (fun s : ℝ => normCdf (s / 2)) (𝓝[>] 0) (𝓝 (normCdf 0)) :=
      (normCdf_continuous.tendsto 0).comp hs
    have hs' : Tendsto (fun s : ℝ => -(s / 2)) (𝓝[>] 0) (𝓝 0) := by simpa using hs.neg
    have hc' : Tendsto (fun s : ℝ => normCdf (-(s / 2))) (𝓝[>] 0) (𝓝 (normCdf 0)) :=
      (normCdf_continuous.tendsto 0).comp hs'
    have h3 := (hc.const_mul a).sub (hc'.const_mul a)
    simp only [sub_self, max_self] at h3 ⊢
    refine h3.congr fun s => ?_
    simp [bs, div_self ha.ne']
  · have hl : 0 < Real.log (a / b) := Real.log_pos ((one_lt_div hb).2 h)
    have h0 : Tendsto (fun s : ℝ => Real.log (a / b) / s) (𝓝[>] 0) atTop := by
      simp only [div_eq_mul_inv]
      exact hinv.const_mul_atTop hl
    have h1 := normCdf_tendsto_atTop.comp (h0.atTop_add hs)
    have hs' : Tendsto (fun s : ℝ => -(s / 2)) (𝓝[>] 0) (𝓝 0) := by simpa using hs.neg
    have h2 := normCdf_tendsto_atTop.comp (h0.atTop_add hs')
    rw [max_eq_left (by linarith)]
    have h3 := (h1.const_mul a).sub (h2.const_mul b)
    simp only [mul_one] at h3
    exact h3

/-- Every price between the bounds is that of exactly one volatility. -/
theorem bs_exists_unique {a b v : ℝ} (ha : 0 < a) (hb : 0 < b) (h1 : max (a - b) 0 < v) (h2 : v < a) :
    ∃! s, 0 < s ∧ bs a b s = v := by
  have e1 : ∀ᶠ s in 𝓝[>] (0 : ℝ), bs a b s < v := (bs_tendsto_zero ha hb).eventually (gt_mem_nhds h1)
  obtain ⟨s1, hs1, hs1p⟩ := (e1.and self_mem_nhdsWithin).exists
  have e2 : ∀ᶠ s in atTop, v < bs a b s := (bs_tendsto_atTop a b).eventually (lt_mem_nhds h2)
  obtain ⟨s2, hs2, hs2p⟩ := (e2.and (eventually_ge_atTop s1)).exists
  have hc : ContinuousOn (bs a b) (Icc s1 s2) :=
    (bs_continuousOn ha hb).mono fun x hx => lt_of_lt_of_le hs1p hx.1
  obtain ⟨s, hs, hv⟩ := intermediate_value_Icc hs2p hc ⟨hs1.le, hs2.le⟩
  have hsp : 0 < s := lt_of_lt_of_le hs1p hs.1
  exact ⟨s, ⟨hsp, hv⟩, fun y hy => (bs_strictMonoOn ha hb).injOn hy.1 hsp (by rw [hy.2, hv])⟩

/-! ## The model in these terms -/

theorem d1_fin {s0 k r sigma t q : ℝ} (hs0 : 0 < s0) (hk : 0 < k) (hs : 0 < sigma) (ht : 0 < t) :
    bsmD1 s0 k r sigma t q = .fin (Real.log (s0 * Real.exp (-q * t) / (k * Real.exp (-r * t))) /
      (sigma * √t) + sigma * √t / 2) := by
  have h1 : 0 < √t := Real.sqrt_pos.2 ht
  have h2 : √t ^ 2 = t := Real.sq_sqrt ht.le
  unfold bsmD1 logRatio npLog
  rw [if_neg (not_lt.2 ht.le), if_neg hk.ne', if_pos (div_pos hs0 hk)]
  simp only [FExt.add, FExt.div]
  rw [if_neg (mul_pos hs h1).ne']
  congr 1
  have e : Real.log (s0 * Real.exp (-q * t) / (k * Real.exp (-r * t))) = Real.log (s0 / k) + (r - q) * t := by
    rw [Real.log_div (by positivity) (by positivity), Real.log_mul hs0.ne' (by positivity),
      Real.log_mul hk.ne' (by positivity), Real.log_exp, Real.log_exp, Real.log_div hs0.ne' hk.ne']
    ring
  rw [e]
  field_simp
  rw [h2]
  ring

theorem bsmCall_eq {s0 k r sigma t q : ℝ} (hs0 : 0 < s0) (hk : 0 < k) (hs : 0 < sigma) (ht : 0 < t) :
    bsmCall s0 k r sigma t q = some (bs (s0 * Real.exp (-q * t)) (k * Real.exp (-r * t)) (sigma * √t)) := by
  unfold bsmCall bsmD2
  rw [d1_fin hs0 hk hs ht]
  simp only [FExt.add, FExt.cdf, bs, Option.bind_eq_bind, Option.bind_some, Option.pure_def]
  rw [show ∀ x y : ℝ, x + y / 2 + -y = x - y / 2 from fun x y => by ring]

theorem FExt.neg_cdf (e : FExt) : e.neg.cdf = e.cdf.map fun x => 1 - x := by
  cases e <;> simp [FExt.neg, FExt.cdf, normCdf_neg]

theorem cdf_add (e : FExt) (y : ℝ) : (e.add y).cdf.isSome = e.cdf.isSome := by
  cases e <;> simp [FExt.add, FExt.cdf]

/-- Parity of the two formulas. -/
theorem bsmPut_eq (s0 k r sigma t q : ℝ) :
    bsmPut s0 k r sigma t q =
      (bsmCall s0 k r sigma t q).map fun c => c - (s0 * Real.exp (-q * t) - k * Real.exp (-r * t)) := by
  unfold bsmPut bsmCall
  rw [FExt.neg_cdf, FExt.neg_cdf]
  cases (bsmD1 s0 k r sigma t q).cdf with
  | none => rfl
  | some a =>
    cases (bsmD2 s0 k r sigma t q).cdf with
    | none => rfl
    | some b =>
      simp only [Option.map_some, Option.bind_eq_bind, Option.bind_some, Option.pure_def,
        Option.some.injEq]
      ring

end FinML.Options
