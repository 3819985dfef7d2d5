import Verif.Breaks.RecursiveModel
import Mathlib.LinearAlgebra.Matrix.ToLinearEquiv
import Mathlib.Tactic.FinCases
import Mathlib.Tactic.FieldSimp
import Mathlib.Tactic.LinearCombination

/-! # Properties C269-C271: recursive residuals -/

namespace FinML.Breaks

open Matrix FinML.Options

variable {k : ℕ}

/-! ## Sums over observations -/

/-- The sum of squared errors of the line with coefficients `b`. -/
noncomputable def ssr (d : List (Obs k)) (b : Fin k → ℝ) : ℝ := (d.map fun r : Obs k => (r.2 - r.1 ⬝ᵥ b) ^ 2).sum

@[simp] theorem gram_nil : gram ([] : List (Obs k)) = 0 := rfl
@[simp] theorem gram_cons (r : Obs k) (d : List (Obs k)) : gram (r :: d) = vecMulVec r.1 r.1 + gram d := by simp [gram]
@[simp] theorem moment_cons (r : Obs k) (d : List (Obs k)) : moment (r :: d) = r.2 • r.1 + moment d := by simp [moment]
@[simp] theorem moment_nil : moment ([] : List (Obs k)) = 0 := rfl

theorem gram_append (d e : List (Obs k)) : gram (d ++ e) = gram d + gram e := by simp [gram]
theorem moment_append (d e : List (Obs k)) : moment (d ++ e) = moment d + moment e := by simp [moment]

theorem gram_mulVec (d : List (Obs k)) (v : Fin k → ℝ) : gram d *ᵥ v = (d.map fun r : Obs k => (r.1 ⬝ᵥ v) • r.1).sum := by
  induction d with
  | nil => simp
  | cons r d ih =>
    rw [gram_cons, Matrix.add_mulVec, ih, List.map_cons, List.sum_cons]
    congr 1
    rw [vecMulVec_mulVec]
    ext i; simp [mul_comm]

theorem quad_eq (d : List (Obs k)) (u v : Fin k → ℝ) :
    u ⬝ᵥ (gram d *ᵥ v) = (d.map fun r : Obs k => (r.1 ⬝ᵥ u) * (r.1 ⬝ᵥ v)).sum := by
  induction d with
  | nil => simp
  | cons r d ih =>
    rw [gram_cons, Matrix.add_mulVec, dotProduct_add, ih, List.map_cons, List.sum_cons]
    congr 1
    rw [vecMulVec_mulVec]
    simp [dotProduct_comm u, mul_comm]

theorem moment_dot (d : List (Obs k)) (u : Fin k → ℝ) :
    u ⬝ᵥ moment d = (d.map fun r : Obs k => r.2 * (r.1 ⬝ᵥ u)).sum := by
  induction d with
  | nil => simp
  | cons r d ih =>
    rw [moment_cons, dotProduct_add, ih, List.map_cons, List.sum_cons, dotProduct_smul, smul_eq_mul, dotProduct_comm u]

theorem quad_nonneg (d : List (Obs k)) (u : Fin k → ℝ) : 0 ≤ u ⬝ᵥ (gram d *ᵥ u) := by
  rw [quad_eq]
  refine List.sum_nonneg ?_
  intro x hx
  obtain ⟨r, -, rfl⟩ := List.mem_map.1 hx
  exact mul_self_nonneg _

theorem zero_of_quad {d : List (Obs k)} {u : Fin k → ℝ} (h : u ⬝ᵥ (gram d *ᵥ u) = 0) : ∀ r ∈ d, r.1 ⬝ᵥ u = 0 := by
  induction d with
  | nil => simp
  | cons r d ih =>
    rw [quad_eq, List.map_cons, List.sum_cons, ← quad_eq] at h
    have h1 := mul_self_nonneg (r.1 ⬝ᵥ u)
    have h2 := quad_nonneg d u
    intro s hs
    rcases List.mem_cons.1 hs with rfl | hs
    · exact mul_self_eq_zero.1 (by linarith)
    · exact ih (by linarith) s hs

theorem det_iff (d : List (Obs k)) : (gram d).det ≠ 0 ↔ ∀ u : Fin k → ℝ, (∀ r ∈ d, r.1 ⬝ᵥ u = 0) → u = 0 := by
  rw [ne_eq, ← Matrix.exists_mulVec_eq_zero_iff]
  constructor
  · intro h u hu
    by_contra hne
    refine h ⟨u, hne, ?_⟩
    rw [gram_mulVec]
    have : (d.map fun r : Obs k => (r.1 ⬝ᵥ u) • r.1) = d.map fun _ => (0 : Fin k → ℝ) :=
      List.map_congr_left fun r hr => by rw [hu r hr, zero_smul]
    rw [this]
    simp
  · rintro h ⟨u, hne, hu⟩
    exact hne (h u (zero_of_quad (by rw [hu, dotProduct_zero])))

theorem det_append {d e : List (Obs k)} (h : (gram d).det ≠ 0) : (gram (d ++ e)).det ≠ 0 := by
  rw [det_iff] at h ⊢
  exact fun u hu => h u fun r hr => hu r (by simp [hr])

theorem inv_mulVec_mulVec {d : List (Obs k)} (h : (gram d).det ≠ 0) (v : Fin k → ℝ) :
    gram d *ᵥ ((gram d)⁻¹ *ᵥ v) = v := by
  rw [mulVec_mulVec, mul_nonsing_inv _ (isUnit_iff_ne_zero.2 h), one_mulVec]

theorem mulVec_inv_mulVec {d : List (Obs k)} (h : (gram d).det ≠ 0) (v : Fin k → ℝ) :
    (gram d)⁻¹ *ᵥ (gram d *ᵥ v) = v := by
  rw [mulVec_mulVec, nonsing_inv_mul _ (isUnit_iff_ne_zero.2 h), one_mulVec]

theorem ols_unique {d : List (Obs k)} (h : (gram d).det ≠ 0) {b : Fin k → ℝ} (hb : gram d *ᵥ b = moment d) : ols d = b := by
  unfold ols; rw [← hb, mulVec_inv_mulVec h]

theorem ols_normal {d : List (Obs k)} (h : (gram d).det ≠ 0) : gram d *ᵥ ols d = moment d := inv_mulVec_mulVec h _

theorem ssr_add (d : List (Obs k)) (b u : Fin k → ℝ) :
    ssr d (b + u) = ssr d b - 2 * (u ⬝ᵥ (moment d - gram d *ᵥ b)) + u ⬝ᵥ (gram d *ᵥ u) := by
  rw [dotProduct_sub, moment_dot, quad_eq, quad_eq]
  unfold ssr
  induction d with
  | nil => simp
  | cons r d ih =>
    simp only [List.map_cons, List.sum_cons]
    rw [ih, dotProduct_add]
    ring

theorem ssr_solved {d : List (Obs k)} {b : Fin k → ℝ} (hb : gram d *ᵥ b = moment d) (u : Fin k → ℝ) :
    ssr d (b + u) = ssr d b + u ⬝ᵥ (gram d *ᵥ u) := by
  rw [ssr_add, hb, sub_self, dotProduct_zero]; ring

/-- The leverage of an observation. -/
noncomputable def lev (d : List (Obs k)) (r : Obs k) : ℝ := r.1 ⬝ᵥ ((gram d)⁻¹ *ᵥ r.1)

theorem lev_nonneg {d : List (Obs k)} (h : (gram d).det ≠ 0) (r : Obs k) : 0 ≤ lev d r := by
  have := quad_nonneg d ((gram d)⁻¹ *ᵥ r.1)
  rw [inv_mulVec_mulVec h, dotProduct_comm] at this
  exact this

/-- One step: the squared errors of the fit grow by the squared recursive residual. -/
theorem ssr_step {d : List (Obs k)} (h : (gram d).det ≠ 0) (r : Obs k) :
    ssr (d ++ [r]) (ols (d ++ [r])) = ssr d (ols d) + recResid d r ^ 2 := by
  set q := (gram d)⁻¹ *ᵥ r.1 with hq
  set e := r.2 - r.1 ⬝ᵥ ols d with he
  have hl : 0 ≤ r.1 ⬝ᵥ q := lev_nonneg h r
  set l := r.1 ⬝ᵥ q with hldef
  have hl1 : (1 + l) ≠ 0 := by positivity
  have hb : ols (d ++ [r]) = ols d + (e / (1 + l)) • q := by
    refine ols_unique (det_append h) ?_
    have hs : gram [r] *ᵥ (ols d + (e / (1 + l)) • q) = (r.1 ⬝ᵥ ols d + (e / (1 + l)) * l) • r.1 := by
      rw [gram_mulVec]
      simp only [List.map_cons, List.map_nil, List.sum_cons, List.sum_nil, add_zero, dotProduct_add, dotProduct_smul, smul_eq_mul,
        ← hldef]
    rw [gram_append, moment_append, Matrix.add_mulVec, hs, mulVec_add, mulVec_smul, hq, inv_mulVec_mulVec h, ols_normal h,
      add_assoc, ← add_smul]
    have hm : moment [r] = r.2 • r.1 := by simp [moment]
    rw [hm]
    congr 2
    rw [he]
    field_simp
    ring
  have happ : ssr (d ++ [r]) (ols (d ++ [r])) = ssr d (ols (d ++ [r])) + (r.2 - r.1 ⬝ᵥ ols (d ++ [r])) ^ 2 := by
    simp [ssr]
  have hw : recResid d r ^ 2 = e ^ 2 / (1 + l) := by
    unfold recResid
    rw [div_pow, Real.sq_sqrt (by positivity)]
  rw [happ, hb, ssr_solved (ols_normal h), hw, mulVec_smul, dotProduct_smul, smul_dotProduct, dotProduct_add, dotProduct_smul,
    show gram d *ᵥ q = r.1 from inv_mulVec_mulVec h _, dotProduct_comm q]
  simp only [smul_eq_mul]
  rw [show r.2 - (r.1 ⬝ᵥ ols d + e / (1 + l) * (r.1 ⬝ᵥ q)) = e - e / (1 + l) * l by rw [he, hldef]; ring]
  rw [← hldef]
  field_simp
  ring

theorem ssr_steps {d : List (Obs k)} (h : (gram d).det ≠ 0) (e : List (Obs k)) :
    ssr (d ++ e) (ols (d ++ e)) = ssr d (ols d) + ((recResids d e).map fun w => w ^ 2).sum := by
  induction e generalizing d with
  | nil => simp [recResids]
  | cons r e ih =>
    have := ih (d := d ++ [r]) (det_append h)
    rw [List.append_assoc, List.singleton_append] at this
    rw [this, ssr_step h r]
    simp only [recResids, List.map_cons, List.sum_cons]
    ring

theorem ssr_min {d : List (Obs k)} (h : (gram d).det ≠ 0) (b : Fin k → ℝ) : ssr d (ols d) ≤ ssr d b := by
  have := ssr_solved (ols_normal h) (b - ols d)
  rw [add_sub_cancel] at this
  rw [this]
  linarith [quad_nonneg d (b - ols d)]

/-- As many observations as variables are fitted exactly. -/
theorem ssr_start {d : List (Obs k)} (hlen : d.length = k) (h : (gram d).det ≠ 0) : ssr d (ols d) = 0 := by
  have hnn : 0 ≤ ssr d (ols d) := by
    refine List.sum_nonneg ?_
    intro x hx
    obtain ⟨r, -, rfl⟩ := List.mem_map.1 hx
    exact sq_nonneg _
  let M : Matrix (Fin k) (Fin k) ℝ := fun i => (d[i]'(by rw [hlen]; exact i.2)).1
  have hM : M.det ≠ 0 := by
    rw [ne_eq, ← Matrix.exists_mulVec_eq_zero_iff]
    rintro ⟨u, hne, hu⟩
    refine hne ((det_iff d).1 h u fun r hr => ?_)
    obtain ⟨i, hi, rfl⟩ := List.mem_iff_getElem.1 hr
    exact congrFun hu ⟨i, by omega⟩
  let b := M⁻¹ *ᵥ fun i : Fin k => (d[i]'(by rw [hlen]; exact i.2)).2
  have hb : M *ᵥ b = fun i : Fin k => (d[i]'(by rw [hlen]; exact i.2)).2 := by
    rw [mulVec_mulVec, mul_nonsing_inv _ (isUnit_iff_ne_zero.2 hM), one_mulVec]
  have h0 : ssr d b = 0 := by
    refine List.sum_eq_zero ?_
    intro x hx
    obtain ⟨r, hr, rfl⟩ := List.mem_map.1 hx
    obtain ⟨i, hi, rfl⟩ := List.mem_iff_getElem.1 hr
    have := congrFun hb ⟨i, by omega⟩
    have e : d[i].1 ⬝ᵥ b = d[i].2 := this
    rw [e]; ring
  have := ssr_min h b
  linarith

/-! ## C269: what the residuals are -/

/-- C269.  The squared recursive residuals add up to the sum of squared errors of the least-squares fit to all
observations, the least possible for any coefficients. -/
theorem C269_squares (X : List (Fin k → ℝ)) (y : List ℝ) (hk : k ≤ (X.zip y).length)
    (h : (gram ((X.zip y).take k)).det ≠ 0) :
    ((recResids ((X.zip y).take k) ((X.zip y).drop k)).map fun w => w ^ 2).sum = ssr (X.zip y) (ols (X.zip y)) ∧
    ∀ b : Fin k → ℝ, ssr (X.zip y) (ols (X.zip y)) ≤ ssr (X.zip y) b := by
  have h1 := ssr_steps h ((X.zip y).drop k)
  rw [List.take_append_drop, ssr_start (by simp at hk ⊢; omega) h, zero_add] at h1
  refine ⟨h1.symm, fun b => ssr_min ?_ b⟩
  have := det_append (e := (X.zip y).drop k) h
  rwa [List.take_append_drop] at this

theorem recResids_length (d e : List (Obs k)) : (recResids d e).length = e.length := by
  induction e generalizing d with
  | nil => rfl
  | cons r e ih => simp [recResids, ih]

/-- C269.  There is one statistic for each observation after the first `k`. -/
theorem C269_number (X : List (Fin k → ℝ)) (y : List ℝ) (out : List FExt) (h : recursiveCusum X y = .ok out) :
    X.length = y.length ∧ out.length = y.length - k := by
  unfold recursiveCusum at h
  split_ifs at h with h1 h2
  cases h
  push Not at h1
  refine ⟨h1, ?_⟩
  simp [cusumOf, npCumsum, recResids_length, h1]

/-! ## C270: units and trends -/

/-- A value with the opposite sign. -/
noncomputable def flip : FExt → FExt
  | .fin x => .fin (-x)
  | .posInf => .negInf
  | .negInf => .posInf
  | .nan => .nan

/-- An observation with the dependent value scaled and a combination of the variables added. -/
noncomputable def rescale (c : ℝ) (β : Fin k → ℝ) (r : Obs k) : Obs k := (r.1, c * r.2 + r.1 ⬝ᵥ β)

theorem gram_rescale (c : ℝ) (β : Fin k → ℝ) (d : List (Obs k)) : gram (d.map (rescale c β)) = gram d := by
  induction d with
  | nil => rfl
  | cons r d ih => rw [List.map_cons, gram_cons, gram_cons, ih]; rfl

theorem moment_rescale (c : ℝ) (β : Fin k → ℝ) (d : List (Obs k)) :
    moment (d.map (rescale c β)) = c • moment d + gram d *ᵥ β := by
  induction d with
  | nil => simp
  | cons r d ih =>
    rw [List.map_cons, moment_cons, ih, moment_cons, gram_cons, Matrix.add_mulVec, vecMulVec_mulVec]
    ext i
    simp only [rescale, Pi.add_apply, Pi.smul_apply, smul_eq_mul, MulOpposite.smul_eq_mul_unop, MulOpposite.unop_op]
    ring

theorem recResid_rescale {d : List (Obs k)} (h : (gram d).det ≠ 0) (c : ℝ) (β : Fin k → ℝ) (r : Obs k) :
    recResid (d.map (rescale c β)) (rescale c β r) = c * recResid d r := by
  have hb : ols (d.map (rescale c β)) = c • ols d + β := by
    refine ols_unique (by rwa [gram_rescale]) ?_
    rw [gram_rescale, moment_rescale, mulVec_add, mulVec_smul, ols_normal h]
  unfold recResid
  rw [hb, gram_rescale]
  simp only [rescale, dotProduct_add, dotProduct_smul, smul_eq_mul]
  ring

theorem recResids_rescale {d : List (Obs k)} (h : (gram d).det ≠ 0) (c : ℝ) (β : Fin k → ℝ) (e : List (Obs k)) :
    recResids (d.map (rescale c β)) (e.map (rescale c β)) = (recResids d e).map (c * ·) := by
  induction e generalizing d with
  | nil => rfl
  | cons r e ih =>
    have := ih (d := d ++ [r]) (det_append h)
    rw [List.map_append] at this
    simp only [List.map_cons, recResids, recResid_rescale h]
    rw [← this]
    rfl

theorem sum_mul_left (c : ℝ) (w : List ℝ) : (w.map (c * ·)).sum = c * w.sum := by
  induction w with
  | nil => simp
  | cons a w ih => simp only [List.map_cons, List.sum_cons, ih]; ring

theorem sampleStd_scale (c : ℝ) (w : List ℝ) : sampleStd (w.map (c * ·)) = (sampleStd w).map (|c| * ·) := by
  unfold sampleStd
  rw [List.length_map]
  by_cases h : w.length < 2
  · rw [if_pos h, if_pos h]; rfl
  · rw [if_neg h, if_neg h, Option.map_some]
    generalize hm : (w.map (c * ·)).sum = m
    rw [sum_mul_left] at hm
    subst hm
    congr 1
    rw [← Real.sqrt_sq_eq_abs, ← Real.sqrt_mul (sq_nonneg c), ← mul_div_assoc]
    congr 2
    rw [← sum_mul_left (c ^ 2), List.map_map, List.map_map]
    congr 1
    refine List.map_congr_left fun x _ => ?_
    simp only [Function.comp, mul_div_assoc]
    ring

theorem div_scale {c : ℝ} (hc : c ≠ 0) (s v : ℝ) :
    FExt.div (.fin (c * s)) (|c| * v) = (if c < 0 then flip else id) (FExt.div (.fin s) v) := by
  have ha : |c| ≠ 0 := abs_ne_zero.2 hc
  simp only [FExt.div]
  by_cases hv : v = 0
  · subst hv
    simp only [mul_zero, if_true]
    rcases lt_or_gt_of_ne hc with hneg | hpos
    · rw [if_pos hneg]
      rcases lt_trichotomy s 0 with hs | hs | hs
      · rw [if_pos (mul_pos_of_neg_of_neg hneg hs), if_neg (not_lt.2 hs.le), if_pos hs]; rfl
      · subst hs; simp [flip]
      · have := mul_neg_of_neg_of_pos hneg hs
        rw [if_neg (not_lt.2 this.le), if_pos this, if_pos hs]; rfl
    · rw [if_neg (not_lt.2 hpos.le)]
      rcases lt_trichotomy s 0 with hs | hs | hs
      · have := mul_neg_of_pos_of_neg hpos hs
        rw [if_neg (not_lt.2 this.le), if_pos this, if_neg (not_lt.2 hs.le), if_pos hs]; rfl
      · subst hs; simp
      · rw [if_pos (mul_pos hpos hs), if_pos hs]; rfl
  · rw [if_neg (mul_ne_zero ha hv), if_neg hv]
    rcases lt_or_gt_of_ne hc with hneg | hpos
    · rw [if_pos hneg, abs_of_neg hneg]
      simp only [flip, FExt.fin.injEq]
      field_simp
    · rw [if_neg (not_lt.2 hpos.le), abs_of_pos hpos]
      simp only [id, FExt.fin.injEq]
      field_simp

theorem cusumOf_scale {c : ℝ} (hc : c ≠ 0) (w : List ℝ) :
    cusumOf (w.map (c * ·)) = (cusumOf w).map (if c < 0 then flip else id) := by
  unfold cusumOf npCumsum
  rw [sampleStd_scale, List.length_map]
  simp only [List.map_map]
  refine List.map_congr_left fun i _ => ?_
  simp only [Function.comp]
  rw [← List.map_take, sum_mul_left]
  cases sampleStd w with
  | none => by_cases h : c < 0 <;> simp [h, flip]
  | some v => exact div_scale hc _ v

theorem zip_rescale (c : ℝ) (β : Fin k → ℝ) (X : List (Fin k → ℝ)) (y : List ℝ) :
    X.zip (List.zipWith (fun (x : Fin k → ℝ) (v : ℝ) => c * v + x ⬝ᵥ β) X y) = (X.zip y).map (rescale c β) := by
  induction X generalizing y with
  | nil => rfl
  | cons x X ih =>
    cases y with
    | nil => rfl
    | cons v y => simp [ih, rescale]

/-- C270.  Measuring `y` in other units and adding any combination of the variables changes no statistic, except that
turning `y` over turns the statistics over. -/
theorem C270_units {c : ℝ} (hc : c ≠ 0) (β : Fin k → ℝ) (X : List (Fin k → ℝ)) (y : List ℝ) (hlen : X.length = y.length) :
    recursiveCusum X (List.zipWith (fun (x : Fin k → ℝ) (v : ℝ) => c * v + x ⬝ᵥ β) X y) =
      (recursiveCusum X y).map fun out => out.map (if c < 0 then flip else id) := by
  unfold recursiveCusum
  rw [if_neg (not_not.2 (by simp [hlen])), if_neg (not_not.2 hlen), zip_rescale, ← List.map_take, ← List.map_drop, gram_rescale]
  by_cases h : (gram ((X.zip y).take k)).det = 0
  · rw [if_pos h, if_pos h]; rfl
  · rw [if_neg h, if_neg h, recResids_rescale h, cusumOf_scale hc]; rfl

/-- C270.  Data that a line fits exactly have no statistic: every one is NaN. -/
theorem C270_exact (β : Fin k → ℝ) (X : List (Fin k → ℝ)) (out : List FExt)
    (h : recursiveCusum X (X.map fun x => x ⬝ᵥ β) = .ok out) : ∀ s ∈ out, s = .nan := by
  have hz : X.zip (X.map fun x => x ⬝ᵥ β) = (X.zip (X.map fun _ => (0 : ℝ))).map (rescale 0 β) := by
    rw [← zip_rescale]
    congr 1
    clear h
    induction X with
    | nil => rfl
    | cons x X ih => rw [List.map_cons, List.map_cons, List.zipWith_cons_cons, ← ih, zero_mul, zero_add]
  unfold recursiveCusum at h
  rw [if_neg (by simp), hz, ← List.map_take, ← List.map_drop, gram_rescale] at h
  split_ifs at h with h1
  cases h
  rw [recResids_rescale h1]
  generalize recResids _ _ = w
  intro s hs
  unfold cusumOf npCumsum at hs
  rw [sampleStd_scale] at hs
  simp only [List.map_map, List.mem_map] at hs
  obtain ⟨i, -, rfl⟩ := hs
  simp only [Function.comp]
  rw [← List.map_take, sum_mul_left]
  cases sampleStd w <;> simp [FExt.div]

/-- An observation in other variables: the row times an invertible matrix. -/
noncomputable def rebase (A : Matrix (Fin k) (Fin k) ℝ) (r : Obs k) : Obs k := (r.1 ᵥ* A, r.2)

theorem gram_rebase (A : Matrix (Fin k) (Fin k) ℝ) (d : List (Obs k)) (v : Fin k → ℝ) :
    gram (d.map (rebase A)) *ᵥ v = (gram d *ᵥ (A *ᵥ v)) ᵥ* A := by
  rw [gram_mulVec, gram_mulVec, List.map_map]
  induction d with
  | nil => simp
  | cons r d ih =>
    simp only [List.map_cons, List.sum_cons, ih, add_vecMul, Function.comp, rebase]
    rw [smul_vecMul, ← dotProduct_mulVec]

theorem moment_rebase (A : Matrix (Fin k) (Fin k) ℝ) (d : List (Obs k)) :
    moment (d.map (rebase A)) = moment d ᵥ* A := by
  induction d with
  | nil => simp
  | cons r d ih => rw [List.map_cons, moment_cons, ih, moment_cons, add_vecMul, smul_vecMul]; rfl

theorem det_rebase {A : Matrix (Fin k) (Fin k) ℝ} (hA : A.det ≠ 0) (d : List (Obs k)) :
    (gram (d.map (rebase A))).det = 0 ↔ (gram d).det = 0 := by
  rw [← not_iff_not, ← ne_eq, ← ne_eq, det_iff, det_iff]
  have hu : IsUnit A.det := isUnit_iff_ne_zero.2 hA
  constructor
  · intro h u hd
    have := h (A⁻¹ *ᵥ u) fun r hr => by
      obtain ⟨s, hs, rfl⟩ := List.mem_map.1 hr
      show (s.1 ᵥ* A) ⬝ᵥ (A⁻¹ *ᵥ u) = 0
      rw [← dotProduct_mulVec, mulVec_mulVec, mul_nonsing_inv _ hu, one_mulVec, hd s hs]
    have h2 : A *ᵥ (A⁻¹ *ᵥ u) = u := by rw [mulVec_mulVec, mul_nonsing_inv _ hu, one_mulVec]
    rw [← h2, this, mulVec_zero]
  · intro h u hd
    have := h (A *ᵥ u) fun r hr => by
      rw [dotProduct_mulVec]
      exact hd (rebase A r) (List.mem_map_of_mem hr)
    have h2 : A⁻¹ *ᵥ (A *ᵥ u) = u := by rw [mulVec_mulVec, nonsing_inv_mul _ hu, one_mulVec]
    rw [← h2, this, mulVec_zero]

theorem recResid_rebase {A : Matrix (Fin k) (Fin k) ℝ} (hA : A.det ≠ 0) {d : List (Obs k)} (h : (gram d).det ≠ 0)
    (r : Obs k) : recResid (d.map (rebase A)) (rebase A r) = recResid d r := by
  have hu : IsUnit A.det := isUnit_iff_ne_zero.2 hA
  have h' : (gram (d.map (rebase A))).det ≠ 0 := fun h0 => h ((det_rebase hA d).1 h0)
  have hAA : ∀ v : Fin k → ℝ, A *ᵥ (A⁻¹ *ᵥ v) = v := fun v => by
    rw [mulVec_mulVec, mul_nonsing_inv _ hu, one_mulVec]
  have hb : ols (d.map (rebase A)) = A⁻¹ *ᵥ ols d := by
    refine ols_unique h' ?_
    rw [gram_rebase, hAA, ols_normal h, moment_rebase]
  have hq : (gram (d.map (rebase A)))⁻¹ *ᵥ (r.1 ᵥ* A) = A⁻¹ *ᵥ ((gram d)⁻¹ *ᵥ r.1) := by
    have : gram (d.map (rebase A)) *ᵥ (A⁻¹ *ᵥ ((gram d)⁻¹ *ᵥ r.1)) = r.1 ᵥ* A := by
      rw [gram_rebase, hAA, inv_mulVec_mulVec h]
    rw [← this, mulVec_inv_mulVec h']
  unfold recResid
  rw [hb]
  show (r.2 - (r.1 ᵥ* A) ⬝ᵥ _) / √(1 + (r.1 ᵥ* A) ⬝ᵥ ((gram (d.map (rebase A)))⁻¹ *ᵥ (r.1 ᵥ* A))) = _
  rw [hq, ← dotProduct_mulVec, ← dotProduct_mulVec, hAA, hAA]

theorem recResids_rebase {A : Matrix (Fin k) (Fin k) ℝ} (hA : A.det ≠ 0) {d : List (Obs k)} (h : (gram d).det ≠ 0)
    (e : List (Obs k)) : recResids (d.map (rebase A)) (e.map (rebase A)) = recResids d e := by
  induction e generalizing d with
  | nil => rfl
  | cons r e ih =>
    have := ih (d := d ++ [r]) (det_append h)
    rw [List.map_append] at this
    simp only [List.map_cons, recResids, recResid_rebase hA h]
    rw [← this]
    rfl

theorem zip_rebase (A : Matrix (Fin k) (Fin k) ℝ) (X : List (Fin k → ℝ)) (y : List ℝ) :
    (X.map fun x => x ᵥ* A).zip y = (X.zip y).map (rebase A) := by
  induction X generalizing y with
  | nil => rfl
  | cons x X ih =>
    cases y with
    | nil => rfl
    | cons v y => simp [ih, rebase]

/-- C270.  Replacing the variables by any invertible combination of them changes nothing. -/
theorem C270_variables {A : Matrix (Fin k) (Fin k) ℝ} (hA : A.det ≠ 0) (X : List (Fin k → ℝ)) (y : List ℝ) :
    recursiveCusum (X.map fun x => x ᵥ* A) y = recursiveCusum X y := by
  unfold recursiveCusum
  rw [List.length_map, zip_rebase, ← List.map_take, ← List.map_drop]
  by_cases hl : X.length ≠ y.length
  · rw [if_pos hl, if_pos hl]
  · rw [if_neg hl, if_neg hl]
    by_cases h : (gram ((X.zip y).take k)).det = 0
    · rw [if_pos h, if_pos ((det_rebase hA _).2 h)]
    · rw [if_neg h, if_neg fun h0 => h ((det_rebase hA _).1 h0), recResids_rebase hA h]

/-! ## C271: no later observation -/

/-- The full claim: the statistics of the first observations are the first statistics of them all. -/
def NoLook : Prop :=
  ∀ (k : ℕ) (X X' : List (Fin k → ℝ)) (y y' : List ℝ) (out out' : List FExt), X.length = y.length →
    recursiveCusum X y = .ok out → recursiveCusum (X ++ X') (y ++ y') = .ok out' → out <+: out'

theorem recResids_append (d e f : List (Obs k)) : recResids d (e ++ f) = recResids d e ++ recResids (d ++ e) f := by
  induction e generalizing d with
  | nil => simp [recResids]
  | cons r e ih => simp [recResids, ih]

/-- C271.  Before dividing by the standard deviation, the residuals of the first observations are the first residuals
of them all. -/
theorem residuals_prefix (d e : List (Obs k)) (hk : k ≤ d.length) :
    recResids ((d ++ e).take k) ((d ++ e).drop k) = recResids (d.take k) (d.drop k) ++ recResids d e := by
  rw [List.take_append_of_le_length hk, List.drop_append_of_le_length hk, recResids_append, List.take_append_drop]

/-- C271, partial: later observations multiply all earlier statistics by one positive number: signs and ratios stay.
Missing from the full claim: the number is one only if the standard deviations agree. -/
theorem C271_later_partial (X X' : List (Fin k → ℝ)) (y y' : List ℝ) (hlen : X.length = y.length) (hk : k ≤ y.length)
    (u v : ℝ) (hu : 0 < u) (hv : 0 < v)
    (h1 : sampleStd (recResids ((X.zip y).take k) ((X.zip y).drop k)) = some u)
    (h2 : sampleStd (recResids (((X ++ X').zip (y ++ y')).take k) (((X ++ X').zip (y ++ y')).drop k)) = some v)
    (out out' : List FExt) (ho : recursiveCusum X y = .ok out) (ho' : recursiveCusum (X ++ X') (y ++ y') = .ok out') :
    (∀ s ∈ out, ∃ x : ℝ, s = .fin x) ∧
    ∀ (i : ℕ) (s : ℝ), out[i]? = some (.fin s) → out'[i]? = some (.fin (u / v * s)) := by
  unfold recursiveCusum at ho ho'
  split_ifs at ho ho'
  cases ho
  cases ho'
  have hz : (X ++ X').zip (y ++ y') = X.zip y ++ X'.zip y' := List.zip_append hlen
  unfold cusumOf npCumsum
  rw [h1, h2, hz, residuals_prefix _ _ (by simp [hlen, hk])]
  generalize recResids ((X.zip y).take k) ((X.zip y).drop k) = w
  generalize recResids (X.zip y) (X'.zip y') = w'
  refine ⟨?_, ?_⟩
  · intro s hs
    simp only [List.map_map, List.mem_map] at hs
    obtain ⟨i, -, rfl⟩ := hs
    simp [FExt.div, hu.ne']
  · intro i s hs
    simp only [List.map_map, List.getElem?_map, Option.map_eq_some_iff, Function.comp, Option.elim_some] at hs
    obtain ⟨j, hj, hs⟩ := hs
    obtain ⟨hi, rfl⟩ := List.getElem?_eq_some_iff.1 hj
    rw [List.getElem_range] at hs
    rw [List.length_range] at hi
    simp only [List.map_map, List.getElem?_map, Option.elim_some]
    rw [List.getElem?_range (by simp; omega), Option.map_some]
    show some (FExt.div (.fin ((w ++ w').take (i + 1)).sum) v) = _
    rw [List.take_append_of_le_length (by omega)]
    simp only [FExt.div, hu.ne', hv.ne', if_false, FExt.fin.injEq] at hs ⊢
    rw [← hs]
    congr 2
    field_simp

/-- With a constant as the only variable the recursive residual compares a value with the mean of those before it. -/
theorem recResid_constant (L : List ℝ) (hL : L ≠ []) (a : ℝ) :
    recResid (L.map fun v => ((![1] : Fin 1 → ℝ), v)) (![1], a) =
      (a - L.sum / (L.length : ℝ)) / √(1 + 1 / (L.length : ℝ)) := by
  have hn : (L.length : ℝ) ≠ 0 := Nat.cast_ne_zero.2 (by simpa using hL)
  have hg : ∀ v : Fin 1 → ℝ, gram (L.map fun v => ((![1] : Fin 1 → ℝ), v)) *ᵥ v = (L.length : ℝ) • v := by
    intro v
    clear hL hn
    induction L with
    | nil => simp
    | cons x L ih =>
      rw [List.map_cons, gram_cons, Matrix.add_mulVec, ih, vecMulVec_mulVec]
      ext i
      fin_cases i
      simp [dotProduct]
      ring
  have hm : moment (L.map fun v => ((![1] : Fin 1 → ℝ), v)) = ![L.sum] := by
    clear hL hn hg
    induction L with
    | nil => ext i; fin_cases i; simp
    | cons x L ih =>
      rw [List.map_cons, moment_cons, ih]
      ext i; fin_cases i; simp
  have hd : (gram (L.map fun v => ((![1] : Fin 1 → ℝ), v))).det ≠ 0 := by
    rw [ne_eq, ← Matrix.exists_mulVec_eq_zero_iff]
    rintro ⟨u, hne, hu⟩
    rw [hg] at hu
    exact hne ((smul_eq_zero.1 hu).resolve_left hn)
  have ho : ols (L.map fun v => ((![1] : Fin 1 → ℝ), v)) = ![L.sum / (L.length : ℝ)] := by
    refine ols_unique hd ?_
    rw [hg, hm]
    ext i; fin_cases i; simp
    field_simp
  have hq : (gram (L.map fun v => ((![1] : Fin 1 → ℝ), v)))⁻¹ *ᵥ ![1] = ![1 / (L.length : ℝ)] := by
    have : gram (L.map fun v => ((![1] : Fin 1 → ℝ), v)) *ᵥ ![1 / (L.length : ℝ)] = ![1] := by
      rw [hg]; ext i; fin_cases i; simp [hn]
    have h2 := mulVec_inv_mulVec hd ![1 / (L.length : ℝ)]
    rwa [this] at h2
  unfold recResid
  simp only [ho, hq]
  simp [dotProduct]

theorem det_constant (a : ℝ) : (gram [((![1] : Fin 1 → ℝ), a)]).det ≠ 0 := by
  simp [gram, det_unique]

theorem step_two : recResid [((![1] : Fin 1 → ℝ), (0 : ℝ))] (![1], 0) = 0 := by
  rw [show [((![1] : Fin 1 → ℝ), (0 : ℝ))] = [0].map fun v => ((![1] : Fin 1 → ℝ), v) from rfl,
    recResid_constant _ (by simp)]
  norm_num

theorem step_three : recResid [((![1] : Fin 1 → ℝ), (0 : ℝ)), (![1], 0)] (![1], √(3 / 2)) = 1 := by
  rw [show [((![1] : Fin 1 → ℝ), (0 : ℝ)), (![1], 0)] = [0, 0].map fun v => ((![1] : Fin 1 → ℝ), v) from rfl,
    recResid_constant _ (by simp)]
  have e : (1 : ℝ) + 1 / (([0, 0] : List ℝ).length : ℝ) = 3 / 2 := by norm_num
  have p : √(3 / 2 : ℝ) ≠ 0 := by positivity
  rw [e, List.sum_cons, List.sum_cons, List.sum_nil, add_zero, add_zero, zero_div, sub_zero, div_self p]

theorem step_four : recResid [((![1] : Fin 1 → ℝ), (0 : ℝ)), (![1], 0), (![1], √(3 / 2))] (![1], √(3 / 2) / 3) = 0 := by
  rw [show [((![1] : Fin 1 → ℝ), (0 : ℝ)), (![1], 0), (![1], √(3 / 2))]
      = [0, 0, √(3 / 2)].map fun v => ((![1] : Fin 1 → ℝ), v) from rfl, recResid_constant _ (by simp)]
  simp

/-- Three observations of a constant: the residuals are 0 and 1. -/
theorem resids_three : recResids ((([![1], ![1], ![1]] : List (Fin 1 → ℝ)).zip [0, 0, √(3 / 2)]).take 1)
    ((([![1], ![1], ![1]] : List (Fin 1 → ℝ)).zip [0, 0, √(3 / 2)]).drop 1) = [0, 1] := by
  have w2 := step_three
  generalize √(3 / 2 : ℝ) = q at w2 ⊢
  simp [recResids, step_two, w2]

/-- A fourth observation adds the residual 0. -/
theorem resids_four :
    recResids ((([![1], ![1], ![1]] ++ [![1]] : List (Fin 1 → ℝ)).zip ([0, 0, √(3 / 2)] ++ [√(3 / 2) / 3])).take 1)
      ((([![1], ![1], ![1]] ++ [![1]] : List (Fin 1 → ℝ)).zip ([0, 0, √(3 / 2)] ++ [√(3 / 2) / 3])).drop 1) = [0, 1, 0] := by
  have w2 := step_three
  have w3 := step_four
  generalize √(3 / 2 : ℝ) = q at w2 w3 ⊢
  simp [recResids, step_two, w2, w3]

theorem std_three : sampleStd [0, 1] = some (√(1 / 2)) := by
  unfold sampleStd
  norm_num

theorem std_four : sampleStd [0, 1, 0] = some (√(1 / 3)) := by
  unfold sampleStd
  norm_num

theorem cusum_three : recursiveCusum [![1], ![1], ![1]] [0, 0, √(3 / 2)] = .ok (cusumOf [0, 1]) := by
  unfold recursiveCusum
  rw [if_neg (by simp), resids_three]
  exact if_neg (det_constant 0)

theorem cusum_four : recursiveCusum ([![1], ![1], ![1]] ++ [![1]]) ([0, 0, √(3 / 2)] ++ [√(3 / 2) / 3]) =
    .ok (cusumOf [0, 1, 0]) := by
  unfold recursiveCusum
  rw [if_neg (by simp), resids_four]
  exact if_neg (det_constant 0)

/-- C271, refuted: a fourth observation turns the second statistic from `√2` into `√3`, because the standard deviation
is that of the full sample. -/
theorem C271_later_counterexample : ¬ NoLook := by
  intro h
  have hp := h 1 _ _ _ _ _ _ rfl cusum_three cusum_four
  unfold cusumOf at hp
  rw [std_three, std_four] at hp
  have n2 : √(1 / 2 : ℝ) ≠ 0 := by positivity
  have n3 : √(1 / 3 : ℝ) ≠ 0 := by positivity
  have := List.IsPrefix.getElem hp (i := 1) (by simp [npCumsum])
  simp only [List.getElem_map, npCumsum, Option.elim_some, FExt.div, n2, n3, if_false, FExt.fin.injEq] at this
  simp at this

/-- The hypotheses of C269, C270 and C271 are met by these observations. -/
example : (gram ((([![1], ![1], ![1]] : List (Fin 1 → ℝ)).zip [0, 0, √(3 / 2)]).take 1)).det ≠ 0 := det_constant 0

example : ∀ (i : ℕ) (s : ℝ), (cusumOf [0, 1])[i]? = some (.fin s) →
    (cusumOf [0, 1, 0])[i]? = some (.fin (√(1 / 2) / √(1 / 3) * s)) :=
  (C271_later_partial _ _ _ _ rfl (by simp) _ _ (by positivity) (by positivity) (by rw [resids_three]; exact std_three)
    (by rw [resids_four]; exact std_four) _ _ cusum_three cusum_four).2

end FinML.Breaks
