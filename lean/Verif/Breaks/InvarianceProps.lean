import Verif.Breaks.SadfProps
import Mathlib.LinearAlgebra.Matrix.Block

/-!
# Property C171: the SADF statistic has no units and no level
-/

namespace FinML.Breaks

open Matrix

/-! ## Least squares under a change of regressors -/

variable {m k : ℕ}

theorem fit_transform (y : Fin m → ℝ) (x : Matrix (Fin m) (Fin k) ℝ) (T : Matrix (Fin k) (Fin k) ℝ)
    (g : Fin k → ℝ) (c : ℝ) (hT : T.det ≠ 0) :
    (fitAdf y x = .error .exception ∧ fitAdf (c • y + x *ᵥ g) (x * T) = .error .exception) ∨
    ∃ b sq df inv b' inv', fitAdf y x = .ok (b, sq, df, inv) ∧
      fitAdf (c • y + x *ᵥ g) (x * T) = .ok (b', c ^ 2 * sq, df, inv') ∧
      T *ᵥ b' = c • b + g ∧ T * inv' * Tᵀ = inv := by
  have hxx : (x * T)ᵀ * (x * T) = Tᵀ * (xᵀ * x) * T := by
    rw [Matrix.transpose_mul]
    simp only [Matrix.mul_assoc]
  have hdet : ((x * T)ᵀ * (x * T)).det = T.det ^ 2 * (xᵀ * x).det := by
    rw [hxx, Matrix.det_mul, Matrix.det_mul, Matrix.det_transpose]
    ring
  by_cases h0 : (xᵀ * x).det = 0
  · left
    constructor
    · unfold fitAdf
      simp only
      rw [if_pos h0]
    · unfold fitAdf
      simp only
      rw [if_pos (by rw [hdet, h0, mul_zero])]
  · right
    have h1 : ((x * T)ᵀ * (x * T)).det ≠ 0 := by
      rw [hdet]
      exact mul_ne_zero (pow_ne_zero _ hT) h0
    have hu : IsUnit (xᵀ * x).det := isUnit_iff_ne_zero.2 h0
    have hu' : IsUnit ((x * T)ᵀ * (x * T)).det := isUnit_iff_ne_zero.2 h1
    have huT : IsUnit T.det := isUnit_iff_ne_zero.2 hT
    have hinv : T * ((x * T)ᵀ * (x * T))⁻¹ * Tᵀ = (xᵀ * x)⁻¹ := by
      rw [hxx, Matrix.mul_inv_rev, Matrix.mul_inv_rev, ← Matrix.mul_assoc, Matrix.mul_nonsing_inv _ huT,
        Matrix.one_mul, Matrix.mul_assoc, Matrix.nonsing_inv_mul _ (by rwa [Matrix.det_transpose]),
        Matrix.mul_one]
    have hb : T *ᵥ (((x * T)ᵀ * (x * T))⁻¹ *ᵥ ((x * T)ᵀ *ᵥ (c • y + x *ᵥ g))) =
        c • ((xᵀ * x)⁻¹ *ᵥ (xᵀ *ᵥ y)) + g := by
      have e1 : (x * T)ᵀ *ᵥ (c • y + x *ᵥ g) = Tᵀ *ᵥ (xᵀ *ᵥ (c • y + x *ᵥ g)) := by
        rw [Matrix.transpose_mul, Matrix.mulVec_mulVec]
      rw [e1]
      generalize ((x * T)ᵀ * (x * T))⁻¹ = I at hinv ⊢
      rw [Matrix.mulVec_mulVec, Matrix.mulVec_mulVec, hinv, Matrix.mulVec_add, Matrix.mulVec_add,
        Matrix.mulVec_smul, Matrix.mulVec_smul, Matrix.mulVec_mulVec g xᵀ x,
        Matrix.mulVec_mulVec g _ (xᵀ * x), Matrix.nonsing_inv_mul _ hu, Matrix.one_mulVec]
    have he : (c • y + x *ᵥ g) -
        (x * T) *ᵥ (((x * T)ᵀ * (x * T))⁻¹ *ᵥ ((x * T)ᵀ *ᵥ (c • y + x *ᵥ g))) =
        c • (y - x *ᵥ ((xᵀ * x)⁻¹ *ᵥ (xᵀ *ᵥ y))) := by
      rw [← Matrix.mulVec_mulVec _ x T, hb, Matrix.mulVec_add, Matrix.mulVec_smul, smul_sub]
      abel
    refine ⟨_, (y - x *ᵥ ((xᵀ * x)⁻¹ *ᵥ (xᵀ *ᵥ y))) ⬝ᵥ (y - x *ᵥ ((xᵀ * x)⁻¹ *ᵥ (xᵀ *ᵥ y))),
      (m : ℤ) - k, _, ((x * T)ᵀ * (x * T))⁻¹ *ᵥ ((x * T)ᵀ *ᵥ (c • y + x *ᵥ g)),
      ((x * T)ᵀ * (x * T))⁻¹, ?_, ?_, hb, hinv⟩
    · unfold fitAdf
      simp only
      rw [if_neg h0]
    · unfold fitAdf
      simp only
      rw [if_neg h1, he, smul_dotProduct, dotProduct_smul]
      simp only [smul_eq_mul]
      rw [← mul_assoc, ← pow_two]

/-- The rows as a matrix of `n` rows. -/
def toMatrixN (rows : List (List ℝ)) (n k : ℕ) : Matrix (Fin n) (Fin k) ℝ :=
  Matrix.of fun i j => (rows.getD i []).getD j 0

theorem toMatrix_eq (rows : List (List ℝ)) (k : ℕ) : toMatrix rows k = toMatrixN rows rows.length k := by
  ext i j
  simp only [toMatrix, toMatrixN, Matrix.of_apply]
  rw [List.getD_eq_getElem _ _ i.isLt]
  rfl

/-- A regression on transformed regressors, of which only the first one uses the old first one, has the
same statistic for the first coefficient. -/
theorem adfStat_transform (y y' : List ℝ) (rows rows' : List (List ℝ)) (hk : 0 < k)
    (T : Matrix (Fin k) (Fin k) ℝ) (g : Fin k → ℝ) {c : ℝ} (hc : c ≠ 0) (hT : T.det ≠ 0)
    (hT0 : ∀ l : Fin k, T ⟨0, hk⟩ l = if l = ⟨0, hk⟩ then c else 0) (hg0 : g ⟨0, hk⟩ = 0)
    (hly : y'.length = y.length) (hlr : rows'.length = rows.length)
    (hy : ∀ i, i < rows.length →
      y'.getD i 0 = c * y.getD i 0 + ∑ l : Fin k, (rows.getD i []).getD l 0 * g l)
    (hr : ∀ i, i < rows.length → ∀ l : Fin k,
      (rows'.getD i []).getD l 0 = ∑ j : Fin k, (rows.getD i []).getD j 0 * T j l) :
    adfStat y' rows' k hk = adfStat y rows k hk := by
  unfold adfStat
  rw [hly]
  by_cases h : y.length ≠ rows.length
  · rw [if_pos h, if_pos (by rwa [hlr])]
  · rw [if_neg h, if_neg (by rwa [hlr]), toMatrix_eq, toMatrix_eq, hlr]
    have ey : toVector y' rows.length = c • toVector y rows.length + toMatrixN rows rows.length k *ᵥ g := by
      ext i
      simp only [toVector, Pi.add_apply, Pi.smul_apply, smul_eq_mul, Matrix.mulVec, dotProduct, toMatrixN,
        Matrix.of_apply]
      exact hy i i.isLt
    have er : toMatrixN rows' rows.length k = toMatrixN rows rows.length k * T := by
      ext i l
      simp only [Matrix.mul_apply, toMatrixN, Matrix.of_apply]
      exact hr i i.isLt l
    rw [ey, er]
    rcases fit_transform (toVector y rows.length) (toMatrixN rows rows.length k) T g c hT with
      ⟨h1, h2⟩ | ⟨b, sq, df, inv, b', inv', h1, h2, hb, hi⟩
    · rw [h1, h2]
    · rw [h1, h2, py_bind_ok, py_bind_ok]
      simp only [py_pure, Except.ok.injEq]
      have e1 : b' ⟨0, hk⟩ = b ⟨0, hk⟩ := by
        have := congrFun hb ⟨0, hk⟩
        simp only [Matrix.mulVec, dotProduct, hT0, Pi.add_apply, Pi.smul_apply, smul_eq_mul, hg0, add_zero,
          ite_mul, zero_mul, Finset.sum_ite_eq', Finset.mem_univ, if_true] at this
        exact mul_left_cancel₀ hc this
      have e2 : c ^ 2 * inv' ⟨0, hk⟩ ⟨0, hk⟩ = inv ⟨0, hk⟩ ⟨0, hk⟩ := by
        have := congrFun (congrFun hi ⟨0, hk⟩) ⟨0, hk⟩
        simp only [Matrix.mul_apply, Matrix.transpose_apply, hT0, ite_mul, zero_mul, mul_ite, mul_zero,
          Finset.sum_ite_eq', Finset.mem_univ, if_true] at this
        rw [← this]
        ring
      unfold tStat
      rw [e1, ← e2]
      have hc2 : c ^ 2 ≠ 0 := pow_ne_zero _ hc
      have e3 : c ^ 2 * sq / df * inv' ⟨0, hk⟩ ⟨0, hk⟩ = sq / df * (c ^ 2 * inv' ⟨0, hk⟩ ⟨0, hk⟩) := by ring
      rw [e3]
      simp only [mul_eq_zero, hc2, false_or]

/-! ## The regressors of a transformed series -/

/-- The series `c * s_i + d + e * i + f * i ^ 2`. -/
def retrend (c d e f : ℝ) (s : List ℝ) : List ℝ :=
  s.mapIdx fun i x => c * x + d + e * i + f * (i : ℝ) ^ 2

theorem retrend_length (c d e f : ℝ) (s : List ℝ) : (retrend c d e f s).length = s.length := by
  simp [retrend]

theorem retrend_getD (c d e f : ℝ) (s : List ℝ) (i : ℕ) (h : i < s.length) :
    (retrend c d e f s).getD i 0 = c * s.getD i 0 + d + e * i + f * (i : ℝ) ^ 2 := by
  unfold retrend
  rw [List.getD_eq_getElem _ _ (by simpa using h), List.getElem_mapIdx, List.getD_eq_getElem _ _ h]

/-- The trends that the regression contains: a level needs a constant, a slope needs `'ct'`, a curvature
needs `'ctt'`. -/
structure Absorbed (constant : String) (d e f : ℝ) : Prop where
  level : constant = "nc" → d = 0
  slope : constant.toList.take 2 ≠ ['c', 't'] → e = 0
  curve : constant ≠ "ctt" → f = 0

/-- The coefficients of the constant and of the trends in column `l`. -/
def addC (L : ℕ) (d e f : ℝ) (l : ℕ) : ℝ :=
  if l = 0 then d + e * L + f * (L : ℝ) ^ 2 else e + f * (2 * ((L : ℝ) - l) + 1)

def addT (L : ℕ) (e f : ℝ) (l : ℕ) : ℝ := if l = 0 then e + 2 * f * L else 2 * f

def addQ (f : ℝ) (l : ℕ) : ℝ := if l = 0 then f else 0

/-- The change of regressors. -/
def change (k L : ℕ) (c d e f : ℝ) : Matrix (Fin k) (Fin k) ℝ := Matrix.of fun i l =>
  (if i = l then (if (l : ℕ) ≤ L then c else 1) else 0) +
    (if (l : ℕ) ≤ L then
      (if (i : ℕ) = L + 1 then addC L d e f l else 0) + (if (i : ℕ) = L + 2 then addT L e f l else 0) +
        (if (i : ℕ) = L + 3 then addQ f l else 0)
    else 0)

/-- The deterministic terms that the response takes up. -/
def addY (k L : ℕ) (e f : ℝ) : Fin k → ℝ := fun i =>
  (if (i : ℕ) = L + 1 then e + f * (2 * L + 1) else 0) + (if (i : ℕ) = L + 2 then 2 * f else 0)

theorem change_det (k L : ℕ) {c : ℝ} (hc : c ≠ 0) (d e f : ℝ) : (change k L c d e f).det ≠ 0 := by
  rw [Matrix.det_of_isLowerTriangular]
  · apply Finset.prod_ne_zero_iff.2
    intro i _
    simp only [change, Matrix.of_apply, if_true]
    by_cases h : (i : ℕ) ≤ L
    · rw [if_pos h, if_pos h, if_neg (by omega), if_neg (by omega), if_neg (by omega)]
      simpa using hc
    · rw [if_neg h, if_neg h]
      simp
  · intro i j hij
    have hij' : (i : ℕ) < j := hij
    simp only [change, Matrix.of_apply]
    rw [if_neg (by intro h; rw [h] at hij'; omega)]
    split_ifs <;> first | omega | simp

theorem sum_pick (r : List ℝ) (k p : ℕ) (a : ℝ) (h : r.length ≤ k) :
    ∑ i : Fin k, r.getD i 0 * (if (i : ℕ) = p then a else 0) = r.getD p 0 * a := by
  by_cases hp : p < k
  · rw [Finset.sum_eq_single ⟨p, hp⟩]
    · simp
    · intro i _ hi
      rw [if_neg (fun h => hi (Fin.ext h)), mul_zero]
    · simp
  · rw [List.getD_eq_default _ _ (by omega), zero_mul]
    apply Finset.sum_eq_zero
    intro i _
    rw [if_neg (by omega), mul_zero]

theorem sum_change (r : List ℝ) (k L : ℕ) (c d e f : ℝ) (h : r.length ≤ k) (l : Fin k) :
    ∑ j : Fin k, r.getD j 0 * change k L c d e f j l =
      if (l : ℕ) ≤ L then c * r.getD l 0 + r.getD (L + 1) 0 * addC L d e f l +
        r.getD (L + 2) 0 * addT L e f l + r.getD (L + 3) 0 * addQ f l
      else r.getD l 0 := by
  simp only [change, Matrix.of_apply]
  by_cases hl : (l : ℕ) ≤ L
  · simp only [if_pos hl, mul_add, Finset.sum_add_distrib]
    rw [sum_pick r k (L + 1) _ h, sum_pick r k (L + 2) _ h, sum_pick r k (L + 3) _ h]
    simp only [mul_ite, mul_zero, Finset.sum_ite_eq', Finset.mem_univ, if_true]
    ring
  · simp only [if_neg hl, add_zero, mul_ite, mul_zero, mul_one, Finset.sum_ite_eq', Finset.mem_univ, if_true]

/-- Row `j` of the design of `lags` lags. -/
noncomputable def designRow (s : List ℝ) (constant : String) (L j : ℕ) : List ℝ :=
  s.getD (L + j) 0 ::
    (((List.range L).map (· + 1)).map fun k => s.getD (L + j + 1 - k) 0 - s.getD (L + j - k) 0) ++
      deterministic constant j

theorem getYxInt_eq (s : List ℝ) (constant : String) (L : ℕ) (hn : L + 2 ≤ s.length) :
    getYxInt s constant L = .ok
      ((List.range (s.length - 1 - L)).map fun j => s.getD (L + j + 1) 0 - s.getD (L + j) 0,
       (List.range (s.length - 1 - L)).map (designRow s constant L)) := by
  have h0 : List.range (L + 1) = 0 :: (List.range L).map (· + 1) := by
    rw [List.range_succ_eq_map]
  have heq := getYx_eq s constant 0 ((List.range L).map (· + 1)) L (by rw [← h0]; exact List.nodup_range) (by
    intro k hk
    rw [← h0, List.mem_range] at hk
    omega) (by rw [← h0, List.mem_range]; omega) hn
  unfold getYxInt
  rw [h0]
  exact heq

theorem deterministic_length {K K' : Type} [Field K] [Field K'] (constant : String) (i j : ℕ) :
    (deterministic constant i : List K).length = (deterministic constant j : List K').length := by
  unfold deterministic
  split_ifs <;> rfl

theorem designRow_length (s : List ℝ) (constant : String) (L j : ℕ) :
    (designRow s constant L j).length = numCols constant L := by
  unfold designRow numCols
  rw [List.length_append, List.length_cons, List.length_map, List.length_map, List.length_range,
    deterministic_length (K' := ℚ) constant j 0]

theorem designRow_det (s : List ℝ) (constant : String) (L j p : ℕ) :
    (designRow s constant L j).getD (L + 1 + p) 0 = (deterministic constant j : List ℝ).getD p 0 := by
  unfold designRow
  rw [List.getD_append_right _ _ _ _ (by simp), List.length_cons, List.length_map, List.length_map,
    List.length_range, show L + 1 + p - (L + 1) = p by omega]

theorem designRow_level (s : List ℝ) (constant : String) (L j : ℕ) :
    (designRow s constant L j).getD 0 0 = s.getD (L + j) 0 := rfl

theorem designRow_lag (s : List ℝ) (constant : String) (L j l : ℕ) (h : l < L) :
    (designRow s constant L j).getD (l + 1) 0 =
      s.getD (L + j + 1 - (l + 1)) 0 - s.getD (L + j - (l + 1)) 0 := by
  unfold designRow
  rw [List.getD_append _ _ _ _ (by simpa using h), List.getD_cons_succ, List.map_map,
    List.getD_eq_getElem _ _ (by simpa using h), List.getElem_map, List.getElem_range]
  rfl


/-- The values that the deterministic terms take in row `j`. -/
theorem deterministic_cases (constant : String) (j : ℕ) :
    let D : List ℝ := deterministic constant j
    (constant = "nc" ∧ D.getD 0 0 = 0 ∧ D.getD 1 0 = 0 ∧ D.getD 2 0 = 0 ∧
      constant.toList.take 2 ≠ ['c', 't'] ∧ constant ≠ "ctt") ∨
    (constant ≠ "nc" ∧ D.getD 0 0 = 1 ∧ D.getD 1 0 = 0 ∧ D.getD 2 0 = 0 ∧
      constant.toList.take 2 ≠ ['c', 't'] ∧ constant ≠ "ctt") ∨
    (D.getD 0 0 = 1 ∧ D.getD 1 0 = j ∧ D.getD 2 0 = 0 ∧ constant ≠ "ctt") ∨
    (D.getD 0 0 = 1 ∧ D.getD 1 0 = j ∧ D.getD 2 0 = (j : ℝ) ^ 2) := by
  by_cases h1 : constant = "nc"
  · subst h1
    left
    simp [deterministic]
  · by_cases h2 : constant.toList.take 2 = ['c', 't']
    · by_cases h3 : constant = "ctt"
      · right; right; right
        simp [deterministic, h3]
      · right; right; left
        refine ⟨?_, ?_, ?_, h3⟩ <;> simp [deterministic, h1, h2, h3]
    · right; left
      have h3 : constant ≠ "ctt" := by
        rintro rfl
        exact h2 (by decide)
      refine ⟨h1, ?_, ?_, ?_, h2, h3⟩ <;> simp [deterministic, h1, h2]

/-- A combination of the deterministic terms is the polynomial, as far as it is absorbed. -/
theorem det_poly {constant : String} {d e f : ℝ} (h : Absorbed constant d e f) (j : ℕ) (a1 a2 b1 q : ℝ) :
    let D : List ℝ := deterministic constant j
    D.getD 0 0 * (d * q + e * a1 + f * a2) + D.getD 1 0 * (e * q + f * b1) + D.getD 2 0 * (f * q) =
      (d * q + e * a1 + f * a2) + (e * q + f * b1) * j + f * q * (j : ℝ) ^ 2 := by
  intro D
  rcases deterministic_cases constant j with ⟨h1, h2, h3, h4, h5, h6⟩ | ⟨h1, h2, h3, h4, h5, h6⟩ |
    ⟨h2, h3, h4, h6⟩ | ⟨h2, h3, h4⟩
  · rw [h.level h1, h.slope h5, h.curve h6]
    ring
  · rw [show D.getD 0 0 = 1 from h2, h.slope h5, h.curve h6]
    ring
  · rw [show D.getD 0 0 = 1 from h2, show D.getD 1 0 = j from h3, h.curve h6]
    ring
  · rw [show D.getD 0 0 = 1 from h2, show D.getD 1 0 = j from h3, show D.getD 2 0 = (j : ℝ) ^ 2 from h4]
    ring

theorem design_change (s : List ℝ) {constant : String} {c d e f : ℝ} (h : Absorbed constant d e f) (L j : ℕ)
    (hj : L + j + 1 < s.length) (l : Fin (numCols constant L)) :
    (designRow (retrend c d e f s) constant L j).getD l 0 =
      ∑ i : Fin (numCols constant L), (designRow s constant L j).getD i 0 *
        change (numCols constant L) L c d e f i l := by
  rw [sum_change _ _ _ _ _ _ _ (designRow_length s constant L j).le]
  obtain ⟨l, hl⟩ := l
  simp only
  by_cases h1 : l ≤ L
  · rw [if_pos h1, designRow_det s constant L j 0, show L + 2 = L + 1 + 1 by omega,
      designRow_det s constant L j 1, show L + 3 = L + 1 + 2 by omega, designRow_det s constant L j 2]
    cases l with
    | zero =>
      rw [designRow_level, designRow_level, retrend_getD _ _ _ _ _ _ (by omega)]
      have := det_poly h j L ((L : ℝ) ^ 2) (2 * L) 1
      simp only [mul_one] at this
      simp only [addC, addT, addQ, if_true]
      push_cast
      linear_combination -this
    | succ l =>
      rw [designRow_lag _ _ _ _ _ (by omega), designRow_lag _ _ _ _ _ (by omega),
        retrend_getD _ _ _ _ _ _ (by omega), retrend_getD _ _ _ _ _ _ (by omega)]
      have := det_poly h j 1 (2 * ((L : ℝ) - (l + 1 : ℕ)) + 1) 2 0
      simp only [mul_zero, mul_one, zero_add, add_zero, zero_mul] at this
      simp only [addC, addT, addQ, Nat.succ_ne_zero, if_false, mul_zero, add_zero]
      rw [Nat.cast_sub (by omega), Nat.cast_sub (by omega)]
      push_cast at this ⊢
      linear_combination -this
  · rw [if_neg h1]
    obtain ⟨p, rfl⟩ : ∃ p, l = L + 1 + p := ⟨l - L - 1, by omega⟩
    rw [designRow_det, designRow_det]

theorem response_change (s : List ℝ) {constant : String} {c d e f : ℝ} (h : Absorbed constant d e f) (L j : ℕ)
    (hj : L + j + 1 < s.length) :
    (retrend c d e f s).getD (L + j + 1) 0 - (retrend c d e f s).getD (L + j) 0 =
      c * (s.getD (L + j + 1) 0 - s.getD (L + j) 0) +
        ∑ i : Fin (numCols constant L), (designRow s constant L j).getD i 0 *
          addY (numCols constant L) L e f i := by
  simp only [addY, mul_add, Finset.sum_add_distrib]
  rw [sum_pick _ _ _ _ (designRow_length s constant L j).le, sum_pick _ _ _ _ (designRow_length s constant L j).le,
    designRow_det s constant L j 0, show L + 2 = L + 1 + 1 by omega, designRow_det s constant L j 1,
    retrend_getD _ _ _ _ _ _ (by omega), retrend_getD _ _ _ _ _ _ (by omega)]
  have := det_poly h j 1 (2 * L + 1) 2 0
  simp only [mul_zero, mul_one, zero_add, add_zero, zero_mul] at this
  push_cast
  linear_combination -this

theorem npDiff_len (s : List ℝ) : (npDiff s).length = s.length - 1 := npDiff_length s

theorem mapM_congr_mem {α β : Type} (l : List α) (f g : α → Py β) (h : ∀ a ∈ l, f a = g a) :
    l.mapM f = l.mapM g := by
  induction l with
  | nil => rfl
  | cons a l ih =>
    rw [List.mapM_cons, List.mapM_cons, h a (by simp), ih fun b hb => h b (by simp [hb])]

/-- C171.  Change the unit of the series, its sign, its level (if the regression has a constant), its slope
(if it has a linear trend) and its curvature (if it has a quadratic trend): the SADF statistic is the same,
and so is the failure of a singular regression. -/
theorem C171_sadf (s : List ℝ) (minLen : ℕ) (constant : String) (lags : ℕ) {c d e f : ℝ} (hc : c ≠ 0)
    (h : Absorbed constant d e f) :
    sadfStat (s.mapIdx fun i x => c * x + d + e * i + f * (i : ℝ) ^ 2) minLen constant lags =
      sadfStat s minLen constant lags := by
  change sadfStat (retrend c d e f s) minLen constant lags = _
  unfold sadfStat
  by_cases hn : lags + 2 ≤ s.length
  · rw [getYxInt_eq _ _ _ hn, getYxInt_eq _ _ _ (by rwa [retrend_length]), py_bind_ok, py_bind_ok]
    simp only [List.length_map, List.length_range, retrend_length]
    congr 1
    apply mapM_congr_mem
    intro start hs
    have hk := numCols_pos constant lags
    apply adfStat_transform _ _ _ _ hk (change (numCols constant lags) lags c d e f)
      (addY (numCols constant lags) lags e f) hc (change_det _ _ hc _ _ _)
    · intro l
      have h1 : ∀ p : ℕ, ((0 : ℕ) = lags + (p + 1)) ↔ False := by simp
      simp only [change, Matrix.of_apply, h1 0, h1 1, h1 2, if_false, add_zero, ite_self]
      by_cases hl : l = ⟨0, hk⟩
      · subst hl
        simp
      · rw [if_neg hl, if_neg (fun h => hl h.symm)]
    · simp [addY]
    · simp
    · simp
    · intro i hi
      simp only [List.length_drop, List.length_map, List.length_range] at hi
      have e : ∀ q : ℕ → ℝ, ((List.map q (List.range (s.length - 1 - lags))).drop start).getD i 0 =
          q (start + i) := by
        intro q
        rw [List.getD_eq_getElem _ _ (by rw [List.length_drop, List.length_map, List.length_range]; omega),
          List.getElem_drop, List.getElem_map, List.getElem_range]
      rw [e, e, List.getD_eq_getElem (List.drop _ _) []
        (by rw [List.length_drop, List.length_map, List.length_range]; omega), List.getElem_drop,
        List.getElem_map, List.getElem_range]
      exact response_change s h lags (start + i) (by omega)
    · intro i hi l
      simp only [List.length_drop, List.length_map, List.length_range] at hi
      rw [List.getD_eq_getElem (List.drop _ _) [] (by rw [List.length_drop, List.length_map, List.length_range]; omega), List.getElem_drop, List.getElem_map,
        List.getElem_range, List.getD_eq_getElem (List.drop _ _) [] (by rw [List.length_drop, List.length_map, List.length_range]; omega), List.getElem_drop,
        List.getElem_map, List.getElem_range]
      exact design_change s h lags (start + i) (by omega) l
  · rw [C119_short s _ _ (by omega), C119_short (retrend c d e f s) _ _ (by rw [retrend_length]; omega), py_bind_ok, py_bind_ok]
    simp only [npDiff_len, retrend_length]
    congr 1
    apply mapM_congr_mem
    intro start _
    have hk := numCols_pos constant lags
    apply adfStat_transform _ _ _ _ hk 1 0 (one_ne_zero) (by simp)
    · intro l
      rw [Matrix.one_apply]
      exact if_congr eq_comm rfl rfl
    · rfl
    · simp [npDiff_len, retrend_length]
    · simp
    · intro i hi
      simp at hi
    · intro i hi
      simp at hi

/-- C171.  The same for the series of statistics. -/
theorem C171_series (s : List ℝ) (minLen : ℕ) (constant : String) (lags : ℕ) {c d e f : ℝ} (hc : c ≠ 0)
    (h : Absorbed constant d e f) :
    sadfStatSeries (s.mapIdx fun i x => c * x + d + e * i + f * (i : ℝ) ^ 2) minLen constant lags =
      sadfStatSeries s minLen constant lags := by
  unfold sadfStatSeries
  rw [List.length_mapIdx]
  apply mapM_congr_mem
  intro i _
  have : (s.mapIdx fun i x => c * x + d + e * i + f * (i : ℝ) ^ 2).take (minLen + i + 1) =
      (s.take (minLen + i + 1)).mapIdx fun i x => c * x + d + e * i + f * (i : ℝ) ^ 2 := by
    apply List.ext_getElem?
    intro n
    rw [List.getElem?_take, List.getElem?_mapIdx, List.getElem?_mapIdx, List.getElem?_take]
    split_ifs <;> rfl
  rw [this, C171_sadf _ _ _ _ hc h]

/-- Prices in cents, and shifted: the statistic with a constant and one lag is the same. -/
example (s : List ℝ) : sadfStat (s.mapIdx fun i x => 100 * x + 7 + 0 * i + 0 * (i : ℝ) ^ 2) 8 "c" 1 =
    sadfStat s 8 "c" 1 :=
  C171_sadf s 8 "c" 1 (by norm_num) ⟨by decide, fun _ => rfl, fun _ => rfl⟩

end FinML.Breaks
