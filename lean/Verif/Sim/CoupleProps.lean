import Verif.Sim.Props

/-!
# C243: two runs of the Ornstein-Uhlenbeck generator with the same shocks
-/

namespace FinML.Sim

theorem ouLoop_couple (z : ℕ → ℝ) (f phi sigma : ℝ) : ∀ (n t : ℕ) (p p' : ℝ) (i : ℕ) (x x' : ℝ),
    (ouLoop z f phi sigma n t p)[i]? = some x → (ouLoop z f phi sigma n t p')[i]? = some x' →
    x - x' = phi ^ (i + 1) * (p - p') := by
  intro n
  induction n with
  | zero => intro t p p' i x x' h; simp [ouLoop] at h
  | succ n ih =>
    intro t p p' i x x' h h'
    simp only [ouLoop] at h h'
    cases i with
    | zero =>
      simp only [List.getElem?_cons_zero, Option.some.injEq] at h h'
      rw [← h, ← h']
      ring
    | succ i =>
      rw [List.getElem?_cons_succ] at h h'
      rw [ih _ _ _ _ _ _ h h']
      ring

/-- C243.  Two runs that differ in the seed only: the distance shrinks by the same factor at every step,
the factor whose power to the half life is one half; so the order of the paths never changes. -/
theorem C243_couple (first : ℕ → ℝ) (f h sigma p p' : ℝ) (n : ℕ) (rs : RandomState) (hh : 0 < h)
    (l l' : List ℝ) (hl : genDiscreteOu first f h sigma p n rs = .ok l)
    (hl' : genDiscreteOu first f h sigma p' n rs = .ok l') :
    ∃ phi : ℝ, 0 < phi ∧ phi < 1 ∧ phi ^ h = 1 / 2 ∧ ∀ i x x', l[i]? = some x → l'[i]? = some x' →
      x - x' = phi ^ (i + 1) * (p - p') ∧ (p' ≤ p → x' ≤ x) := by
  have e : (-1 / h) * h = -1 := by field_simp
  refine ⟨(2 : ℝ) ^ (-1 / h), by positivity, ?_, ?_, ?_⟩
  · apply Real.rpow_lt_one_of_one_lt_of_neg (by norm_num)
    exact div_neg_of_neg_of_pos (by norm_num) hh
  · rw [← Real.rpow_mul (by norm_num), e, Real.rpow_neg_one]
    norm_num
  · intro i x x' hx hx'
    unfold genDiscreteOu at hl hl'
    rw [if_neg hh.ne'] at hl hl'
    cases hl
    cases hl'
    have key := ouLoop_couple _ _ _ _ _ _ _ _ _ _ _ hx hx'
    refine ⟨key, fun hle => ?_⟩
    have : 0 ≤ ((2 : ℝ) ^ (-1 / h)) ^ (i + 1) * (p - p') := mul_nonneg (by positivity) (by linarith)
    linarith

theorem ouLoop_affine (z : ℕ → ℝ) (f phi sigma a b : ℝ) : ∀ (n t : ℕ) (p : ℝ),
    ouLoop z (a * f + b) phi (a * sigma) n t (a * p + b) =
      (ouLoop z f phi sigma n t p).map fun x => a * x + b := by
  intro n
  induction n with
  | zero => intro t p; rfl
  | succ n ih =>
    intro t p
    simp only [ouLoop, List.map_cons]
    have : (1 - phi) * (a * f + b) + phi * (a * p + b) + a * sigma * z t =
        a * ((1 - phi) * f + phi * p + sigma * z t) + b := by ring
    rw [this, ih]

/-- C243.  Change of unit and origin: with forecast and seed in other units and the volatility scaled, the same
shocks give the same path in those units. -/
theorem C243_units (first : ℕ → ℝ) (f h sigma p a b : ℝ) (n : ℕ) (rs : RandomState) :
    genDiscreteOu first (a * f + b) h (a * sigma) (a * p + b) n rs =
      (genDiscreteOu first f h sigma p n rs).map fun l => l.map fun x => a * x + b := by
  unfold genDiscreteOu
  split_ifs
  · rfl
  · rw [ouLoop_affine]
    rfl

/-- A case: half life 1, two steps, the same shocks 1 and 1. -/
example : genDiscreteOu (fun _ => 1) 0 1 1 4 2 (.seed 0) = .ok [3, 5 / 2] ∧
    genDiscreteOu (fun _ => 1) 0 1 1 0 2 (.seed 0) = .ok [1, 3 / 2] := by
  have h2 : (2 : ℝ) ^ (-1 / 1 : ℝ) = 1 / 2 := by
    rw [show (-1 / 1 : ℝ) = -1 by norm_num, Real.rpow_neg_one]; norm_num
  constructor
  · simp only [genDiscreteOu, ouLoop, RandomState.draw, h2]
    norm_num
  · simp only [genDiscreteOu, ouLoop, RandomState.draw, h2]
    norm_num

end FinML.Sim
