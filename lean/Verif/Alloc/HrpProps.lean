import Verif.Alloc.TreeProps
import Mathlib.Algebra.QuadraticDiscriminant
import Mathlib.Algebra.Order.BigOperators.Group.List
import Mathlib.Algebra.Order.BigOperators.Group.Finset
import Mathlib.Algebra.BigOperators.Ring.Finset
import Mathlib.Algebra.BigOperators.Ring.List
import Mathlib.Algebra.BigOperators.Field
import Mathlib.Tactic.LinearCombination
import Mathlib.Tactic.FieldSimp
import Mathlib.Tactic.IntervalCases

/-!
# Hierarchical risk parity (C78, C80, C81)
-/

set_option linter.unusedSectionVars false

namespace FinML.Alloc

/-! ## The correlation distance -/

/-- The quadratic form of a correlation matrix at a combination of three unit vectors. -/
theorem corr_form (n : ℕ) (corr : ℕ → ℕ → ℝ) (h : IsCorr n corr) (i j k : ℕ) (hi : i < n) (hj : j < n)
    (hk : k < n) (a b c : ℝ) :
    0 ≤ a ^ 2 + b ^ 2 + c ^ 2 + 2 * a * b * corr i j + 2 * a * c * corr i k + 2 * b * c * corr j k := by
  have := h.psd fun m => (if m = i then a else 0) + (if m = j then b else 0) + (if m = k then c else 0)
  simp only [add_mul, mul_add, ite_mul, mul_ite, zero_mul, mul_zero, Finset.sum_add_distrib,
    Finset.sum_ite_eq', Finset.mem_range, hi, hj, hk, if_true, h.diag] at this
  rw [h.symm j hj i hi, h.symm k hk i hi, h.symm k hk j hj] at this
  nlinarith [this]

/-- C78: on every correlation matrix the distance is in `[0, 1]`, is 0 exactly for correlation 1, is
symmetric and satisfies the triangle inequality. -/
theorem C78_metric (n : ℕ) (corr : ℕ → ℕ → ℝ) (h : IsCorr n corr) (i j k : ℕ) (hi : i < n)
    (hj : j < n) (hk : k < n) :
    (0 ≤ corrToDist corr i j ∧ corrToDist corr i j ≤ 1) ∧
    (corrToDist corr i j = 0 ↔ corr i j = 1) ∧
    corrToDist corr i j = corrToDist corr j i ∧
    corrToDist corr i k ≤ corrToDist corr i j + corrToDist corr j k := by
  have hle : ∀ i < n, ∀ j < n, corr i j ≤ 1 := by
    intro i hi j hj
    have := corr_form n corr h i j j hi hj hj 1 (-1) 0
    linarith
  have hge : ∀ i < n, ∀ j < n, -1 ≤ corr i j := by
    intro i hi j hj
    have := corr_form n corr h i j j hi hj hj 1 1 0
    linarith
  refine ⟨⟨Real.sqrt_nonneg _, ?_⟩, ?_, ?_, ?_⟩
  · rw [corrToDist, Real.sqrt_le_one]
    linarith [hge i hi j hj]
  · rw [corrToDist, Real.sqrt_eq_zero (by linarith [hle i hi j hj])]
    constructor <;> intro h <;> linarith
  · rw [corrToDist, corrToDist, h.symm i hi j hj]
  · have hd : discrim (2 * (1 - corr i j)) (2 * ((1 - corr i k) - (1 - corr i j) - (1 - corr j k)))
        (2 * (1 - corr j k)) ≤ 0 := by
      apply discrim_le_zero
      intro s
      have := corr_form n corr h i j k hi hj hk s (1 - s) (-1)
      linarith
    have hP := hle i hi j hj
    have hR := hle j hj k hk
    unfold corrToDist
    rw [Real.sqrt_le_left (by positivity), add_sq, Real.sq_sqrt (by linarith),
      Real.sq_sqrt (by linarith)]
    have hprod : √((1 - corr i j) / 2) * √((1 - corr j k) / 2) =
        √((1 - corr i j) / 2 * ((1 - corr j k) / 2)) :=
      (Real.sqrt_mul (by linarith) _).symm
    rw [mul_assoc, hprod]
    have hsq : (((1 - corr i k) - (1 - corr i j) - (1 - corr j k)) / 4) ^ 2 ≤
        (1 - corr i j) / 2 * ((1 - corr j k) / 2) := by
      unfold discrim at hd
      nlinarith [hd]
    have := Real.abs_le_sqrt hsq
    have := le_abs_self (((1 - corr i k) - (1 - corr i j) - (1 - corr j k)) / 4)
    linarith

/-- C78: the matrix passed by `hrp_allocations` is a correlation matrix: with positive sample variances
`np.corrcoef` is symmetric, has a unit diagonal and is positive semidefinite. -/
theorem C78_sampleCorr (n : ℕ) (x : List (ℕ → ℝ)) (hpos : ∀ i < n, 0 < sampleCov x i i) :
    IsCorr n (sampleCorr x) := by
  refine ⟨?_, ?_, ?_⟩
  · intro i _ j _
    unfold sampleCorr
    rw [mul_comm (√(sampleCov x i i))]
    congr 1
    unfold sampleCov
    simp only [mul_comm]
  · intro i hi
    unfold sampleCorr
    rw [Real.mul_self_sqrt (hpos i hi).le, div_self (hpos i hi).ne']
  · intro y
    rcases Nat.eq_zero_or_pos n with rfl | hn
    · simp
    have hT : 0 < (x.length : ℝ) - 1 := by
      have h0 := hpos 0 hn
      unfold sampleCov at h0
      have hs : 0 ≤ (x.map fun r => (r 0 - colMean x 0) * (r 0 - colMean x 0)).sum :=
        List.sum_nonneg (by simp only [List.mem_map]; rintro _ ⟨r, -, rfl⟩; exact mul_self_nonneg _)
      by_contra hc
      exact absurd h0 (not_lt.2 (div_nonpos_of_nonneg_of_nonpos hs (not_lt.1 hc)))
    have hkey : ∑ i ∈ Finset.range n, ∑ j ∈ Finset.range n, y i * sampleCorr x i j * y j =
        (x.map fun r => (∑ i ∈ Finset.range n,
          y i / √(sampleCov x i i) * (r i - colMean x i)) ^ 2).sum / ((x.length : ℝ) - 1) := by
      have h1 : ∀ i j, y i * sampleCorr x i j * y j =
          (x.map fun r => (y i / √(sampleCov x i i) * (r i - colMean x i)) *
            (y j / √(sampleCov x j j) * (r j - colMean x j))).sum / ((x.length : ℝ) - 1) := by
        intro i j
        have : (x.map fun r => (y i / √(sampleCov x i i) * (r i - colMean x i)) *
            (y j / √(sampleCov x j j) * (r j - colMean x j))).sum =
            y i / √(sampleCov x i i) * (y j / √(sampleCov x j j)) *
            (x.map fun r => (r i - colMean x i) * (r j - colMean x j)).sum := by
          rw [← List.sum_map_mul_left]
          congr 1
          apply List.map_congr_left
          intro r _
          ring
        rw [this, sampleCorr]
        conv_lhs => rw [sampleCov]
        ring
      simp only [h1, ← Finset.sum_div]
      congr 1
      have hswap : ∀ g : ℕ → ℕ → (ℕ → ℝ) → ℝ,
          ∑ i ∈ Finset.range n, ∑ j ∈ Finset.range n, (x.map fun r => g i j r).sum =
          (x.map fun r => ∑ i ∈ Finset.range n, ∑ j ∈ Finset.range n, g i j r).sum := by
        intro g
        clear * -
        induction x with
        | nil => simp
        | cons r x ih => simp [Finset.sum_add_distrib, ih]
      rw [hswap]
      congr 1
      apply List.map_congr_left
      intro r _
      rw [sq, Finset.sum_mul_sum]
    rw [hkey]
    refine div_nonneg (List.sum_nonneg ?_) hT.le
    simp only [List.mem_map]
    rintro _ ⟨r, -, rfl⟩
    exact sq_nonneg _

/-! ## Recursive bisection -/

variable {K : Type} [Field K] [LinearOrder K] [IsStrictOrderedRing K]

theorem zip_self_map (g : List ℕ) (f : ℕ → K) : g.zip (g.map f) = g.map fun i => (i, f i) := by
  induction g with
  | nil => rfl
  | cons a g ih => simp [ih]

theorem inv_sum_pos (cov : ℕ → ℕ → K) (g : List ℕ) (hne : g ≠ []) (hd : ∀ i ∈ g, 0 < cov i i) :
    0 < (g.map fun i => 1 / cov i i).sum := by
  apply List.sum_pos
  · simp only [List.mem_map]
    rintro _ ⟨i, hi, rfl⟩
    exact one_div_pos.2 (hd i hi)
  · simpa using hne

/-- The code's cluster variance is the variance of the inverse variance portfolio. -/
theorem clusterVar_eq (cov : ℕ → ℕ → K) (g : List ℕ) (hne : g ≠ []) (hd : ∀ i ∈ g, 0 < cov i i) :
    clusterVar cov g = .ok (groupVar cov g) := by
  have hS := inv_sum_pos cov g hne hd
  have hdiv : divides cov g := ⟨fun i hi => (hd i hi).ne', hS.ne'⟩
  unfold clusterVar
  rw [if_pos hdiv]
  congr 1
  unfold inverseVariance quadForm groupVar
  simp only [List.map_map, Function.comp_def]
  rw [zip_self_map]
  simp only [List.map_map, Function.comp_def]
  generalize (g.map fun i => 1 / cov i i).sum = S at hS
  have h1 : ∀ j, (g.map fun i => 1 / cov i i / S * cov i j).sum * (1 / cov j j / S) =
      (g.map fun i => 1 / cov i i * cov i j * (1 / cov j j)).sum * (1 / S ^ 2) := by
    intro j
    rw [← List.sum_map_mul_right, ← List.sum_map_mul_right]
    congr 1
    apply List.map_congr_left
    intro i _
    field_simp
  simp only [h1, List.sum_map_mul_right]
  ring

/-- All groups met by the bisection have positive variance. -/
def PosVar (cov : ℕ → ℕ → K) (order : List ℕ) : Prop :=
  (∀ i ∈ order, 0 < cov i i) ∧ ∀ g, g ≠ [] → g <:+: order → 0 < groupVar cov g

theorem PosVar.infix {cov : ℕ → ℕ → K} {order g : List ℕ} (h : PosVar cov order) (hg : g <:+: order) :
    PosVar cov g :=
  ⟨fun i hi => h.1 i (hg.subset hi), fun g' hne hg' => h.2 g' hne (hg'.trans hg)⟩

theorem scaleLabels_map (order part : List ℕ) (f : ℕ → K) (a : K) :
    scaleLabels (order.map fun i => (i, f i)) part a =
      order.map fun i => (i, if i ∈ part then f i * a else f i) := by
  unfold scaleLabels
  rw [List.map_map]
  apply List.map_congr_left
  intro i _
  by_cases h : i ∈ part <;> simp [h]

theorem splitWeights_eq (cov : ℕ → ℕ → K) (order a b : List ℕ) (f : ℕ → K) (ha : a ≠ []) (hb : b ≠ [])
    (hpa : PosVar cov a) (hpb : PosVar cov b) (hdis : a.Disjoint b) :
    ∃ f' : ℕ → K, splitWeights cov a b (order.map fun i => (i, f i)) = .ok (order.map fun i => (i, f' i)) ∧
      (∀ i ∈ a, f' i = f i * (groupVar cov b / (groupVar cov a + groupVar cov b))) ∧
      (∀ i ∈ b, f' i = f i * (groupVar cov a / (groupVar cov a + groupVar cov b))) ∧
      ∀ i, i ∉ a → i ∉ b → f' i = f i := by
  have hva := hpa.2 a ha (List.infix_refl a)
  have hvb := hpb.2 b hb (List.infix_refl b)
  have hsum : groupVar cov a + groupVar cov b ≠ 0 := (add_pos hva hvb).ne'
  unfold splitWeights
  rw [clusterVar_eq cov a ha hpa.1, clusterVar_eq cov b hb hpb.1]
  simp only [py_bind_ok, if_neg hsum, py_pure, scaleLabels_map]
  refine ⟨_, rfl, ?_, ?_, ?_⟩
  · intro i hi
    have : i ∉ b := fun h => hdis hi h
    simp only [hi, this, if_true, if_false]
    field_simp
    ring
  · intro i hi
    have : i ∉ a := fun h => hdis h hi
    simp only [hi, this, if_true, if_false]
    ring
  · intro i h1 h2
    simp [h1, h2]

theorem halves_of_le (p : List ℕ) (h : p.length ≤ 1) : halves p = [] := if_neg (by omega)

theorem halves_of_lt (p : List ℕ) (h : 1 < p.length) :
    halves p = [p.take (p.length / 2), p.drop (p.length / 2)] := if_pos h

theorem take_ne_nil (p : List ℕ) (h : 1 < p.length) : p.take (p.length / 2) ≠ [] := by
  intro h0
  rw [List.take_eq_nil_iff] at h0
  rcases h0 with h0 | h0
  · omega
  · simp [h0] at h

theorem drop_ne_nil (p : List ℕ) (h : 1 < p.length) : p.drop (p.length / 2) ≠ [] := by
  intro h0
  rw [List.drop_eq_nil_iff] at h0
  omega

theorem pairLoop_spec (cov : ℕ → ℕ → K) (order : List ℕ) (ps : List (List ℕ)) (f : ℕ → K)
    (hnd : ∀ p ∈ ps, p.Nodup) (hdis : ps.Pairwise List.Disjoint) (hpos : ∀ p ∈ ps, PosVar cov p) :
    ∃ f' : ℕ → K, pairLoop cov (ps.flatMap halves) (order.map fun i => (i, f i)) =
        .ok (order.map fun i => (i, f' i)) ∧
      (∀ i, (∀ p ∈ ps, i ∉ p) → f' i = f i) ∧
      (∀ p ∈ ps, p.length ≤ 1 → ∀ i ∈ p, f' i = f i) ∧
      ∀ p ∈ ps, 1 < p.length →
        (∀ i ∈ p.take (p.length / 2), f' i = f i *
          (groupVar cov (p.drop (p.length / 2)) /
            (groupVar cov (p.take (p.length / 2)) + groupVar cov (p.drop (p.length / 2))))) ∧
        (∀ i ∈ p.drop (p.length / 2), f' i = f i *
          (groupVar cov (p.take (p.length / 2)) /
            (groupVar cov (p.take (p.length / 2)) + groupVar cov (p.drop (p.length / 2))))) := by
  induction ps generalizing f with
  | nil => exact ⟨f, by simp [pairLoop]⟩
  | cons p ps ih =>
    rw [List.pairwise_cons] at hdis
    have ihp := fun f => ih f (fun q hq => hnd q (by simp [hq])) hdis.2
      (fun q hq => hpos q (by simp [hq]))
    by_cases hl : 1 < p.length
    · set a := p.take (p.length / 2) with ha
      set b := p.drop (p.length / 2) with hb
      have hab : p = a ++ b := (List.take_append_drop _ _).symm
      have hdab : a.Disjoint b := by
        have := hnd p (by simp)
        rw [hab] at this
        exact (List.nodup_append.1 this).2.2 |> fun h x hx hy => h x hx x hy rfl
      have hia : a <:+: p := (List.take_prefix _ _).isInfix
      have hib : b <:+: p := (List.drop_suffix _ _).isInfix
      obtain ⟨f1, h1, h2, h3, h4⟩ := splitWeights_eq cov order a b f (take_ne_nil p hl)
        (drop_ne_nil p hl) ((hpos p (by simp)).infix hia) ((hpos p (by simp)).infix hib) hdab
      obtain ⟨f2, g1, g2, g3, g4⟩ := ihp f1
      have hrest : ∀ i ∈ p, f2 i = f1 i := fun i hi => g2 i fun q hq hiq => hdis.1 q hq hi hiq
      have hother : ∀ q ∈ ps, ∀ i ∈ q, f1 i = f i := fun q hq i hi =>
        h4 i (fun h => hdis.1 q hq (hia.subset h) hi) (fun h => hdis.1 q hq (hib.subset h) hi)
      refine ⟨f2, ?_, ?_, ?_, ?_⟩
      · rw [List.flatMap_cons, halves_of_lt p hl, ← ha, ← hb]
        simp only [List.cons_append, List.nil_append, pairLoop]
        rw [h1, py_bind_ok, g1]
      · intro i hi
        rw [g2 i fun q hq => hi q (by simp [hq]), h4 i (fun h => hi p (by simp) (hia.subset h))
          (fun h => hi p (by simp) (hib.subset h))]
      · intro q hq hql i hi
        rcases List.mem_cons.1 hq with rfl | hq
        · omega
        · rw [g3 q hq hql i hi, hother q hq i hi]
      · intro q hq hql
        rcases List.mem_cons.1 hq with rfl | hq
        · refine ⟨fun i hi => ?_, fun i hi => ?_⟩
          · rw [hrest i (hia.subset hi), h2 i hi]
          · rw [hrest i (hib.subset hi), h3 i hi]
        · obtain ⟨e1, e2⟩ := g4 q hq hql
          refine ⟨fun i hi => ?_, fun i hi => ?_⟩
          · rw [e1 i hi, hother q hq i (List.mem_of_mem_take hi)]
          · rw [e2 i hi, hother q hq i (List.mem_of_mem_drop hi)]
    · obtain ⟨f2, g1, g2, g3, g4⟩ := ihp f
      refine ⟨f2, ?_, ?_, ?_, ?_⟩
      · rw [List.flatMap_cons, halves_of_le p (by omega), List.nil_append, g1]
      · exact fun i hi => g2 i fun q hq => hi q (by simp [hq])
      · intro q hq hql i hi
        rcases List.mem_cons.1 hq with rfl | hq
        · exact g2 i fun r hr hir => hdis.1 r hr hi hir
        · exact g3 q hq hql i hi
      · intro q hq hql
        rcases List.mem_cons.1 hq with rfl | hq
        · exact absurd hql hl
        · exact g4 q hq hql

theorem mem_halves (p q : List ℕ) (h : q ∈ halves p) :
    q <:+: p ∧ q.length < p.length ∧ q ≠ [] := by
  by_cases hl : 1 < p.length
  · rw [halves_of_lt p hl] at h
    simp only [List.mem_cons, List.not_mem_nil, or_false] at h
    rcases h with rfl | rfl
    · exact ⟨(List.take_prefix _ _).isInfix, by simp; omega, take_ne_nil p hl⟩
    · exact ⟨(List.drop_suffix _ _).isInfix, by simp; omega, drop_ne_nil p hl⟩
  · rw [halves_of_le p (by omega)] at h
    simp at h

theorem bisectLoop_spec (cov : ℕ → ℕ → K) (order : List ℕ) (fuel : ℕ) (ps : List (List ℕ)) (f : ℕ → K)
    (hfuel : ∀ p ∈ ps, p.length < fuel)
    (hnd : ∀ p ∈ ps, p.Nodup) (hdis : ps.Pairwise List.Disjoint) (hpos : ∀ p ∈ ps, PosVar cov p) :
    ∃ f' : ℕ → K, bisectLoop cov fuel ps (order.map fun i => (i, f i)) = .ok (order.map fun i => (i, f' i)) ∧
      (∀ i, (∀ p ∈ ps, i ∉ p) → f' i = f i) ∧
      ∀ p ∈ ps, ∀ w, (∀ i ∈ p, f i = w) → Bisect cov w p (p.map fun i => (i, f' i)) := by
  induction fuel generalizing ps f with
  | zero =>
    have : ps = [] := List.eq_nil_iff_forall_not_mem.2 fun p hp => absurd (hfuel p hp) (by omega)
    subst this
    exact ⟨f, by simp [bisectLoop]⟩
  | succ fuel ih =>
    by_cases hps : ps = []
    · subst hps
      exact ⟨f, by simp [bisectLoop]⟩
    obtain ⟨f1, h1, h2, h3, h4⟩ := pairLoop_spec cov order ps f hnd hdis hpos
    have hmem : ∀ q ∈ ps.flatMap halves, ∃ p ∈ ps, q ∈ halves p := fun q hq => List.mem_flatMap.1 hq
    have hdis' : (ps.flatMap halves).Pairwise List.Disjoint := by
      rw [List.pairwise_flatMap]
      refine ⟨fun p hp => ?_, hdis.imp fun {p q} hpq a ha b hb => ?_⟩
      · by_cases hl : 1 < p.length
        · rw [halves_of_lt p hl]
          simp only [List.pairwise_cons, List.mem_cons, List.not_mem_nil, or_false, forall_eq,
            IsEmpty.forall_iff, implies_true, List.Pairwise.nil, and_self, and_true]
          have := hnd p hp
          rw [← List.take_append_drop (p.length / 2) p, List.nodup_append] at this
          exact fun x hx hy => this.2.2 x hx x hy rfl
        · rw [halves_of_le p (by omega)]
          exact List.Pairwise.nil
      · exact fun x hx hy => hpq ((mem_halves p a ha).1.subset hx) ((mem_halves q b hb).1.subset hy)
    obtain ⟨f2, g1, g2, g3⟩ := ih (ps.flatMap halves) f1
      (fun q hq => by
        obtain ⟨p, hp, hqp⟩ := hmem q hq
        have := hfuel p hp
        have := (mem_halves p q hqp).2.1
        omega)
      (fun q hq => by
        obtain ⟨p, hp, hqp⟩ := hmem q hq
        exact (hnd p hp).sublist (mem_halves p q hqp).1.sublist)
      hdis'
      (fun q hq => by
        obtain ⟨p, hp, hqp⟩ := hmem q hq
        exact (hpos p hp).infix (mem_halves p q hqp).1)
    refine ⟨f2, ?_, ?_, ?_⟩
    · unfold bisectLoop
      rw [if_neg hps, h1, py_bind_ok, g1]
    · intro i hi
      rw [g2 i, h2 i hi]
      intro q hq hiq
      obtain ⟨p, hp, hqp⟩ := hmem q hq
      exact hi p hp ((mem_halves p q hqp).1.subset hiq)
    · intro p hp w hw
      by_cases hl : 1 < p.length
      · obtain ⟨e1, e2⟩ := h4 p hp hl
        have hin : ∀ q ∈ halves p, q ∈ ps.flatMap halves := fun q hq => List.mem_flatMap.2 ⟨p, hp, hq⟩
        rw [halves_of_lt p hl] at hin
        have ba := g3 _ (hin (p.take (p.length / 2)) (by simp)) _ (fun i hi => by
          rw [e1 i hi, hw i (List.mem_of_mem_take hi)])
        have bb := g3 _ (hin (p.drop (p.length / 2)) (by simp)) _ (fun i hi => by
          rw [e2 i hi, hw i (List.mem_of_mem_drop hi)])
        have := Bisect.split w _ _ _ _ (take_ne_nil p hl) (by simp; omega) ba bb
        rwa [← List.map_append, List.take_append_drop] at this
      · match p, hl with
        | [], _ => exact .nil w
        | [i], _ =>
          have : f2 i = w := by
            rw [g2 i, h3 [i] hp (by simp) i (by simp), hw i (by simp)]
            intro q hq hiq
            obtain ⟨p', hp', hqp⟩ := hmem q hq
            have hip' := (mem_halves p' q hqp).1.subset hiq
            by_cases hpp : p' = [i]
            · subst hpp
              simp [halves] at hqp
            · have : Std.Symm (List.Disjoint (α := ℕ)) := ⟨fun _ _ h => h.symm⟩
              exact hdis.forall hp' hp hpp hip' (by simp)
          simp only [List.map_cons, List.map_nil, this]
          exact .one w i
        | _ :: _ :: _, hl => simp at hl

/-- C80/C81: the weights are obtained by halving the order repeatedly, each half receiving a share
proportional to the inverse variance portfolio variance of the other half. -/
theorem C80_bisection (cov : ℕ → ℕ → K) (order : List ℕ) (hnd : order.Nodup) (hpos : PosVar cov order) :
    ∃ ws, recursiveBisection cov order = .ok ws ∧ ws.map Prod.fst = order ∧ Bisect cov 1 order ws := by
  obtain ⟨f', h1, -, h3⟩ := bisectLoop_spec cov order (order.length + 1) [order] (fun _ => 1)
    (by simp) (by simpa using hnd) (by simp) (by simpa using hpos)
  exact ⟨_, h1, by simp [Function.comp_def], h3 order (by simp) 1 (by simp)⟩

theorem Bisect.sum_eq {cov : ℕ → ℕ → K} {w : K} {g : List ℕ} {res : List (ℕ × K)}
    (h : Bisect cov w g res) (hpos : PosVar cov g) (hne : g ≠ []) :
    (res.map Prod.snd).sum = w ∧ (0 < w → ∀ p ∈ res, 0 < p.2) := by
  induction h with
  | nil w => exact absurd rfl hne
  | one w i => simp
  | split w a b ra rb ha hlen hba hbb iha ihb =>
    have hb : b ≠ [] := by
      rintro rfl
      have := List.length_pos_of_ne_nil ha
      simp at hlen
      omega
    have hia : a <:+: a ++ b := (List.prefix_append a b).isInfix
    have hib : b <:+: a ++ b := (List.suffix_append a b).isInfix
    obtain ⟨sa, pa⟩ := iha (hpos.infix hia) ha
    obtain ⟨sb, pb⟩ := ihb (hpos.infix hib) hb
    have hva := hpos.2 a ha hia
    have hvb := hpos.2 b hb hib
    have hs := add_pos hva hvb
    refine ⟨?_, fun hw p hp => ?_⟩
    · rw [List.map_append, List.sum_append, sa, sb]
      have := hs.ne'
      field_simp
      ring
    · rcases List.mem_append.1 hp with h | h
      · exact pa (mul_pos hw (div_pos hvb hs)) p h
      · exact pb (mul_pos hw (div_pos hva hs)) p h

/-- C80: the HRP weights are indexed by exactly the assets in their order, sum to 1 and are strictly
positive, for every covariance matrix whose clusters have positive variance. -/
theorem C80_full_allocation (cov : ℕ → ℕ → K) (order : List ℕ) (hne : order ≠ []) (hnd : order.Nodup)
    (hpos : PosVar cov order) :
    ∃ ws, recursiveBisection cov order = .ok ws ∧ ws.map Prod.fst = order ∧
      (ws.map Prod.snd).sum = 1 ∧ ∀ p ∈ ws, 0 < p.2 := by
  obtain ⟨ws, h1, h2, h3⟩ := C80_bisection cov order hnd hpos
  obtain ⟨h4, h5⟩ := h3.sum_eq hpos hne
  exact ⟨ws, h1, h2, h4, h5 one_pos⟩

/-- C80: the whole of `hrp_allocations`, for any clustering function returning valid linkages and
any returns whose covariance has positive cluster variances. -/
theorem C80_hrp (linkage : ℕ → (ℕ → ℕ → ℝ) → List Row) (n : ℕ) (x : List (ℕ → ℝ))
    (hlink : ValidLinkage n (linkage n (corrToDist (sampleCorr x))))
    (hpos : ∀ order : List ℕ, order.Perm (List.range n) → PosVar (sampleCov x) order) :
    ∃ ws, hrpAllocations linkage n x = .ok ws ∧ (ws.map Prod.fst).Perm (List.range n) ∧
      (ws.map Prod.snd).sum = 1 ∧ ∀ p ∈ ws, 0 < p.2 := by
  obtain ⟨order, h1, -, h3⟩ := C79_quasi_diagonalize n _ hlink
  have hne : order ≠ [] := by
    rintro rfl
    have := h3.length_eq
    have := hlink.two_le
    simp at *
    omega
  obtain ⟨ws, g1, g2, g3, g4⟩ := C80_full_allocation (sampleCov x) order hne
    (h3.nodup_iff.2 List.nodup_range) (hpos order h3)
  refine ⟨ws, ?_, g2 ▸ h3, g3, g4⟩
  unfold hrpAllocations
  simp only [h1, py_bind_ok]
  exact g1

/-- Positive cluster variances hold for every positive definite covariance matrix. -/
theorem C80_posVar_of_posDef (cov : ℕ → ℕ → K) (order : List ℕ) (hnd : order.Nodup)
    (hpd : ∀ w : ℕ → K, (∃ i ∈ order, w i ≠ 0) →
      0 < (order.map fun j => (order.map fun i => w i * cov i j * w j).sum).sum) :
    PosVar cov order := by
  have hrestrict : ∀ g : List ℕ, g <:+: order → ∀ (w : ℕ → K) (F : ℕ → K),
      (∀ j ∈ order, j ∉ g → F j = 0) → (order.map F).sum = (g.map F).sum := by
    rintro g ⟨s, t, rfl⟩ w F hF
    rw [List.nodup_append, List.nodup_append] at hnd
    have hs : (s.map F).sum = 0 := by
      apply List.sum_eq_zero
      simp only [List.mem_map]
      rintro _ ⟨i, hi, rfl⟩
      exact hF i (by simp [hi]) fun hg => hnd.1.2.2 i hi i hg rfl
    have ht : (t.map F).sum = 0 := by
      apply List.sum_eq_zero
      simp only [List.mem_map]
      rintro _ ⟨i, hi, rfl⟩
      exact hF i (by simp [hi]) fun hg => hnd.2.2 i (by simp [hg]) i hi rfl
    simp [hs, ht]
  have hgroup : ∀ g : List ℕ, g <:+: order → ∀ w : ℕ → K, (∃ i ∈ g, w i ≠ 0) →
      0 < (g.map fun j => (g.map fun i => w i * cov i j * w j).sum).sum := by
    intro g hg w ⟨i0, hi0, hw0⟩
    have h := hpd (fun i => if i ∈ g then w i else 0) ⟨i0, hg.subset hi0, by simp [hi0, hw0]⟩
    rw [hrestrict g hg w _ (by
      intro j _ hj
      apply List.sum_eq_zero
      simp only [List.mem_map]
      rintro _ ⟨i, -, rfl⟩
      simp [hj])] at h
    have hcongr : (g.map fun j => (order.map fun i =>
        (if i ∈ g then w i else 0) * cov i j * (if j ∈ g then w j else 0)).sum) =
        g.map fun j => (g.map fun i => w i * cov i j * w j).sum := by
      apply List.map_congr_left
      intro j hj
      rw [hrestrict g hg w _ (by intro i _ hi; simp [hi])]
      congr 1
      apply List.map_congr_left
      intro i hi
      simp [hi, hj]
    rwa [hcongr] at h
  have hdiag : ∀ i ∈ order, 0 < cov i i := by
    intro i hi
    obtain ⟨s, t, rfl⟩ := List.append_of_mem hi
    have := hgroup [i] ⟨s, t, by simp⟩ (fun _ => 1) ⟨i, by simp, by simp⟩
    simpa using this
  refine ⟨hdiag, fun g hne hg => ?_⟩
  obtain ⟨i0, hi0⟩ := List.exists_mem_of_ne_nil g hne
  have h := hgroup g hg (fun i => 1 / cov i i) ⟨i0, hi0,
    (one_div_pos.2 (hdiag i0 (hg.subset hi0))).ne'⟩
  exact div_pos h (pow_pos (inv_sum_pos cov g hne fun i hi => hdiag i (hg.subset hi)) 2)

/-! ## Two assets, scale, inverse variance weights -/

/-- C81: for two assets the weights are the inverse variance weights. -/
theorem C81_two_assets (cov : ℕ → ℕ → K) (i j : ℕ) (hij : i ≠ j) (hi : 0 < cov i i) (hj : 0 < cov j j) :
    recursiveBisection cov [i, j] =
      .ok [(i, (1 / cov i i) / (1 / cov i i + 1 / cov j j)),
        (j, (1 / cov j j) / (1 / cov i i + 1 / cov j j))] := by
  have hv : ∀ k, 0 < cov k k → clusterVar cov [k] = .ok (cov k k) := by
    intro k hk
    rw [clusterVar_eq cov [k] (by simp) (by simpa using hk)]
    congr 1
    have := hk.ne'
    simp only [groupVar, List.map_cons, List.map_nil, List.sum_cons, List.sum_nil, add_zero]
    field_simp
  have hs : cov i i + cov j j ≠ 0 := (add_pos hi hj).ne'
  have := hi.ne'
  have := hj.ne'
  unfold recursiveBisection
  simp [bisectLoop, halves, pairLoop, splitWeights, hv i hi, hv j hj, hs, scaleLabels, hij, hij.symm]
  constructor
  · field_simp
    ring
  · field_simp
    ring

theorem groupVar_scale (cov : ℕ → ℕ → K) (c : K) (hc : 0 < c) (g : List ℕ) :
    groupVar (fun i j => c * cov i j) g = c * groupVar cov g := by
  have hc' := hc.ne'
  unfold groupVar
  have h1 : (g.map fun i => 1 / (c * cov i i)).sum = (1 / c) * (g.map fun i => 1 / cov i i).sum := by
    rw [← List.sum_map_mul_left]
    congr 1
    apply List.map_congr_left
    intro i _
    rw [one_div_mul_one_div]
  have h2 : (g.map fun j => (g.map fun i =>
      1 / (c * cov i i) * (c * cov i j) * (1 / (c * cov j j))).sum).sum =
      (1 / c) * (g.map fun j => (g.map fun i => 1 / cov i i * cov i j * (1 / cov j j)).sum).sum := by
    rw [← List.sum_map_mul_left]
    congr 1
    apply List.map_congr_left
    intro j _
    rw [← List.sum_map_mul_left]
    congr 1
    apply List.map_congr_left
    intro i _
    rw [← one_div_mul_one_div, ← one_div_mul_one_div]
    field_simp
  rw [h1, h2, mul_pow]
  generalize (g.map fun j => (g.map fun i => 1 / cov i i * cov i j * (1 / cov j j)).sum).sum = A
  generalize (g.map fun i => 1 / cov i i).sum = S
  by_cases hS : S = 0
  · simp [hS]
  · field_simp

theorem Bisect.unique {cov : ℕ → ℕ → K} {w : K} {g : List ℕ} {r r' : List (ℕ × K)}
    (h : Bisect cov w g r) (h' : Bisect cov w g r') : r = r' := by
  induction h generalizing r' with
  | nil w =>
    generalize hg : ([] : List ℕ) = g at h'
    cases h' with
    | nil => rfl
    | one => simp at hg
    | split _ a b _ _ hne => simp at hg; exact absurd hg.1 hne
  | one w i =>
    generalize hg : [i] = g at h'
    cases h' with
    | nil => simp at hg
    | one => simp at hg; subst hg; rfl
    | split _ a b _ _ hne hlen =>
      have := congrArg List.length hg
      have := List.length_pos_of_ne_nil hne
      simp at *
      omega
  | split w a b ra rb hne hlen ha hb iha ihb =>
    generalize hg : a ++ b = g at h'
    cases h' with
    | nil => simp at hg; exact absurd hg.1 hne
    | one =>
      have := congrArg List.length hg
      have := List.length_pos_of_ne_nil hne
      simp at *
      omega
    | split _ a' b' ra' rb' hne' hlen' ha' hb' =>
      have hl := congrArg List.length hg
      simp at hl
      obtain ⟨rfl, rfl⟩ := List.append_inj hg (by omega)
      rw [iha ha', ihb hb']

theorem Bisect.scale {cov : ℕ → ℕ → K} {w c : K} (hc : 0 < c) {g : List ℕ} {r : List (ℕ × K)}
    (h : Bisect cov w g r) : Bisect (fun i j => c * cov i j) w g r := by
  induction h with
  | nil w => exact .nil w
  | one w i => exact .one w i
  | split w a b ra rb hne hlen ha hb iha ihb =>
    refine .split w a b ra rb hne hlen ?_ ?_
    · rw [groupVar_scale cov c hc, groupVar_scale cov c hc, ← mul_add, mul_div_mul_left _ _ hc.ne']
      exact iha
    · rw [groupVar_scale cov c hc, groupVar_scale cov c hc, ← mul_add, mul_div_mul_left _ _ hc.ne']
      exact ihb

/-- C81: multiplying the covariance by a positive constant does not change the weights. -/
theorem C81_scale_free (cov : ℕ → ℕ → K) (c : K) (hc : 0 < c) (order : List ℕ) (hnd : order.Nodup)
    (hpos : PosVar cov order) :
    recursiveBisection (fun i j => c * cov i j) order = recursiveBisection cov order := by
  obtain ⟨ws, h1, -, h3⟩ := C80_bisection cov order hnd hpos
  obtain ⟨ws', g1, -, g3⟩ := C80_bisection (fun i j => c * cov i j) order hnd
    ⟨fun i hi => mul_pos hc (hpos.1 i hi), fun g hne hg => by
      rw [groupVar_scale cov c hc]; exact mul_pos hc (hpos.2 g hne hg)⟩
  rw [h1, g1, (h3.scale hc).unique g3]

/-- C81: the inverse variance weights sum to one, are positive and inversely proportional to the
variances. -/
theorem C81_inverse_variance (cov : ℕ → ℕ → K) (g : List ℕ) (hne : g ≠ []) (hd : ∀ i ∈ g, 0 < cov i i) :
    (inverseVariance cov g).sum = 1 ∧ (∀ w ∈ inverseVariance cov g, 0 < w) ∧
      ∃ c, 0 < c ∧ inverseVariance cov g = g.map fun i => c / cov i i := by
  have hS := inv_sum_pos cov g hne hd
  unfold inverseVariance
  refine ⟨?_, ?_, 1 / (g.map fun i => 1 / cov i i).sum, one_div_pos.2 hS, ?_⟩
  · simp only [div_eq_mul_inv _ (g.map fun i => 1 / cov i i).sum, List.sum_map_mul_right, List.map_id']
    exact mul_inv_cancel₀ hS.ne'
  · simp only [List.map_map, List.mem_map, Function.comp_def]
    rintro _ ⟨i, hi, rfl⟩
    exact div_pos (one_div_pos.2 (hd i hi)) hS
  · simp only [List.map_map, Function.comp_def]
    apply List.map_congr_left
    intro i hi
    have := (hd i hi).ne'
    have := hS.ne'
    field_simp

/-- A covariance matrix of three correlated assets used as an example. -/
def exCov (i j : ℕ) : ℚ := if i = j then (i : ℚ) + 1 else 1 / 2

example : (recursiveBisection exCov [2, 0, 1]).toOption =
    some [(2, 8 / 35), (0, 18 / 35), (1, 9 / 35)] := by decide +kernel

/-- The hypotheses of C80 and C81 hold for it. -/
example : PosVar exCov [2, 0, 1] := by
  apply C80_posVar_of_posDef _ _ (by decide)
  intro w hw
  simp only [exCov, List.map_cons, List.map_nil, List.sum_cons, List.sum_nil]
  norm_num
  have h : w 2 ≠ 0 ∨ w 0 ≠ 0 ∨ w 1 ≠ 0 := by simpa using hw
  have : 0 < w 2 ^ 2 + w 0 ^ 2 + w 1 ^ 2 := by
    rcases h with h | h | h
    · nlinarith [sq_nonneg (w 0), sq_nonneg (w 1), pow_pos (abs_pos.2 h) 2, sq_abs (w 2)]
    · nlinarith [sq_nonneg (w 2), sq_nonneg (w 1), pow_pos (abs_pos.2 h) 2, sq_abs (w 0)]
    · nlinarith [sq_nonneg (w 0), sq_nonneg (w 2), pow_pos (abs_pos.2 h) 2, sq_abs (w 1)]
  nlinarith [sq_nonneg (w 2 + w 0 + w 1), sq_nonneg (w 0), sq_nonneg (w 1), sq_nonneg (w 2)]

/-- Two assets and two observations with positive sample variances, as C78 asks. -/
example : ∀ i < 2, 0 < sampleCov (K := ℝ) [fun i => if i = 0 then 1 else 2,
    fun i => if i = 0 then 3 else 1] i i := by
  intro i hi
  interval_cases i <;> norm_num [sampleCov, colMean]

end FinML.Alloc
