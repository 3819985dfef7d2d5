import Verif.Options.ChainModel
import Verif.Options.BsmLemmas
import Verif.Py.Lemmas
import Mathlib.Data.List.Sort
import Mathlib.Data.List.GetD
import Mathlib.Data.List.ReduceOption
import Mathlib.Algebra.BigOperators.Ring.List
import Mathlib.Algebra.Order.BigOperators.Group.List
import Mathlib.Tactic.FieldSimp
import Mathlib.Tactic.Linarith

/-!
# Implied rates and densities: C111, C144, C145
-/

namespace FinML.Options

open FinML.Filters (npMedian)

/-! ## C111 -/

theorem mem_complete {l : List (Option ℝ × Option ℝ)} {k v : ℝ} : (k, v) ∈ complete l ↔ (some k, some v) ∈ l := by
  unfold complete
  rw [List.mem_filterMap]
  constructor
  · rintro ⟨⟨a, b⟩, h, e⟩
    cases a <;> cases b <;> simp at e
    obtain ⟨rfl, rfl⟩ := e
    exact h
  · intro h
    exact ⟨_, h, rfl⟩

theorem mem_callput {calls puts : List (Option ℝ × Option ℝ)} {k c p : ℝ} :
    (k, c, p) ∈ callput calls puts ↔ (some k, some c) ∈ calls ∧ (some k, some p) ∈ puts := by
  unfold callput
  rw [(List.perm_insertionSort _ _).mem_iff]
  simp only [List.mem_flatMap, List.mem_map, List.mem_filter, decide_eq_true_eq, Prod.mk.injEq, Prod.exists]
  constructor
  · rintro ⟨a, b, h1, a', b', ⟨h2, h3⟩, rfl, rfl, rfl⟩
    subst h3
    exact ⟨mem_complete.1 h1, mem_complete.1 h2⟩
  · rintro ⟨h1, h2⟩
    exact ⟨k, c, mem_complete.2 h1, k, p, ⟨mem_complete.2 h2, rfl⟩, rfl, rfl, rfl⟩

theorem insertionSort_replicate (x : ℝ) (n : ℕ) :
    (List.replicate n x).insertionSort (· ≤ ·) = List.replicate n x :=
  List.Pairwise.insertionSort_eq (by
    rw [List.pairwise_replicate]; exact .inr (le_refl _))

theorem npMedian_replicate (x : ℝ) {n : ℕ} (hn : 0 < n) : npMedian (List.replicate n x) = x := by
  unfold npMedian
  simp only [insertionSort_replicate, List.length_replicate]
  have h1 : n / 2 < n := Nat.div_lt_self hn (by norm_num)
  have h2 : n / 2 - 1 < n := by omega
  rw [List.getD_eq_getElem _ _ (by simpa using h1), List.getD_eq_getElem _ _ (by simpa using h2)]
  simp only [List.getElem_replicate]
  split
  · rfl
  · ring

theorem seriesMedian_replicate (x : ℝ) {n : ℕ} (hn : 0 < n) :
    seriesMedian (List.replicate n (some x)) = some x := by
  have e : (List.replicate n (some x)).reduceOption = List.replicate n x := by
    induction n with
    | zero => rfl
    | succ n ih =>
      rcases Nat.eq_zero_or_pos n with rfl | h
      · rfl
      · simp [List.replicate_succ, List.reduceOption_cons_of_some, ih h]
  unfold seriesMedian
  rw [e, if_neg (by simp; omega), npMedian_replicate x hn]

/-- Quotes that satisfy put-call parity with the rate `r`: every call and put with the same positive
strike differ by the spot less dividends less the discounted strike. -/
def ParityWith (calls puts : List (Option ℝ × Option ℝ)) (s0 t d r : ℝ) : Prop :=
  ∀ k c p : ℝ, (some k, some c) ∈ calls → (some k, some p) ∈ puts →
    0 < k ∧ c - p = s0 - d - k * Real.exp (-(r * t))

/-- C111: every implied rate is the rate of parity, and so is the median; the rates are those of the
strikes quoted on both sides. -/
theorem C111_parity {calls puts : List (Option ℝ × Option ℝ)} {s0 t d r : ℝ} (ht : t ≠ 0)
    (h : ParityWith calls puts s0 t d r) (hne : ∃ k c p : ℝ, (some k, some c) ∈ calls ∧ (some k, some p) ∈ puts) :
    ∃ rates, impliedRiskFreeRate calls puts s0 t d = .ok (some r, rates) ∧
      (∀ x ∈ rates, x.2 = some r) ∧
      (∀ k : ℝ, (∃ v, (k, v) ∈ rates) ↔ ∃ c p : ℝ, (some k, some c) ∈ calls ∧ (some k, some p) ∈ puts) := by
  have hrow : ∀ row ∈ callput calls puts, rfRate s0 t d row = .ok (row.1, some r) := by
    rintro ⟨k, c, p⟩ hrow
    obtain ⟨h1, h2⟩ := mem_callput.1 hrow
    obtain ⟨hk, e⟩ := h k c p h1 h2
    have hx : p + s0 - c - d = k * Real.exp (-(r * t)) := by linarith
    unfold rfRate
    simp only [hx]
    have hpos : 0 < k * Real.exp (-(r * t)) := mul_pos hk (Real.exp_pos _)
    have hq : k * Real.exp (-(r * t)) / k = Real.exp (-(r * t)) := by field_simp
    rw [if_neg (by push Not; exact ⟨hk.ne', ht, hpos.ne'⟩), hq, if_pos (Real.exp_pos _), Real.log_exp]
    congr 3
    field_simp
  have hmap : (callput calls puts).mapM (rfRate s0 t d) =
      .ok ((callput calls puts).map fun row => (row.1, some r)) := by
    rw [mapM_ok_of_forall _ _ _ hrow]
  refine ⟨(callput calls puts).map fun row => (row.1, some r), ?_, ?_, ?_⟩
  · unfold impliedRiskFreeRate
    rw [hmap, py_bind_ok, py_pure, List.map_map]
    congr 2
    obtain ⟨k, c, p, h1, h2⟩ := hne
    have hpos : 0 < (callput calls puts).length := List.length_pos_of_mem (mem_callput.2 ⟨h1, h2⟩)
    have e : (Prod.snd ∘ fun row : ℝ × ℝ × ℝ => (row.1, some r)) = fun _ => some r := rfl
    rw [e, List.map_const', seriesMedian_replicate r hpos]
  · intro x hx
    obtain ⟨row, -, rfl⟩ := List.mem_map.1 hx
    rfl
  · intro k
    constructor
    · rintro ⟨v, hv⟩
      obtain ⟨⟨k', c, p⟩, hrow, e⟩ := List.mem_map.1 hv
      simp only [Prod.mk.injEq] at e
      obtain ⟨rfl, -⟩ := e
      exact ⟨c, p, mem_callput.1 hrow⟩
    · rintro ⟨c, p, hcp⟩
      exact ⟨some r, List.mem_map.2 ⟨_, mem_callput.2 hcp, rfl⟩⟩

/-- C111: without a strike quoted on both sides the median is missing and the series empty. -/
theorem C111_no_common_strike {calls puts : List (Option ℝ × Option ℝ)} {s0 t d : ℝ}
    (h : ¬ ∃ k c p : ℝ, (some k, some c) ∈ calls ∧ (some k, some p) ∈ puts) :
    impliedRiskFreeRate calls puts s0 t d = .ok (none, []) := by
  have e : callput calls puts = [] := by
    rw [List.eq_nil_iff_forall_not_mem]
    rintro ⟨k, c, p⟩ hrow
    exact h ⟨k, c, p, mem_callput.1 hrow⟩
  unfold impliedRiskFreeRate
  rw [e]
  rfl

/-- C111: the rates come in order of strikes. -/
theorem C111_sorted {calls puts : List (Option ℝ × Option ℝ)} {s0 t d : ℝ} {m : Option ℝ}
    {rates : List (ℝ × Option ℝ)} (h : impliedRiskFreeRate calls puts s0 t d = .ok (m, rates)) :
    (rates.map Prod.fst).Pairwise (· ≤ ·) := by
  unfold impliedRiskFreeRate at h
  rw [py_bind_eq_ok] at h
  obtain ⟨rs, h1, h2⟩ := h
  simp only [py_pure, Except.ok.injEq, Prod.mk.injEq] at h2
  obtain ⟨-, rfl⟩ := h2
  have hf : rs.map Prod.fst = (callput calls puts).map Prod.fst := by
    rw [mapM_eq_ok_iff] at h1
    generalize callput calls puts = rows at h1
    induction h1 with
    | nil => rfl
    | cons hab _ ih =>
      simp only [List.map_cons, ih]
      congr 1
      unfold rfRate at hab
      simp only at hab
      split at hab
      · exact absurd hab (by simp)
      · simp only [Except.ok.injEq] at hab
        rw [← hab]
  rw [hf, List.pairwise_map]
  unfold callput
  have : Std.Total fun a b : ℝ × ℝ × ℝ => a.1 ≤ b.1 := ⟨fun a b => le_total _ _⟩
  have : IsTrans (ℝ × ℝ × ℝ) fun a b => a.1 ≤ b.1 := ⟨fun a b c => le_trans⟩
  exact List.pairwise_insertionSort _ _

/-- The hypotheses of C111 can be met: a strike of 100 on both sides and one on one side only. -/
example : ParityWith [(some 100, some 10), (some 120, some 3)] [(some 100, some 10), (some 90, none)] 100 1 0 0 := by
  intro k c p h1 h2
  simp at h1 h2
  rcases h1 with ⟨rfl, rfl⟩ | ⟨rfl, rfl⟩
  · obtain ⟨-, rfl⟩ := h2
    norm_num
  · norm_num at h2

/-! ## C144 -/

/-- What is used of `CubicSpline`: it accepts exactly strictly increasing points with as many values, and
adding a straight line to the values adds it to the curve. -/
structure SplineOk (spline : List ℝ → List ℝ → Py Curve) : Prop where
  accepts : ∀ x y, (x.Pairwise (· < ·) ∧ x.length = y.length ∧ 2 ≤ x.length) → ∃ c, spline x y = .ok c
  rejects : ∀ x y, ¬ (x.Pairwise (· < ·) ∧ x.length = y.length ∧ 2 ≤ x.length) → spline x y = .error .valueError
  affine : ∀ x y c c' (α β : ℝ), spline x y = .ok c →
    spline x (List.zipWith (fun k v => v + (α + β * k)) x y) = .ok c' →
    ∀ z : ℝ, c'.eval z = c.eval z + (α + β * z) ∧ c'.deriv2 z = c.deriv2 z

/-- Two curves, or two failures, with the same second derivative. -/
def SameBend (a b : Py Curve) : Prop :=
  (∃ c c' : Curve, a = .ok c ∧ b = .ok c' ∧ c.deriv2 = c'.deriv2) ∨ ∃ e, a = .error e ∧ b = .error e

theorem spline_sameBend {spline : List ℝ → List ℝ → Py Curve} (h : SplineOk spline) (x y : List ℝ)
    (hl : x.length = y.length) (α β : ℝ) :
    SameBend (spline x (List.zipWith (fun k v => v + (α + β * k)) x y)) (spline x y) := by
  by_cases hv : x.Pairwise (· < ·) ∧ x.length = y.length ∧ 2 ≤ x.length
  · obtain ⟨c, hc⟩ := h.accepts x y hv
    obtain ⟨c', hc'⟩ := h.accepts x (List.zipWith (fun k v => v + (α + β * k)) x y)
      ⟨hv.1, by simp [hl], hv.2.2⟩
    exact .inl ⟨c', c, hc', hc, funext fun z => (h.affine x y c c' α β hc hc' z).2⟩
  · refine .inr ⟨.valueError, h.rejects _ _ ?_, h.rejects _ _ hv⟩
    simpa [hl] using hv

theorem mapM_add (f g : ℝ → Py ℝ) (α β : ℝ) (l : List ℝ)
    (h : ∀ k : ℝ, f k = (g k).map fun v => v + (α + β * k)) :
    l.mapM f = (l.mapM g).map fun vs => List.zipWith (fun k v => v + (α + β * k)) l vs := by
  induction l with
  | nil => rfl
  | cons k l ih =>
    rw [mapM_cons_py, mapM_cons_py, h k, ih]
    cases g k with
    | error e => rfl
    | ok v =>
      cases l.mapM g with
      | error e => rfl
      | ok vs => rfl

theorem bsm_parity_py (s0 k r sigma t : ℝ) :
    bsmOptionPrice .call s0 k r sigma t none 0 false =
      (bsmOptionPrice .put s0 k r sigma t none 0 false).map
        fun p => p.map fun x => x + (s0 + -Real.exp (-r * t) * k) := by
  unfold bsmOptionPrice
  simp only [Option.isSome_none, Bool.false_eq_true, false_and, if_false]
  split
  · rfl
  · simp only [spotLess, yieldUsed, bsmPut_eq, Except.map, Option.map_map]
    congr 1
    simp only [Bool.false_eq_true, if_false]
    cases bsmCall s0 k r sigma t 0 with
    | none => rfl
    | some c =>
      simp only [Option.map_some, Function.comp_apply, Option.some.injEq]
      rw [neg_zero, zero_mul, Real.exp_zero]
      ring

/-- The rows depend on the curve through its second derivative only. -/
theorem discretePdf_congr {spline : List ℝ → List ℝ → Py Curve} {iv : ℝ → (ℝ → Py (Option ℝ)) → Py ℝ}
    {smooth : ℝ → List ℝ → List ℝ} {calls puts : List (ℝ × ℝ)} {t r s0 : ℝ} {n : Option ℤ} {w : Option ℝ}
    {vs : Bool} (hk : calls.map Prod.fst = puts.map Prod.fst)
    (hb : ∀ grid, SameBend (priceCurve spline iv calls t r grid vs s0 .call)
      (priceCurve spline iv puts t r grid vs s0 .put)) :
    impliedDiscretePdf spline iv smooth calls t r n w vs s0 .call =
      impliedDiscretePdf spline iv smooth puts t r n w vs s0 .put := by
  have hl : calls.length = puts.length := by simpa using congrArg List.length hk
  unfold impliedDiscretePdf
  by_cases hc : calls = []
  · have : puts = [] := by rw [hc] at hl; exact List.length_eq_zero_iff.1 hl.symm
    rw [if_pos hc, if_pos this]
  · have : puts ≠ [] := by rintro rfl; exact hc (List.length_eq_zero_iff.1 hl)
    rw [if_neg hc, if_neg this, hk, hl]
    congr 1; funext lo
    congr 1; funext hi
    congr 1; funext grid
    rcases hb grid with ⟨c, c', h1, h2, h3⟩ | ⟨e, h1, h2⟩
    · rw [h1, h2, py_bind_ok, py_bind_ok, h3]
    · rw [h1, h2]

/-- C144: calls and puts whose prices differ by a straight line in the strike, as under put-call parity,
imply the same density. -/
theorem C144_same_density {spline : List ℝ → List ℝ → Py Curve} (hS : SplineOk spline)
    (iv : ℝ → (ℝ → Py (Option ℝ)) → Py ℝ) (smooth : ℝ → List ℝ → List ℝ) (puts : List (ℝ × ℝ))
    (t r s0 α β : ℝ) (n : Option ℤ) (w : Option ℝ) :
    impliedDiscretePdf spline iv smooth (puts.map fun p => (p.1, p.2 + (α + β * p.1))) t r n w false s0 .call =
      impliedDiscretePdf spline iv smooth puts t r n w false s0 .put := by
  apply discretePdf_congr
  · simp
  · intro grid
    simp only [priceCurve, Bool.false_eq_true, if_false, List.map_map, Function.comp_def]
    have := spline_sameBend hS (puts.map Prod.fst) (puts.map Prod.snd) (by simp) α β
    simpa [List.zipWith_map, List.zipWith_self] using this

/-- C144: the same in the space of implied volatilities, for quotes under parity without dividends. -/
theorem C144_same_density_volatility {spline : List ℝ → List ℝ → Py Curve} (hS : SplineOk spline)
    (iv : ℝ → (ℝ → Py (Option ℝ)) → Py ℝ)
    (hiv : ∀ (v c : ℝ) (f : ℝ → Py (Option ℝ)), iv (v + c) (fun x => (f x).map fun p => p.map (· + c)) = iv v f)
    (smooth : ℝ → List ℝ → List ℝ) (puts : List (ℝ × ℝ)) (t r s0 : ℝ) (n : Option ℤ) (w : Option ℝ) :
    impliedDiscretePdf spline iv smooth (puts.map fun p => (p.1, p.2 + (s0 - p.1 * Real.exp (-r * t))))
        t r n w true s0 .call =
      impliedDiscretePdf spline iv smooth puts t r n w true s0 .put := by
  apply discretePdf_congr
  · simp
  · intro grid
    simp only [priceCurve, if_true, List.map_map, Function.comp_def]
    have e1 : (puts.map fun p : ℝ × ℝ => (p.1, p.2 + (s0 - p.1 * Real.exp (-r * t)))).mapM
        (fun o : ℝ × ℝ => iv o.2 fun sigma => bsmOptionPrice .call s0 o.1 r sigma t none 0 false) =
        puts.mapM fun o : ℝ × ℝ => iv o.2 fun sigma => bsmOptionPrice .put s0 o.1 r sigma t none 0 false := by
      rw [List.mapM_map]
      congr 1
      funext o
      simp only [Function.comp_apply]
      rw [← hiv o.2 (s0 - o.1 * Real.exp (-r * t))]
      congr 1
      funext sigma
      rw [bsm_parity_py]
      congr 2
      funext x
      congr 1
      funext y
      ring
    rw [e1]
    cases puts.mapM fun o : ℝ × ℝ => iv o.2 fun sigma => bsmOptionPrice .put s0 o.1 r sigma t none 0 false with
    | error e => exact .inr ⟨e, rfl, rfl⟩
    | ok vols =>
      rw [py_bind_ok, py_bind_ok]
      cases spline (puts.map fun x => x.1) vols with
      | error e => exact .inr ⟨e, rfl, rfl⟩
      | ok ivc =>
        rw [py_bind_ok, py_bind_ok]
        rw [mapM_add (fun k => bsmOptionPrice .call s0 k r (ivc.eval k) t none 0 false >>= finite)
          (fun k => bsmOptionPrice .put s0 k r (ivc.eval k) t none 0 false >>= finite) s0 (-Real.exp (-r * t)) grid]
        · cases hg : grid.mapM fun k => bsmOptionPrice .put s0 k r (ivc.eval k) t none 0 false >>= finite with
          | error e => exact .inr ⟨e, rfl, rfl⟩
          | ok prices =>
            have hlen : grid.length = prices.length := ((mapM_eq_ok_iff _ _ _).1 hg).length_eq
            exact spline_sameBend hS grid prices hlen s0 (-Real.exp (-r * t))
        · intro k
          rw [bsm_parity_py]
          cases bsmOptionPrice .put s0 k r (ivc.eval k) t none 0 false with
          | error e => rfl
          | ok p => cases p <;> rfl

/-- The code's `implied_volatility` meets the hypothesis on `iv`: it uses the difference of the prices
only. -/
theorem C144_implied_volatility (brentq : (ℝ → Py (Option ℝ)) → ℝ → ℝ → ℕ → Py ℝ) (lo hi : ℝ) (m : ℕ)
    (v c : ℝ) (f : ℝ → Py (Option ℝ)) :
    impliedVolatility brentq (v + c) (fun x => (f x).map fun p => p.map (· + c)) lo hi m =
      impliedVolatility brentq v f lo hi m := by
  unfold impliedVolatility
  congr 1
  funext sigma
  simp only
  cases f sigma with
  | error e => rfl
  | ok p =>
    cases p with
    | none => rfl
    | some x => simp [Except.map]

/-- The contract of the spline can be met, here by the line through the first two points. -/
example : ∃ spline : List ℝ → List ℝ → Py Curve, SplineOk spline := by
  classical
  refine ⟨fun x y => if x.Pairwise (· < ·) ∧ x.length = y.length ∧ 2 ≤ x.length then
    .ok ⟨fun z => y.getD 0 0 + (y.getD 1 0 - y.getD 0 0) / (x.getD 1 0 - x.getD 0 0) * (z - x.getD 0 0), fun _ => 0⟩
    else .error .valueError, ⟨fun x y h => ⟨_, if_pos h⟩, fun x y h => if_neg h, ?_⟩⟩
  intro x y c c' α β h h' z
  split at h
  · next hv =>
    split at h'
    · next hv' =>
      obtain ⟨a, b, l, rfl⟩ : ∃ a b l, x = a :: b :: l := by
        match x, hv.2.2 with
        | a :: b :: l, _ => exact ⟨a, b, l, rfl⟩
      obtain ⟨u, v, m, rfl⟩ : ∃ u v m, y = u :: v :: m := by
        match y, hv.2.1 with
        | u :: v :: m, _ => exact ⟨u, v, m, rfl⟩
      have hab : a < b := by
        have := hv.1
        rw [List.pairwise_cons] at this
        exact this.1 b (by simp)
      have hne : b - a ≠ 0 := (sub_pos.2 hab).ne'
      simp only [Except.ok.injEq] at h h'
      subst h h'
      simp only [List.zipWith_cons_cons, List.getD_cons_zero, List.getD_cons_succ]
      refine ⟨?_, trivial⟩
      field_simp
      ring
    · exact absurd h' (by simp)
  · exact absurd h (by simp)

/-! ## C145 -/

theorem linspace_mem {a b : ℝ} (hab : a ≤ b) {n : ℤ} {g : List ℝ} (h : linspace a b n = .ok g) :
    g.length = n.toNat ∧ ∀ x ∈ g, a ≤ x ∧ x ≤ b := by
  unfold linspace at h
  split at h
  · exact absurd h (by simp)
  · simp only [Except.ok.injEq] at h
    subst h
    refine ⟨by simp, fun x hx => ?_⟩
    obtain ⟨i, hi, rfl⟩ := List.mem_map.1 hx
    have hi' : i < n.toNat := List.mem_range.1 hi
    have hd : 0 ≤ b - a := by linarith
    rcases Nat.lt_or_ge 1 n.toNat with h1 | h1
    · have h2 : (0 : ℝ) < (n.toNat : ℝ) - 1 := by
        have : (1 : ℝ) < (n.toNat : ℝ) := by exact_mod_cast h1
        linarith
      have h3 : (i : ℝ) ≤ (n.toNat : ℝ) - 1 := by
        have : ((i + 1 : ℕ) : ℝ) ≤ (n.toNat : ℝ) := by exact_mod_cast hi'
        push_cast at this
        linarith
      have h4 : 0 ≤ (b - a) / ((n.toNat : ℝ) - 1) := div_nonneg hd h2.le
      have h5 := mul_le_mul_of_nonneg_right h3 h4
      have h6 : ((n.toNat : ℝ) - 1) * ((b - a) / ((n.toNat : ℝ) - 1)) = b - a := by field_simp
      have h7 : 0 ≤ (i : ℝ) * ((b - a) / ((n.toNat : ℝ) - 1)) := mul_nonneg (by positivity) h4
      constructor <;> linarith
    · have : i = 0 := by omega
      subst this
      simp only [Nat.cast_zero, zero_mul, add_zero]
      exact ⟨le_refl _, hab⟩

theorem linspace_pairwise {a b : ℝ} (hab : a < b) {n : ℤ} {g : List ℝ} (h : linspace a b n = .ok g) :
    g.Pairwise (· < ·) := by
  unfold linspace at h
  split at h
  · exact absurd h (by simp)
  · simp only [Except.ok.injEq] at h
    subst h
    rw [List.pairwise_map]
    rcases Nat.lt_or_ge 1 n.toNat with h1 | h1
    · have h2 : (0 : ℝ) < (n.toNat : ℝ) - 1 := by
        have : (1 : ℝ) < (n.toNat : ℝ) := by exact_mod_cast h1
        linarith
      have h4 : 0 < (b - a) / ((n.toNat : ℝ) - 1) := div_pos (by linarith) h2
      refine (List.pairwise_lt_range).imp fun {i j} hij => ?_
      have : (i : ℝ) < (j : ℝ) := by exact_mod_cast hij
      have := mul_lt_mul_of_pos_right this h4
      linarith
    · have : n.toNat = 0 ∨ n.toNat = 1 := by omega
      rcases this with e | e <;> rw [e] <;> simp

/-- C145: without smoothing, the rows are at most as many as asked for (three per quote by default), their
strikes increase and are within the quoted strikes, the densities are not negative, and each is
`exp(r t)` times the second derivative of one curve. -/
theorem C145_rows {spline : List ℝ → List ℝ → Py Curve} {iv : ℝ → (ℝ → Py (Option ℝ)) → Py ℝ}
    {smooth : ℝ → List ℝ → List ℝ} {options rows : List (ℝ × ℝ)} {t r s0 : ℝ} {n : Option ℤ}
    {vs : Bool} {ot : OptionType} (hinc : (options.map Prod.fst).Pairwise (· < ·))
    (h : impliedDiscretePdf spline iv smooth options t r n none vs s0 ot = .ok rows) :
    (rows.length : ℤ) ≤ max 0 (n.getD (3 * options.length)) ∧ (rows.map Prod.fst).Pairwise (· ≤ ·) ∧
    (2 ≤ options.length → (rows.map Prod.fst).Pairwise (· < ·)) ∧
    ∃ curve : Curve, ∀ x ∈ rows, 0 ≤ x.2 ∧ x.2 = Real.exp (r * t) * curve.deriv2 x.1 ∧
      (∃ lo ∈ options, lo.1 ≤ x.1) ∧ ∃ hi ∈ options, x.1 ≤ hi.1 := by
  unfold impliedDiscretePdf at h
  split at h
  · simp only [Except.ok.injEq] at h
    subst h
    exact ⟨by simp, by simp, by simp, ⟨fun _ => 0, fun _ => 0⟩, by simp⟩
  · next hne =>
    rw [py_bind_eq_ok] at h
    obtain ⟨lo, hlo, h⟩ := h
    rw [py_bind_eq_ok] at h
    obtain ⟨hi, hhi, h⟩ := h
    rw [py_bind_eq_ok] at h
    obtain ⟨grid, hgrid, h⟩ := h
    rw [py_bind_eq_ok] at h
    obtain ⟨curve, hcurve, h⟩ := h
    simp only [py_pure, Except.ok.injEq] at h
    have hlo' := (npMin_eq_ok_iff _ _).1 hlo
    have hhi' := (npMax_eq_ok_iff _ _).1 hhi
    have hle : lo ≤ hi := hlo'.2 hhi'.1
    obtain ⟨hlen, hmem⟩ := linspace_mem hle hgrid
    have hsub : rows.Sublist (grid.map fun k : ℝ => (k, Real.exp (r * t) * curve.deriv2 k)) := by
      rw [← h]; exact List.filter_sublist
    have hsub' : (rows.map Prod.fst).Sublist grid := by
      have := hsub.map Prod.fst
      rwa [List.map_map, show (Prod.fst ∘ fun k : ℝ => (k, Real.exp (r * t) * curve.deriv2 k)) = id from rfl,
        List.map_id] at this
    refine ⟨?_, ?_, ?_, curve, ?_⟩
    · have := hsub'.length_le
      rw [List.length_map, hlen, mul_comm] at this
      omega
    · rcases hle.lt_or_eq with hlt | heq
      · exact (List.Pairwise.sublist hsub' (linspace_pairwise hlt hgrid)).imp fun h => h.le
      · refine List.Pairwise.sublist hsub' (List.pairwise_of_forall_mem_list fun a ha b hb => ?_)
        have h1 := hmem a ha
        have h2 := hmem b hb
        linarith
    · intro h2
      have hlt : lo < hi := by
        refine lt_of_le_of_ne hle fun heq => ?_
        match options, h2 with
        | a :: b :: l, _ =>
          have h3 : a.1 < b.1 := by
            simp only [List.map_cons, List.pairwise_cons] at hinc
            exact hinc.1 b.1 (by simp)
          have h4 : lo ≤ a.1 := hlo'.2 (by simp)
          have h5 : b.1 ≤ hi := hhi'.2 (by simp)
          linarith
      exact List.Pairwise.sublist hsub' (linspace_pairwise hlt hgrid)
    · intro x hx
      rw [← h, List.mem_filter, decide_eq_true_eq] at hx
      obtain ⟨hx1, hx2⟩ := hx
      obtain ⟨k, hk, rfl⟩ := List.mem_map.1 hx1
      obtain ⟨a, ha, ha'⟩ := List.mem_map.1 hlo'.1
      obtain ⟨b, hb, hb'⟩ := List.mem_map.1 hhi'.1
      exact ⟨hx2, rfl, ⟨a, ha, by rw [ha']; exact (hmem k hk).1⟩, b, hb, by rw [hb']; exact (hmem k hk).2⟩

/-- The curve that is differentiated: through the quotes themselves, or through the Black-Scholes-Merton prices at the strikes
of the grid, with volatilities read off the curve through the implied volatilities of the quotes. -/
def PricedBy (spline : List ℝ → List ℝ → Py Curve) (iv : ℝ → (ℝ → Py (Option ℝ)) → Py ℝ) (options : List (ℝ × ℝ))
    (t r s0 : ℝ) (ot : OptionType) (grid : List ℝ) (vs : Bool) (curve : Curve) : Prop :=
  (vs = false ∧ spline (options.map Prod.fst) (options.map Prod.snd) = .ok curve) ∨
  (vs = true ∧ ∃ (vols prices : List ℝ) (volCurve : Curve),
    List.Forall₂ (fun (o : ℝ × ℝ) v => iv o.2 (fun sigma => bsmOptionPrice ot s0 o.1 r sigma t none 0 false) = .ok v)
      options vols ∧
    spline (options.map Prod.fst) vols = .ok volCurve ∧
    List.Forall₂ (fun k p => bsmOptionPrice ot s0 k r (volCurve.eval k) t none 0 false = .ok (some p)) grid prices ∧
    spline grid prices = .ok curve)

theorem priceCurve_iff (spline : List ℝ → List ℝ → Py Curve) (iv : ℝ → (ℝ → Py (Option ℝ)) → Py ℝ)
    (options : List (ℝ × ℝ)) (t r s0 : ℝ) (ot : OptionType) (grid : List ℝ) (vs : Bool) (curve : Curve) :
    priceCurve spline iv options t r grid vs s0 ot = .ok curve ↔ PricedBy spline iv options t r s0 ot grid vs curve := by
  have hfin : ∀ (x : Py (Option ℝ)) (p : ℝ), (x >>= finite) = .ok p ↔ x = .ok (some p) := by
    intro x p
    rw [py_bind_eq_ok]
    constructor
    · rintro ⟨a, rfl, h⟩
      cases a with
      | none => cases h
      | some v =>
        cases h
        rfl
    · rintro rfl
      exact ⟨some p, rfl, rfl⟩
  unfold priceCurve PricedBy
  cases vs with
  | false => simp
  | true =>
    simp only [if_true, py_bind_eq_ok, mapM_eq_ok_iff, hfin, Bool.true_eq_false, false_and, false_or, true_and]
    constructor
    · rintro ⟨vols, h1, vc, h2, prices, h3, h4⟩
      exact ⟨vols, prices, vc, h1, h2, h3, h4⟩
    · rintro ⟨vols, prices, vc, h1, h2, h3, h4⟩
      exact ⟨vols, h1, vc, h2, prices, h3, h4⟩

/-- C145: what the call returns without smoothing, and when: the strikes are evenly spaced from the lowest to the highest
quoted one, as many as asked for or three per quote; the density at a strike is `exp(r t)` times the second derivative of the
curve through the quotes, or through the prices at interpolated volatilities; strikes with a negative density are left out. -/
theorem C145_density (spline : List ℝ → List ℝ → Py Curve) (iv : ℝ → (ℝ → Py (Option ℝ)) → Py ℝ)
    (smooth : ℝ → List ℝ → List ℝ) (options rows : List (ℝ × ℝ)) (t r s0 : ℝ) (n : Option ℤ) (vs : Bool)
    (ot : OptionType) (lo hi : ℝ) (hlo : IsLeast {k | ∃ o ∈ options, o.1 = k} lo)
    (hhi : IsGreatest {k | ∃ o ∈ options, o.1 = k} hi) :
    impliedDiscretePdf spline iv smooth options t r n none vs s0 ot = .ok rows ↔
      0 ≤ n.getD (3 * options.length) ∧ ∃ (grid : List ℝ) (curve : Curve),
        (grid.length : ℤ) = n.getD (3 * options.length) ∧
        (∀ (i : ℕ) (h : i < grid.length), grid[i] = lo + i * (hi - lo) / (grid.length - 1)) ∧
        PricedBy spline iv options t r s0 ot grid vs curve ∧
        rows = (grid.filter fun k => 0 ≤ curve.deriv2 k).map fun k => (k, Real.exp (r * t) * curve.deriv2 k) := by
  have hne : options ≠ [] := by
    rintro rfl
    simpa using hlo.1
  have h1 : npMin (options.map Prod.fst) = .ok lo := by
    rw [npMin_eq_ok_iff]
    simpa [List.mem_map] using hlo
  have h2 : npMax (options.map Prod.fst) = .ok hi := by
    rw [npMax_eq_ok_iff]
    simpa [List.mem_map] using hhi
  have h3 : ∀ (grid : List ℝ) (curve : Curve),
      ((grid.map fun k : ℝ => (k, Real.exp (r * t) * curve.deriv2 k)).filter fun x : ℝ × ℝ => decide (0 ≤ x.2)) =
      (grid.filter fun k => 0 ≤ curve.deriv2 k).map fun k => (k, Real.exp (r * t) * curve.deriv2 k) := by
    intro grid curve
    rw [List.filter_map]
    congr 1
    apply List.filter_congr
    intro k _
    simp only [Function.comp_apply, decide_eq_decide]
    rw [mul_nonneg_iff_of_pos_left (Real.exp_pos _)]
  unfold impliedDiscretePdf
  rw [if_neg hne, h1, py_bind_ok, h2, py_bind_ok, mul_comm (options.length : ℤ) 3]
  generalize n.getD (3 * (options.length : ℤ)) = num
  unfold linspace
  by_cases hn : num < 0
  · rw [if_pos hn]
    constructor
    · intro h
      cases h
    · intro h
      omega
  · rw [if_neg hn, py_bind_ok]
    push Not at hn
    generalize hg : (List.range num.toNat).map (fun i : ℕ => lo + (i : ℝ) * ((hi - lo) / ((num.toNat : ℝ) - 1))) = g
    have hgl : g.length = num.toNat := by
      rw [← hg]
      simp
    constructor
    · intro h
      obtain ⟨curve, hc, h⟩ := py_bind_eq_ok.1 h
      simp only [py_pure, Except.ok.injEq] at h
      refine ⟨hn, g, curve, by omega, ?_, (priceCurve_iff ..).1 hc, ?_⟩
      · intro i hi'
        simp only [← hg, List.getElem_map, List.getElem_range, List.length_map, List.length_range, mul_div_assoc]
      · rw [← h, h3]
    · rintro ⟨-, grid, curve, hl, hgrid, hp, rfl⟩
      have : grid = g := by
        apply List.ext_getElem
        · omega
        · intro i a b
          rw [hgrid i a]
          have : grid.length = num.toNat := by omega
          simp only [← hg, List.getElem_map, List.getElem_range, this, mul_div_assoc]
      subst this
      rw [(priceCurve_iff ..).2 hp, py_bind_ok]
      simp only [py_pure, h3]

/-- C145: with smoothing, the strikes are those of the result without, and the densities are smoothed together. -/
theorem C145_smoothed (spline : List ℝ → List ℝ → Py Curve) (iv : ℝ → (ℝ → Py (Option ℝ)) → Py ℝ)
    (smooth : ℝ → List ℝ → List ℝ) (options : List (ℝ × ℝ)) (hne : options ≠ []) (t r s0 w : ℝ) (n : Option ℤ)
    (vs : Bool) (ot : OptionType) :
    impliedDiscretePdf spline iv smooth options t r n (some w) vs s0 ot =
      (impliedDiscretePdf spline iv smooth options t r n none vs s0 ot).map fun rows =>
        (rows.map Prod.fst).zip (smooth w (rows.map Prod.snd)) := by
  unfold impliedDiscretePdf
  rw [if_neg hne, if_neg hne]
  cases npMin (options.map Prod.fst) with
  | error e => rfl
  | ok lo =>
    cases npMax (options.map Prod.fst) with
    | error e => rfl
    | ok hi =>
      simp only [py_bind_ok]
      cases linspace lo hi (n.getD ((options.length : ℤ) * 3)) with
      | error e => rfl
      | ok grid =>
        simp only [py_bind_ok]
        cases priceCurve spline iv options t r grid vs s0 ot <;> rfl

/-- C145: the strikes are drawn with probabilities that are not negative, sum to 1 and are proportional to
the densities of calls and puts together.  The rate is the given one, and only without one that
estimated from calls and puts. -/
theorem C145_weights {Q : Type} {rate : Q → Q → ℝ → Py (Option ℝ)}
    {pdf : OptionType → Q → ℝ → Py (List (ℝ × ℝ))} {calls puts : Option Q} {r s0 : Option ℝ}
    {ws : List (ℝ × ℝ)} {r' : ℝ} (h : samplingWeights rate pdf calls puts r s0 = .ok (ws, r'))
    (hnn : ∀ ot c r rows, pdf ot c r = .ok rows → ∀ x ∈ rows, 0 ≤ x.2) :
    ∃ pc pp : List (ℝ × ℝ),
      (∀ c, calls = some c → pdf .call c r' = .ok pc) ∧ (calls = none → pc = []) ∧
      (∀ p, puts = some p → pdf .put p r' = .ok pp) ∧ (puts = none → pp = []) ∧
      ws.map Prod.fst = (pc ++ pp).map Prod.fst ∧
      (∃ total, 0 < total ∧ (pc ++ pp).map Prod.snd = ws.map fun x => total * x.2) ∧
      (∀ x ∈ ws, 0 ≤ x.2) ∧ (ws.map Prod.snd).sum = 1 ∧
      (∀ x, r = some x → r' = x) ∧
      (r = none → ∃ c p s, calls = some c ∧ puts = some p ∧ s0 = some s ∧
        rate c p s = .ok (some r')) := by
  unfold samplingWeights at h
  rw [py_bind_eq_ok] at h
  obtain ⟨r1, hr, h⟩ := h
  rw [py_bind_eq_ok] at h
  obtain ⟨pc, hpc, h⟩ := h
  rw [py_bind_eq_ok] at h
  obtain ⟨pp, hpp, h⟩ := h
  split at h
  · exact absurd h (by simp)
  · simp only at h
    split at h
    · exact absurd h (by simp)
    · next ht =>
      simp only [py_pure, Except.ok.injEq, Prod.mk.injEq] at h
      obtain ⟨rfl, rfl⟩ := h
      have hall : ∀ x ∈ pc ++ pp, 0 ≤ x.2 := by
        intro x hx
        rcases List.mem_append.1 hx with hx | hx
        · cases calls with
          | none => simp only [sideRows, Except.ok.injEq] at hpc; subst hpc; simp at hx
          | some c => exact hnn _ _ _ _ hpc x hx
        · cases puts with
          | none => simp only [sideRows, Except.ok.injEq] at hpp; subst hpp; simp at hx
          | some c => exact hnn _ _ _ _ hpp x hx
      have hpos : 0 < ((pc ++ pp).map Prod.snd).sum := by
        refine lt_of_le_of_ne (List.sum_nonneg fun y hy => ?_) (Ne.symm ht)
        obtain ⟨x, hx, rfl⟩ := List.mem_map.1 hy
        exact hall x hx
      refine ⟨pc, pp, ?_, ?_, ?_, ?_, ?_, ⟨_, hpos, ?_⟩, ?_, ?_, ?_, ?_⟩
      · rintro c rfl; exact hpc
      · rintro rfl; simp only [sideRows, Except.ok.injEq] at hpc; exact hpc.symm
      · rintro c rfl; exact hpp
      · rintro rfl; simp only [sideRows, Except.ok.injEq] at hpp; exact hpp.symm
      · rw [List.map_map]; rfl
      · rw [List.map_map]
        apply List.map_congr_left
        intro x _
        simp only [Function.comp_apply]
        field_simp
      · intro x hx
        obtain ⟨y, hy, rfl⟩ := List.mem_map.1 hx
        exact div_nonneg (hall y hy) hpos.le
      · rw [List.map_map]
        have e : (Prod.snd ∘ fun x : ℝ × ℝ => (x.1, x.2 / ((pc ++ pp).map Prod.snd).sum)) =
            fun x : ℝ × ℝ => x.2 * (((pc ++ pp).map Prod.snd).sum)⁻¹ := by
          funext x; simp [div_eq_mul_inv]
        rw [e, List.sum_map_mul_right]
        exact mul_inv_cancel₀ hpos.ne'
      · rintro x rfl
        simp only [rateUsed, Except.ok.injEq] at hr
        exact hr.symm
      · rintro rfl
        cases s0 with
        | none => simp [rateUsed] at hr
        | some s =>
          cases puts with
          | none => simp [rateUsed] at hr
          | some p =>
            cases calls with
            | none => simp [rateUsed] at hr
            | some c =>
              simp only [rateUsed] at hr
              obtain ⟨v, hv, hr⟩ := py_bind_eq_ok.1 hr
              cases v with
              | none => simp [finite] at hr
              | some v =>
                simp only [finite, Except.ok.injEq] at hr
                subst hr
                exact ⟨c, p, s, rfl, rfl, rfl, hv⟩

/-- C145: with a given rate, quotes on some side and densities that do not vanish together, the call returns. -/
theorem C145_returns {Q : Type} (rate : Q → Q → ℝ → Py (Option ℝ)) (pdf : OptionType → Q → ℝ → Py (List (ℝ × ℝ)))
    (calls puts : Option Q) (r : ℝ) (s0 : Option ℝ) (hq : calls ≠ none ∨ puts ≠ none) (pc pp : List (ℝ × ℝ))
    (hc : ∀ c, calls = some c → pdf .call c r = .ok pc) (hc' : calls = none → pc = [])
    (hp : ∀ p, puts = some p → pdf .put p r = .ok pp) (hp' : puts = none → pp = [])
    (hnn : ∀ x ∈ pc ++ pp, 0 ≤ x.2) (hpos : ∃ x ∈ pc ++ pp, 0 < x.2) :
    ∃ ws, samplingWeights rate pdf calls puts (some r) s0 = .ok (ws, r) := by
  have e1 : sideRows (pdf .call) r calls = .ok pc := by
    cases calls with
    | none => rw [hc' rfl]; rfl
    | some c => exact hc c rfl
  have e2 : sideRows (pdf .put) r puts = .ok pp := by
    cases puts with
    | none => rw [hp' rfl]; rfl
    | some c => exact hp c rfl
  have hsum : ((pc ++ pp).map Prod.snd).sum ≠ 0 := by
    obtain ⟨x, hx, hx0⟩ := hpos
    have := List.single_le_sum (l := (pc ++ pp).map Prod.snd) (by
      intro y hy
      obtain ⟨z, hz, rfl⟩ := List.mem_map.1 hy
      exact hnn z hz) x.2 (List.mem_map_of_mem hx)
    exact (lt_of_lt_of_le hx0 this).ne'
  unfold samplingWeights
  have e0 : rateUsed rate calls puts (some r) s0 = .ok r := by cases s0 <;> rfl
  rw [e0, py_bind_ok, e1, py_bind_ok, e2, py_bind_ok, if_neg (by
    rintro ⟨a, b⟩
    rcases hq with h | h
    · exact h (Option.isNone_iff_eq_none.1 a)
    · exact h (Option.isNone_iff_eq_none.1 b))]
  simp only [if_neg hsum]
  exact ⟨_, rfl⟩

/-- C145: what is missing is reported: the rate cannot be estimated without a spot price or without puts,
and there is nothing to do without any quotes. -/
theorem C145_missing {Q : Type} (rate : Q → Q → ℝ → Py (Option ℝ))
    (pdf : OptionType → Q → ℝ → Py (List (ℝ × ℝ))) (calls puts : Option Q) (s0 : Option ℝ) :
    samplingWeights rate pdf calls puts none none = .error .valueError ∧
    samplingWeights rate pdf calls none none s0 = .error .valueError ∧
    (∀ r, samplingWeights rate pdf none none (some r) s0 = .error .exception) := by
  refine ⟨rfl, ?_, fun r => ?_⟩
  · cases s0 <;> rfl
  · simp [samplingWeights, rateUsed, sideRows]

end FinML.Options
