import Verif.Metrics.Model
import Verif.Py.Lemmas
import Mathlib.Tactic.Linarith
import Mathlib.Tactic.FieldSimp
import Mathlib.Tactic.Ring
import Mathlib.Tactic.NormNum
import Mathlib.Algebra.Order.BigOperators.Group.List
import Mathlib.Algebra.BigOperators.Ring.List
import Mathlib.Data.Rat.Floor

/-! # Time weighted return and concentration (C93, C94, C139) -/

set_option linter.unusedSectionVars false

namespace FinML.Metrics

variable {K : Type} [Field K] [LinearOrder K] [IsStrictOrderedRing K]

/-! ## Time weighted return -/

/-- The rows of a portfolio worth `v` at the first flow: after a flow `c` it grows by the factor `g`
until the next flow. -/
def portfolio (v : K) : List (K × K) → K → List (K × K)
  | [], last => [(v, last)]
  | (c, g) :: rest, last => (v, c) :: portfolio ((v + c) * g) rest last

/-- No balance after a flow is 0 (the balance after the last flow does not matter). -/
def Invested (v : K) : List (K × K) → Prop
  | [] => True
  | (c, g) :: rest => v + c ≠ 0 ∧ Invested ((v + c) * g) rest

theorem portfolio_cons (v : K) (fl : List (K × K)) (last : K) :
    ∃ c rest, portfolio v fl last = (v, c) :: rest := by
  cases fl with
  | nil => exact ⟨last, [], rfl⟩
  | cons x fl => obtain ⟨c, g⟩ := x; exact ⟨c, _, rfl⟩

theorem twr_rets (fl : List (K × K)) : ∀ (v last : K), Invested v fl →
    twrReturns (portfolio v fl last) = .ok (none :: fl.map fun x => some (x.2 - 1)) := by
  induction fl with
  | nil => intro v last _; rfl
  | cons x fl ih =>
    intro v last hi
    obtain ⟨c, g⟩ := x
    obtain ⟨h0, hi⟩ := hi
    have hrec := ih ((v + c) * g) last hi
    obtain ⟨c', rest, hp⟩ := portfolio_cons ((v + c) * g) fl last
    simp only [portfolio] at hrec ⊢
    rw [hp] at hrec ⊢
    simp only [twrReturns, List.zip_cons_cons, mapM_cons_py] at hrec ⊢
    rw [if_neg h0]
    have e : ((v + c) * g - (v + c)) / (v + c) = g - 1 := by field_simp
    rw [e]
    cases hm : (rest.zip (((v + c) * g, c') :: rest)).mapM fun x =>
      (if x.2.1 + x.2.2 = 0 then (throw .unmodelled : Py (Option K))
        else return some ((x.1.1 - (x.2.1 + x.2.2)) / (x.2.1 + x.2.2))) with
    | error e => rw [hm] at hrec; simp [py_bind_error] at hrec
    | ok r =>
      rw [hm] at hrec
      simp only [py_bind_ok, py_pure, Except.ok.injEq, List.cons.injEq, true_and] at hrec ⊢
      rw [hrec]; rfl

/-- C93: if the portfolio grows by `g` after each flow, the time weighted return is the product of the
factors less one, whatever the flows. -/
theorem C93_time_weighted (v last : K) (fl : List (K × K)) (h : Invested v fl) :
    timeWeightedReturn (portfolio v fl last) = .ok ((fl.map Prod.snd).prod - 1) := by
  unfold timeWeightedReturn
  rw [twr_rets fl v last h]
  simp only [py_bind_ok, py_pure]
  congr 3
  simp [List.filterMap_map, Function.comp_def, List.map_map]

/-- Every table of flows with non-zero balances arises from growth factors. -/
theorem C93_covers (rows : List (K × K)) (hne : rows ≠ [])
    (h : ∀ r ∈ rows.dropLast, r.1 + r.2 ≠ 0) :
    ∃ v fl last, rows = portfolio v fl last ∧ Invested v fl := by
  induction rows with
  | nil => exact absurd rfl hne
  | cons r rows ih =>
    obtain ⟨v, c⟩ := r
    cases rows with
    | nil => exact ⟨v, [], c, rfl, trivial⟩
    | cons r' rows =>
      obtain ⟨v', fl, last, e, hi⟩ := ih (by simp) fun r hr => h r (by simp [List.dropLast] at hr ⊢; tauto)
      have h0 : v + c ≠ 0 := h (v, c) (by simp [List.dropLast])
      refine ⟨v, (c, v' / (v + c)) :: fl, last, ?_, h0, ?_⟩
      · simp only [portfolio, mul_div_cancel₀ _ h0, e]
      · simp only [mul_div_cancel₀ _ h0]; exact hi

/-- C93: two histories with the same growth have the same return. -/
theorem C93_flows_do_not_matter (v v' last last' : K) (fl fl' : List (K × K)) (h : Invested v fl)
    (h' : Invested v' fl') (hg : fl.map Prod.snd = fl'.map Prod.snd) :
    timeWeightedReturn (portfolio v fl last) = timeWeightedReturn (portfolio v' fl' last') := by
  rw [C93_time_weighted _ _ _ h, C93_time_weighted _ _ _ h', hg]

example : timeWeightedReturn ([(100, 50), (300, -100), (100, 7)] : List (ℚ × ℚ)) = .ok 0 := by
  decide +kernel

/-! ## Concentration -/

/-- `_get_hhi` when the sum is not 0. -/
theorem hhi_eq (l : List K) (hs : l.sum ≠ 0) (hn : 2 ≤ l.length) :
    hhi l = some (((l.map fun x => x ^ 2).sum / l.sum ^ 2 - 1 / (l.length : K))
      / (1 - 1 / (l.length : K))) := by
  have hn' : (2 : K) ≤ (l.length : K) := by exact_mod_cast hn
  have h1 : (1 : K) - 1 / (l.length : K) ≠ 0 := by
    have : (1 : K) / (l.length : K) ≤ 1 / 2 := one_div_le_one_div_of_le (by norm_num) hn'
    have h2 : (1 : K) / 2 < 1 := by norm_num
    exact ne_of_gt (by linarith)
  unfold hhi
  simp only [fdiv, if_neg hs, if_neg h1]
  congr 3
  have : (l.map fun r => some (r / l.sum)).filterMap id = l.map fun r => r / l.sum := by
    rw [List.filterMap_map]
    simp
  rw [this, List.map_map, div_eq_mul_inv, ← List.sum_map_mul_right]
  congr 1
  apply List.map_congr_left
  intro x _
  simp only [Function.comp]
  rw [div_pow, div_eq_mul_inv]

theorem sum_zero_of_nonneg {l : List K} (h : ∀ x ∈ l, 0 ≤ x) (hs : l.sum = 0) : ∀ x ∈ l, x = 0 := by
  induction l with
  | nil => simp
  | cons a l ih =>
    have h1 := h a (by simp)
    have h2 : 0 ≤ l.sum := List.sum_nonneg fun x hx => h x (List.mem_cons_of_mem _ hx)
    rw [List.sum_cons] at hs
    intro x hx
    rcases List.mem_cons.1 hx with rfl | hx
    · linarith
    · exact ih (fun x hx => h x (List.mem_cons_of_mem _ hx)) (by linarith) x hx

/-- Sum of squared deviations. -/
theorem sum_sq_dev (l : List K) (m : K) :
    (l.map fun x => (x - m) ^ 2).sum
      = (l.map fun x => x ^ 2).sum - 2 * m * l.sum + (l.length : K) * m ^ 2 := by
  induction l with
  | nil => simp
  | cons a l ih =>
    simp only [List.map_cons, List.sum_cons, ih, List.length_cons]
    push_cast; ring

theorem sum_mul_sub (l : List K) (S : K) :
    (l.map fun x => x * (S - x)).sum = S * l.sum - (l.map fun x => x ^ 2).sum := by
  induction l with
  | nil => simp
  | cons a l ih => simp only [List.map_cons, List.sum_cons, ih]; ring

/-- The claim for the returns of one side. -/
def Concentration (l : List K) (o : Option K) : Prop :=
  ∃ h : K, o = some h ∧ 0 ≤ h ∧ h ≤ 1 ∧ (h = 0 ↔ ∀ x ∈ l, ∀ y ∈ l, x = y) ∧
    (h = 1 ↔ ∃ x ∈ l, x = l.sum)

theorem concentration_nonneg (l : List K) (h0 : ∀ x ∈ l, 0 ≤ x) (hn : 2 ≤ l.length)
    (hs : l.sum ≠ 0) : Concentration l (hhi l) := by
  have hS : 0 < l.sum := lt_of_le_of_ne (List.sum_nonneg h0) hs.symm
  have hn' : (2 : K) ≤ (l.length : K) := by exact_mod_cast hn
  set n : K := (l.length : K) with hndef
  have hnpos : 0 < n := by linarith
  set Q := (l.map fun x => x ^ 2).sum with hQ
  have hden : 0 < 1 - 1 / n := by
    rw [sub_pos, div_lt_one hnpos]; linarith
  have hS2 : 0 < l.sum ^ 2 := by positivity
  -- lower bound
  have hdev : (l.map fun x => (x - l.sum / n) ^ 2).sum = Q - l.sum ^ 2 / n := by
    rw [sum_sq_dev, ← hQ, ← hndef]; field_simp; ring
  have hdev0 : ∀ y ∈ (l.map fun x => (x - l.sum / n) ^ 2), 0 ≤ y := by
    intro y hy
    obtain ⟨x, -, rfl⟩ := List.mem_map.1 hy
    exact sq_nonneg _
  have hlow : 0 ≤ Q - l.sum ^ 2 / n := by rw [← hdev]; exact List.sum_nonneg hdev0
  -- upper bound
  have hle : ∀ x ∈ l, x ≤ l.sum := fun x hx => List.single_le_sum h0 x hx
  have hup' : (l.map fun x => x * (l.sum - x)).sum = l.sum ^ 2 - Q := by
    rw [sum_mul_sub, ← hQ]; ring
  have hup0 : ∀ y ∈ (l.map fun x => x * (l.sum - x)), 0 ≤ y := by
    intro y hy
    obtain ⟨x, hx, rfl⟩ := List.mem_map.1 hy
    exact mul_nonneg (h0 x hx) (sub_nonneg.2 (hle x hx))
  have hup : 0 ≤ l.sum ^ 2 - Q := by rw [← hup']; exact List.sum_nonneg hup0
  refine ⟨_, hhi_eq l hs hn, ?_, ?_, ?_, ?_⟩
  · apply div_nonneg _ hden.le
    rw [sub_nonneg, le_div_iff₀ hS2, one_div, inv_mul_eq_div]
    linarith
  · rw [div_le_one hden]
    have : Q / l.sum ^ 2 ≤ 1 := by rw [div_le_one hS2]; linarith
    linarith
  · have e1 : (Q / l.sum ^ 2 - 1 / n) / (1 - 1 / n) = 0 ↔ Q - l.sum ^ 2 / n = 0 := by
      rw [div_eq_zero_iff, or_iff_left hden.ne']
      constructor
      · intro h
        have : Q / l.sum ^ 2 = 1 / n := by linarith
        rw [div_eq_div_iff hS2.ne' hnpos.ne'] at this
        rw [sub_eq_zero, eq_div_iff hnpos.ne']; linarith
      · intro h
        have : Q = l.sum ^ 2 / n := by linarith
        rw [this]; field_simp
        try ring
    rw [e1]
    constructor
    · intro h x hx y hy
      have hz := sum_zero_of_nonneg hdev0 (by rw [hdev, h])
      have := hz _ (List.mem_map.2 ⟨x, hx, rfl⟩)
      have h2 := hz _ (List.mem_map.2 ⟨y, hy, rfl⟩)
      have := pow_eq_zero_iff (two_ne_zero) |>.1 this
      have h2 := pow_eq_zero_iff (two_ne_zero) |>.1 h2
      linarith
    · intro h
      obtain ⟨a, l', rfl⟩ : ∃ a l', l = a :: l' := by
        cases l with
        | nil => simp at hn
        | cons a l' => exact ⟨a, l', rfl⟩
      have hall : ∀ x ∈ a :: l', x = a := fun x hx => h x hx a (by simp)
      have hsum : (a :: l').sum = n * a := by
        rw [List.eq_replicate_of_mem hall, List.sum_replicate, nsmul_eq_mul, hndef]
      rw [← hdev]
      apply List.sum_eq_zero
      intro y hy
      obtain ⟨x, hx, rfl⟩ := List.mem_map.1 hy
      rw [hall x hx, hsum]; field_simp; ring
  · have e1 : (Q / l.sum ^ 2 - 1 / n) / (1 - 1 / n) = 1 ↔ l.sum ^ 2 - Q = 0 := by
      rw [div_eq_one_iff_eq hden.ne']
      constructor
      · intro h
        have : Q / l.sum ^ 2 = 1 := by linarith
        rw [div_eq_one_iff_eq hS2.ne'] at this
        linarith
      · intro h
        have : Q / l.sum ^ 2 = 1 := by rw [div_eq_one_iff_eq hS2.ne']; linarith
        rw [this]
    rw [e1]
    constructor
    · intro h
      have hz := sum_zero_of_nonneg hup0 (by rw [hup', h])
      by_contra hc
      push Not at hc
      have : ∀ x ∈ l, x = 0 := by
        intro x hx
        have := hz _ (List.mem_map.2 ⟨x, hx, rfl⟩)
        rcases mul_eq_zero.1 this with h1 | h1
        · exact h1
        · exact absurd (by linarith) (hc x hx)
      exact hs (List.sum_eq_zero this)
    · rintro ⟨x, hx, hxs⟩
      have hp := List.perm_cons_erase hx
      have hsum : l.sum = x + (l.erase x).sum := by rw [hp.sum_eq, List.sum_cons]
      have hz := sum_zero_of_nonneg (l := l.erase x) (fun y hy => h0 y (List.mem_of_mem_erase hy))
        (by linarith)
      have hQ2 : Q = x ^ 2 := by
        rw [hQ, (hp.map _).sum_eq, List.map_cons, List.sum_cons, List.sum_eq_zero, add_zero]
        intro y hy
        obtain ⟨z, hz', rfl⟩ := List.mem_map.1 hy
        rw [hz z hz']; simp
      rw [hQ2, hxs]; ring

theorem sum_map_neg' (l : List K) : (l.map fun x => -x).sum = -l.sum := by
  induction l with
  | nil => simp
  | cons a l ih => simp [ih]; ring

theorem hhi_neg (l : List K) (hs : l.sum ≠ 0) (hn : 2 ≤ l.length) : hhi (l.map fun x => -x) = hhi l := by
  rw [hhi_eq l hs hn, hhi_eq _ (by rw [sum_map_neg']; exact neg_ne_zero.2 hs) (by simpa using hn)]
  rw [sum_map_neg', List.map_map]
  simp [Function.comp_def]

theorem concentration_nonpos (l : List K) (h0 : ∀ x ∈ l, x ≤ 0) (hn : 2 ≤ l.length)
    (hs : l.sum ≠ 0) : Concentration l (hhi l) := by
  have h := concentration_nonneg (l.map fun x => -x)
    (by intro y hy; obtain ⟨x, hx, rfl⟩ := List.mem_map.1 hy; simpa using h0 x hx) (by simpa using hn)
    (by rw [sum_map_neg']; exact neg_ne_zero.2 hs)
  rw [hhi_neg l hs hn] at h
  obtain ⟨v, e, a1, a2, a3, a4⟩ := h
  refine ⟨v, e, a1, a2, ?_, ?_⟩
  · rw [a3]
    constructor
    · intro h x hx y hy
      exact neg_injective (h (-x) (List.mem_map.2 ⟨x, hx, rfl⟩) (-y) (List.mem_map.2 ⟨y, hy, rfl⟩))
    · intro h x hx y hy
      obtain ⟨x', hx', rfl⟩ := List.mem_map.1 hx
      obtain ⟨y', hy', rfl⟩ := List.mem_map.1 hy
      rw [h x' hx' y' hy']
  · rw [a4, sum_map_neg']; simp

/-- C94: with at least three returns, each side that has at least two returns and a non-zero sum has
an index between 0 and 1; it is 0 exactly for equal returns, and 1 exactly when one return carries the
sum. -/
theorem C94_concentration (rets : List K) (hn : 3 ≤ rets.length) :
    (2 ≤ (rets.filter fun r => 0 ≤ r).length → (rets.filter fun r => 0 ≤ r).sum ≠ 0 →
      Concentration (rets.filter fun r => 0 ≤ r) (hhiConcentration rets).1) ∧
    (2 ≤ (rets.filter fun r => r < 0).length →
      Concentration (rets.filter fun r => r < 0) (hhiConcentration rets).2) := by
  unfold hhiConcentration
  rw [if_neg (by omega)]
  constructor
  · intro h hs
    simp only
    rw [if_neg (by omega)]
    exact concentration_nonneg _ (fun x hx => by simpa using (List.mem_filter.1 hx).2) h hs
  · intro h
    simp only
    rw [if_neg (by omega)]
    refine concentration_nonpos _ (fun x hx => ?_) h ?_
    · have := (List.mem_filter.1 hx).2; simp at this; exact this.le
    · obtain ⟨a, l', e⟩ : ∃ a l', (rets.filter fun r => r < 0) = a :: l' := by
        cases h' : (rets.filter fun r => r < 0) with
        | nil => rw [h'] at h; simp at h
        | cons a l' => exact ⟨a, l', rfl⟩
      have hlt : ∀ x ∈ (rets.filter fun r => r < 0), x < 0 := fun x hx => by
        simpa using (List.mem_filter.1 hx).2
      rw [e] at hlt ⊢
      rw [List.sum_cons]
      have h1 := hlt a (by simp)
      have h2 : 0 ≤ (l'.map fun x => -x).sum := by
        apply List.sum_nonneg
        intro y hy
        obtain ⟨x, hx, rfl⟩ := List.mem_map.1 hy
        have := hlt x (by simp [hx])
        linarith
      rw [sum_map_neg'] at h2
      exact ne_of_lt (by linarith)

/-- C94: with fewer than three returns, or none on a side, there is no index. -/
theorem C94_missing (rets : List K) :
    (rets.length ≤ 2 → hhiConcentration rets = (none, none)) ∧
    ((∀ r ∈ rets, r < 0) → (hhiConcentration rets).1 = none) ∧
    ((∀ r ∈ rets, 0 ≤ r) → (hhiConcentration rets).2 = none) := by
  unfold hhiConcentration
  refine ⟨fun h => if_pos h, fun h => ?_, fun h => ?_⟩
  · split_ifs with h1
    · rfl
    · have : rets.filter (fun r => decide (0 ≤ r)) = [] := by
        rw [List.filter_eq_nil_iff]; intro a ha; simpa using h a ha
      simp [this]
  · split_ifs with h1
    · rfl
    · have : rets.filter (fun r => decide (r < 0)) = [] := by
        rw [List.filter_eq_nil_iff]; intro a ha; simpa using h a ha
      simp [this]

example : hhiConcentration ([1, 3, -1, 2, -4] : List ℚ) = (some (1 / 12), some (9 / 25)) := by
  decide +kernel

/-- C139: the full claim, an index that is given is between 0 and 1. -/
def IndexClaim : Prop := ∀ rets : List ℚ, ∀ h : ℚ,
  ((hhiConcentration rets).1 = some h ∨ (hhiConcentration rets).2 = some h) → 0 ≤ h ∧ h ≤ 1

/-- Two returns of zero and a loss: the index of the gains is -1. -/
theorem C139_index_counterexample : ¬ IndexClaim := by
  intro h
  have h1 : (hhiConcentration ([0, 0, -1] : List ℚ)).1 = some (-1) := by decide +kernel
  have := h [0, 0, -1] (-1) (Or.inl h1)
  norm_num at this

/-- C139 (partial): an index that is given is between 0 and 1, unless all returns that are not losses
are zero and there are `n ≥ 2` of them; then it is `-1/(n-1)`.  Missing: that case. -/
theorem C139_index_partial (rets : List K) (h : K) :
    ((hhiConcentration rets).2 = some h → 0 ≤ h ∧ h ≤ 1) ∧
    ((hhiConcentration rets).1 = some h → (∃ r ∈ rets, 0 < r) → 0 ≤ h ∧ h ≤ 1) ∧
    ((hhiConcentration rets).1 = some h → (∀ r ∈ rets, r ≤ 0) →
      h = -1 / (((rets.filter fun r => 0 ≤ r).length : K) - 1)) := by
  have hone : ∀ l : List K, l.length = 1 → hhi l = none := by
    intro l hl
    unfold hhi
    simp [hl, fdiv]
  have key : ∀ (l : List K) (v : K), (if l.length = 0 then none else hhi l) = some v → 2 ≤ l.length := by
    intro l v hv
    by_contra hc
    rcases Nat.lt_or_ge l.length 1 with h0 | h0
    · rw [if_pos (by omega)] at hv; simp at hv
    · rw [if_neg (by omega), hone l (by omega)] at hv; simp at hv
  by_cases hlen : rets.length ≤ 2
  · rw [(C94_missing rets).1 hlen]; simp
  have hC := C94_concentration rets (by omega)
  have hdef : hhiConcentration rets =
      (if (rets.filter fun r => 0 ≤ r).length = 0 then none else hhi (rets.filter fun r => 0 ≤ r),
       if (rets.filter fun r => r < 0).length = 0 then none else hhi (rets.filter fun r => r < 0)) := by
    unfold hhiConcentration; rw [if_neg hlen]
  refine ⟨fun hv => ?_, fun hv hpos => ?_, fun hv hle => ?_⟩
  · have h2 := key (rets.filter fun r => r < 0) h (by rw [hdef] at hv; exact hv)
    obtain ⟨v, e, a1, a2, -⟩ := hC.2 h2
    rw [hv] at e
    obtain rfl : h = v := by simpa using e
    exact ⟨a1, a2⟩
  · have h2 := key (rets.filter fun r => 0 ≤ r) h (by rw [hdef] at hv; exact hv)
    have hs : (rets.filter fun r => 0 ≤ r).sum ≠ 0 := by
      intro hz
      obtain ⟨r, hr, hr0⟩ := hpos
      have := sum_zero_of_nonneg (l := rets.filter fun r => 0 ≤ r)
        (fun x hx => by simpa using (List.mem_filter.1 hx).2) hz r
        (List.mem_filter.2 ⟨hr, by simpa using hr0.le⟩)
      exact hr0.ne' this
    obtain ⟨v, e, a1, a2, -⟩ := hC.1 h2 hs
    rw [hv] at e
    obtain rfl : h = v := by simpa using e
    exact ⟨a1, a2⟩
  · have h2 := key (rets.filter fun r => 0 ≤ r) h (by rw [hdef] at hv; exact hv)
    rw [hdef] at hv
    simp only at hv
    rw [if_neg (by omega)] at hv
    set l := rets.filter fun r => 0 ≤ r with hl
    have hall : ∀ x ∈ l, x = 0 := by
      intro x hx
      obtain ⟨h1, h3⟩ := List.mem_filter.1 hx
      simp at h3
      exact le_antisymm (hle x h1) h3
    have hs : l.sum = 0 := List.sum_eq_zero hall
    have hn' : (2 : K) ≤ (l.length : K) := by exact_mod_cast h2
    have hn0 : (l.length : K) ≠ 0 := ne_of_gt (by linarith)
    have hn1 : (l.length : K) - 1 ≠ 0 := ne_of_gt (by linarith)
    have hd : (1 : K) - 1 / (l.length : K) ≠ 0 := by
      rw [sub_ne_zero]
      intro h
      rw [eq_comm, div_eq_one_iff_eq hn0] at h
      exact hn1 (by rw [← h]; ring)
    unfold hhi at hv
    have hnil : (l.map fun r => fdiv r l.sum).filterMap id = [] := by
      rw [List.filterMap_map, List.filterMap_eq_nil_iff]
      intro a _
      simp [fdiv, hs]
    simp only [hnil, List.map_nil, List.sum_nil, zero_sub] at hv
    rw [fdiv, if_neg hd] at hv
    simp only [Option.some.injEq] at hv
    rw [← hv, div_eq_div_iff hd hn1]
    field_simp

end FinML.Metrics
