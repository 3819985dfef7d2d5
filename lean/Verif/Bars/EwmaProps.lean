import Verif.Bars.Causal

/-! # Properties C13 and C58: `fast_ewma` and `tick_rule` -/

set_option linter.unusedSectionVars false

namespace FinML.Bars

variable {K : Type} [Field K] [LinearOrder K] [IsStrictOrderedRing K]

/-! ## C13 -/

/-- C13.  For spans of at least 1 the adjusted mean is the weighted mean with weights
`(1-a)^age`, `a = 2/(span+1)`, of the values up to position `i`. -/
theorem C13_ewma_adjusted (l : List K) (span : ℕ) (hs : 1 ≤ span) :
    ∃ r, fastEwma l span true = .ok r ∧ r.length = l.length ∧
      ∀ i, i < l.length → r[i]? = some
        ((∑ k ∈ Finset.range (i + 1), (1 - 2 / ((span : K) + 1)) ^ k * l.getD (i - k) 0) /
          ∑ k ∈ Finset.range (i + 1), (1 - 2 / ((span : K) + 1)) ^ k) := by
  obtain ⟨r, h1, h2, h3⟩ := fastEwma_adj l span hs
  refine ⟨r, h1, h2, ?_⟩
  intro i hi
  rw [h3 i hi]
  unfold ewMean decay
  rw [List.length_take, min_eq_left (by omega)]
  congr 2
  apply Finset.sum_congr rfl
  intro k hk
  rw [Finset.mem_range] at hk
  congr 1
  rw [List.getD_eq_getElem?_getD, List.getD_eq_getElem?_getD, List.getElem?_take_of_lt (by omega)]
  congr 2

theorem ewmaRecLoop_spec (alpha prev : K) (xs : List K) :
    (ewmaRecLoop alpha prev xs).length = xs.length ∧
    ∀ i (h : i < xs.length), ∃ e0 e1, (prev :: ewmaRecLoop alpha prev xs)[i]? = some e0 ∧
      (prev :: ewmaRecLoop alpha prev xs)[i + 1]? = some e1 ∧
      e1 = alpha * xs[i] + (1 - alpha) * e0 := by
  induction xs generalizing prev with
  | nil => exact ⟨rfl, by simp⟩
  | cons x xs ih =>
    obtain ⟨h1, h2⟩ := ih (x * alpha + prev * (1 - alpha))
    refine ⟨by simp [ewmaRecLoop, h1], ?_⟩
    intro i hi
    cases i with
    | zero => exact ⟨prev, _, rfl, rfl, by simp; ring⟩
    | succ i =>
      obtain ⟨e0, e1, g0, g1, g2⟩ := h2 i (by simpa using hi)
      exact ⟨e0, e1, g0, g1, by simpa using g2⟩

/-- C13.  The unadjusted mean starts at the first value and follows
`e_i = a x_i + (1-a) e_{i-1}`. -/
theorem C13_ewma_recursive (x : K) (xs : List K) (span : ℕ) :
    ∃ r, fastEwma (x :: xs) span false = .ok r ∧ r.length = xs.length + 1 ∧ r[0]? = some x ∧
      ∀ i (h : i < xs.length), ∃ e0 e1, r[i]? = some e0 ∧ r[i + 1]? = some e1 ∧
        e1 = 2 / ((span : K) + 1) * xs[i] + (1 - 2 / ((span : K) + 1)) * e0 := by
  obtain ⟨h1, h2⟩ := ewmaRecLoop_spec (2 / ((span : K) + 1)) x xs
  exact ⟨_, rfl, by simp [h1], rfl, h2⟩

/-- C13.  For spans of at least 1 both variants stay, at every position, between any bounds of the
values seen so far; in particular constants are reproduced. -/
theorem C13_ewma_bounds (l : List K) (span : ℕ) (hs : 1 ≤ span) (adjust : Bool) (r : List K)
    (hr : fastEwma l span adjust = .ok r) (i : ℕ) (e lo hi : K) (he : r[i]? = some e)
    (hb : ∀ x ∈ l.take (i + 1), lo ≤ x ∧ x ≤ hi) : lo ≤ e ∧ e ≤ hi := by
  cases adjust with
  | true =>
    obtain ⟨r', h1, h2, h3⟩ := fastEwma_adj l span hs
    rw [h1] at hr
    cases hr
    have hi' : i < l.length := by
      rw [← h2]; exact (List.getElem?_eq_some_iff.1 he).1
    rw [h3 i hi'] at he
    cases he
    exact ewMean_bounds _ (decay_nonneg span hs) _ (by
      rw [← List.length_pos_iff, List.length_take]; omega) lo hi hb
  | false =>
    cases l with
    | nil => cases hr; simp at he
    | cons x xs =>
      obtain ⟨r', h1, h2, h3, h4⟩ := C13_ewma_recursive x xs span
      rw [h1] at hr
      cases hr
      have hq := decay_nonneg (K := K) span hs
      have ha : (0 : K) ≤ 2 / ((span : K) + 1) := by positivity
      unfold decay at hq
      induction i generalizing e with
      | zero =>
        rw [h3] at he; cases he
        exact hb x (by simp)
      | succ i ih =>
        have hi' : i < xs.length := by
          have := (List.getElem?_eq_some_iff.1 he).1
          omega
        obtain ⟨e0, e1, g0, g1, g2⟩ := h4 i hi'
        rw [he] at g1
        cases g1
        have h5 := ih e0 g0 (fun y hy => hb y (List.mem_of_mem_take (i := i + 1) (by
          rw [List.take_take, min_eq_left (by omega)]; exact hy)))
        have h6 := hb xs[i] (by
          rw [List.mem_take_iff_getElem]
          exact ⟨i + 1, by simp; omega, rfl⟩)
        subst g2
        constructor
        · have := mul_le_mul_of_nonneg_left h6.1 ha
          have := mul_le_mul_of_nonneg_left h5.1 hq
          linarith
        · have := mul_le_mul_of_nonneg_left h6.2 ha
          have := mul_le_mul_of_nonneg_left h5.2 hq
          linarith

theorem ewmaRecLoop_take (alpha prev : K) (xs : List K) (m : ℕ) :
    ewmaRecLoop alpha prev (xs.take m) = (ewmaRecLoop alpha prev xs).take m := by
  induction xs generalizing prev m with
  | nil => simp [ewmaRecLoop]
  | cons x xs ih =>
    cases m with
    | zero => rfl
    | succ m => simp [ewmaRecLoop, ih]

/-- C13.  The mean at a position does not depend on later values: computing on a prefix gives the
prefix of the result. -/
theorem C13_ewma_causal (l : List K) (span : ℕ) (hs : 1 ≤ span) (adjust : Bool) (m : ℕ) :
    ∃ r, fastEwma l span adjust = .ok r ∧ fastEwma (l.take m) span adjust = .ok (r.take m) := by
  cases adjust with
  | true =>
    obtain ⟨r, h1, h2, h3⟩ := fastEwma_adj l span hs
    obtain ⟨r', g1, g2, g3⟩ := fastEwma_adj (l.take m) span hs
    refine ⟨r, h1, ?_⟩
    rw [g1]
    congr 1
    apply List.ext_getElem?
    intro i
    by_cases hi : i < (l.take m).length
    · rw [List.length_take] at hi
      rw [g3 i (by rw [List.length_take]; exact hi), List.getElem?_take_of_lt (by omega),
        h3 i (by omega), List.take_take, min_eq_left (by omega)]
    · rw [List.length_take] at hi
      rw [List.getElem?_eq_none (by rw [g2, List.length_take]; omega)]
      symm
      apply List.getElem?_eq_none
      rw [List.length_take, h2]
      omega
  | false =>
    cases l with
    | nil => exact ⟨[], rfl, by simp [fastEwma]⟩
    | cons x xs =>
      refine ⟨_, rfl, ?_⟩
      cases m with
      | zero => rfl
      | succ m => simp [fastEwma, ewmaRecLoop_take]

/-- C13, outside the domain: span 0 raises ZeroDivisionError on two or more values. -/
theorem C13_ewma_zero_span (x y : K) (l : List K) :
    fastEwma (x :: y :: l) 0 true = .error .zeroDivision := by
  have hz : (1 : K) + (1 - 2 / ((0 : ℕ) + 1)) ^ 1 = 0 := by norm_num
  simp only [fastEwma, ewmaAdjLoop, hz, if_true]
  rfl

example : (fastEwma ([1, 2, 4] : List ℚ) 3 true) = .ok [1, 5 / 3, 3] ∧
    (fastEwma ([1, 2, 4] : List ℚ) 3 false) = .ok [1, 3 / 2, 11 / 4] := by decide +kernel

/-! ## C58 -/

theorem tickRuleFrom_getElem (prev p : K) (ps : List K) (i : ℕ) (h : i < ps.length) :
    (tickRuleFrom prev p ps)[i]? = some
      (if ps[i] = (p :: ps)[i]'(by simp; omega) then (prev :: tickRuleFrom prev p ps)[i]'(by simp; omega)
        else if (p :: ps)[i]'(by simp; omega) < ps[i] then 1 else -1) := by
  induction ps generalizing prev p i with
  | nil => simp at h
  | cons q qs ih =>
    have hcur : (if q - p = 0 then prev else |q - p| / (q - p)) =
        if q = p then prev else if p < q then 1 else -1 := by
      by_cases h0 : q = p
      · simp [h0]
      · rw [if_neg (sub_ne_zero.2 h0), if_neg h0]
        by_cases hlt : p < q
        · rw [if_pos hlt, abs_of_pos (sub_pos.2 hlt), div_self (sub_ne_zero.2 h0)]
        · rw [if_neg hlt]
          have : q - p < 0 := sub_neg.2 (lt_of_le_of_ne (not_lt.1 hlt) h0)
          rw [abs_of_neg this, neg_div, div_self (sub_ne_zero.2 h0)]
    cases i with
    | zero =>
      simp only [tickRuleFrom, List.getElem?_cons_zero, List.getElem_cons_zero]
      rw [hcur]
    | succ i =>
      have := ih (if q - p = 0 then prev else |q - p| / (q - p)) q i (by simpa using h)
      simp only [tickRuleFrom, List.getElem?_cons_succ, List.getElem_cons_succ]
      rw [this]

theorem tickRule_succ (b0 : K) (p : List K) (i : ℕ) (h : i + 1 < p.length) :
    (tickRule b0 p)[i + 1]? = some
      (if p[i + 1] = p[i] then (tickRule b0 p)[i]'(by simp; omega)
        else if p[i] < p[i + 1] then 1 else -1) := by
  cases p with
  | nil => simp at h
  | cons a ps =>
    have := tickRuleFrom_getElem b0 a ps i (by simpa using h)
    simp only [tickRule, List.getElem?_cons_succ, List.getElem_cons_succ]
    exact this

/-- C58.  One flag per tick.  While the price has not changed the flag is `b0`; after a change from
tick `k` to `k+1` and as long as the price then stays the same, it is 1 for a rise and -1 for a
fall. -/
theorem C58_tick_rule_sign (b0 : K) (p : List K) :
    (tickRule b0 p).length = p.length ∧
    (∀ i (hi : i < p.length), (∀ j (hj : j < i), p[j + 1] = p[j]) →
      (tickRule b0 p)[i]? = some b0) ∧
    (∀ k i (hki : k < i) (hi : i < p.length), p[k + 1] ≠ p[k] →
      (∀ j (_ : k < j) (hj : j < i), p[j + 1] = p[j]) →
      (tickRule b0 p)[i]? = some (if p[k] < p[k + 1] then 1 else -1)) := by
  refine ⟨tickRule_length b0 p, ?_, ?_⟩
  · intro i
    induction i with
    | zero =>
      intro hi _
      cases p with
      | nil => simp at hi
      | cons a ps => rfl
    | succ i ih =>
      intro hi hc
      have h1 := ih (by omega) (fun j hj => hc j (by omega))
      rw [tickRule_succ b0 p i hi, if_pos (hc i (by omega))]
      rw [← h1, List.getElem?_eq_getElem]
  · intro k i
    induction i with
    | zero => intro hki; omega
    | succ i ih =>
      intro hki hi hne hc
      rw [tickRule_succ b0 p i hi]
      by_cases hk : k = i
      · subst hk
        rw [if_neg hne]
      · have h1 := ih (by omega) (by omega) hne (fun j h1 h2 => hc j h1 (by omega))
        rw [if_pos (hc i (by omega) (by omega))]
        rw [← h1, List.getElem?_eq_getElem]

/-- C58.  Flags are -1 or 1 if `b0` is. -/
theorem C58_tick_rule_flags (b0 : K) (h : b0 = 1 ∨ b0 = -1) (p : List K) :
    ∀ x ∈ tickRule b0 p, x = 1 ∨ x = -1 := by
  intro x hx
  obtain ⟨i, hi, rfl⟩ := List.mem_iff_getElem.1 hx
  have key : ∀ i (hi : i < (tickRule b0 p).length), (tickRule b0 p)[i] = 1 ∨
      (tickRule b0 p)[i] = -1 := by
    intro i
    induction i with
    | zero =>
      intro hi
      cases p with
      | nil => simp at hi
      | cons a ps => exact h
    | succ i ih =>
      intro hi
      have := tickRule_succ b0 p i (by simpa using hi)
      rw [List.getElem?_eq_getElem hi] at this
      rw [Option.some.inj this]
      split
      · exact ih (by omega)
      · split
        · exact Or.inl rfl
        · exact Or.inr rfl
  exact key i hi

/-- C58.  The flags of a prefix do not depend on later ticks. -/
theorem C58_tick_rule_causal (b0 : K) (p p' : List K) (m : ℕ) (h : p.take m = p'.take m) :
    (tickRule b0 p).take m = (tickRule b0 p').take m := by
  rw [tickRule_take, tickRule_take, h]

theorem tickRule_map (f : K → K) (c b0 : K) (p : List K)
    (hinj : ∀ x y, f x = f y ↔ x = y)
    (hord : ∀ x y : K, x ≠ y → (if f x < f y then (1 : K) else -1) = c * (if x < y then 1 else -1)) :
    tickRule (c * b0) (p.map f) = (tickRule b0 p).map (c * ·) := by
  apply List.ext_getElem?
  intro i
  by_cases hi : i < p.length
  · have key : ∀ i, i < p.length → (tickRule (c * b0) (p.map f))[i]? =
        ((tickRule b0 p).map (c * ·))[i]? := by
      intro i
      induction i with
      | zero =>
        intro hi
        cases p with
        | nil => simp at hi
        | cons a ps => rfl
      | succ i ih =>
        intro hi
        have h1 := ih (by omega)
        rw [tickRule_succ _ _ _ (by simpa using hi), List.getElem?_map, tickRule_succ _ _ _ hi]
        simp only [List.getElem_map, Option.map_some, hinj]
        congr 1
        by_cases he : p[i + 1] = p[i]
        · rw [if_pos he, if_pos he]
          rw [List.getElem?_eq_getElem (by simp; omega), List.getElem?_eq_getElem (by simp; omega)] at h1
          simpa using h1
        · rw [if_neg he, if_neg he]
          exact hord _ _ (Ne.symm he)
    exact key i hi
  · rw [List.getElem?_eq_none (by simp; omega), List.getElem?_eq_none (by simp; omega)]

/-- C58.  Positive affine changes of the price leave the flags unchanged. -/
theorem C58_tick_rule_affine (b0 a c : K) (ha : 0 < a) (p : List K) :
    tickRule b0 (p.map fun x => a * x + c) = tickRule b0 p := by
  have := tickRule_map (fun x => a * x + c) 1 b0 p
    (fun x y => by simp [ha.ne'])
    (fun x y _ => by simp [ha])
  simpa using this

/-- C58.  Negating the prices and `b0` negates the flags. -/
theorem C58_tick_rule_negation (b0 : K) (p : List K) :
    tickRule (-b0) (p.map fun x => -x) = (tickRule b0 p).map fun x => -x := by
  have := tickRule_map (fun x => -x) (-1) b0 p (fun x y => neg_inj) (fun x y hne => by
    rcases lt_or_gt_of_ne hne with h | h
    · simp [h, not_lt.2 h.le]
    · simp [h, not_lt.2 h.le])
  simpa using this

example : tickRule (1 : ℚ) [3, 3, 4, 4, 2, 2, 5] = [1, 1, 1, 1, -1, -1, 1] := by decide +kernel

end FinML.Bars
