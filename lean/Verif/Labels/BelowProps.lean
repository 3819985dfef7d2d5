import Verif.Labels.Props

/-! # Property C316: events at prices below zero -/

namespace FinML.Labels

variable {K : Type} [Field K] [LinearOrder K] [IsStrictOrderedRing K]

/-- C316, the full claim: a long event that takes profit does so on a bar whose high is above the price it started at, a
long event that stops out on a bar whose low is below it, and a long event that expires has a positive return just if the
price has risen. -/
def RiseIsProfit (K : Type) [Field K] [LinearOrder K] [IsStrictOrderedRing K] : Prop :=
  ∀ (prices : List (Row K)) (ptMul slMul : K) (e : Event K) (s0 x : K) (expiry : ℤ) (o : Outcome K),
    SortedTable prices → Tradable prices e 1 s0 expiry → e.target = some x → 0 ≤ x →
    evalEvent prices ptMul slMul e expiry = .ok o →
    (∀ t, o.ptTime = some t → ∃ r ∈ prices, r.time = t ∧ ∃ h, r.high = some h ∧ s0 < h) ∧
    (∀ t, o.slTime = some t → ∃ r ∈ prices, r.time = t ∧ ∃ l, r.low = some l ∧ l < s0) ∧
    (o.ptTime = none → o.slTime = none → ∃ r ∈ prices, r.time = expiry ∧
      ∀ c, r.close = some c → ∃ y, o.ret = some y ∧ (0 < y ↔ s0 < c) ∧ (y < 0 ↔ c < s0))

theorem long_ret_pos {s0 p y : K} (hs : 0 < s0) : y < tradeRet 1 s0 p ↔ s0 * (1 + y) < p := by
  unfold tradeRet
  rw [Int.cast_one, one_mul, lt_sub_iff_add_lt, lt_div_iff₀ hs]
  constructor <;> intro h <;> nlinarith

theorem long_ret_pos' {s0 p y : K} (hs : 0 < s0) : tradeRet 1 s0 p < y ↔ p < s0 * (1 + y) := by
  unfold tradeRet
  rw [Int.cast_one, one_mul, sub_lt_iff_lt_add, div_lt_iff₀ hs]
  constructor <;> intro h <;> nlinarith

theorem long_ret_neg {s0 p y : K} (hs : s0 < 0) : y < tradeRet 1 s0 p ↔ p < s0 * (1 + y) := by
  unfold tradeRet
  rw [Int.cast_one, one_mul, lt_sub_iff_add_lt, lt_div_iff_of_neg hs]
  constructor <;> intro h <;> nlinarith

theorem long_ret_neg' {s0 p y : K} (hs : s0 < 0) : tradeRet 1 s0 p < y ↔ s0 * (1 + y) < p := by
  unfold tradeRet
  rw [Int.cast_one, one_mul, sub_lt_iff_lt_add, div_lt_iff_of_neg hs]
  constructor <;> intro h <;> nlinarith

/-- What a long event says: the barriers touched, or the return at the expiry. -/
theorem long_event (prices : List (Row K)) (ptMul slMul : K) (e : Event K) (s0 x : K) (expiry : ℤ) (o : Outcome K)
    (hs : SortedTable prices) (ht : Tradable prices e 1 s0 expiry) (hx : e.target = some x)
    (h : evalEvent prices ptMul slMul e expiry = .ok o) :
    (∀ t, o.ptTime = some t → 0 < ptMul ∧ ∃ r ∈ prices, r.time = t ∧ ∃ p, r.high = some p ∧ ptMul * x < tradeRet 1 s0 p) ∧
    (∀ t, o.slTime = some t → 0 < slMul ∧ ∃ r ∈ prices, r.time = t ∧ ∃ p, r.low = some p ∧ tradeRet 1 s0 p < -(slMul * x)) ∧
    (o.ptTime = none → o.slTime = none → ∃ r ∈ prices, r.time = expiry ∧ o.ret = r.close.map (tradeRet 1 s0)) := by
  obtain ⟨o1, h1, hb, -, -, -⟩ := evalEvent_spec prices ptMul slMul e 1 s0 expiry hs ht
  obtain ⟨o2, h2, -, -, hexp⟩ := C23_return_partial prices ptMul slMul e 1 s0 expiry hs ht
  rw [h] at h1 h2
  cases h1
  cases h2
  refine ⟨fun t hpt => ?_, fun t hsl => ?_, fun hp hl => ?_⟩
  · obtain ⟨_, _, hpos, r, hr, hrt, p, y, hp, hy, hlt⟩ := ((hb.pt_first t).1 hpt).1
    rw [hx] at hy
    cases hy
    exact ⟨hpos, r, hr, hrt, p, hp, hlt⟩
  · obtain ⟨_, _, hpos, r, hr, hrt, p, y, hp, hy, hlt⟩ := ((hb.sl_first t).1 hsl).1
    rw [hx] at hy
    cases hy
    exact ⟨hpos, r, hr, hrt, p, hp, hlt⟩
  · obtain ⟨r, hr, hrt, -, h1, -⟩ := hexp fun t => ⟨hb.pt_none.1 hp t, hb.sl_none.1 hl t⟩
    exact ⟨r, hr, hrt, h1 rfl⟩

/-- C316 for a positive price at the start.

Missing: negative ones (refuted by `C316_rise_counterexample`). -/
theorem C316_rise_partial (prices : List (Row K)) (ptMul slMul : K) (e : Event K) (s0 x : K) (expiry : ℤ) (o : Outcome K)
    (hs : SortedTable prices) (ht : Tradable prices e 1 s0 expiry) (hx : e.target = some x) (hx0 : 0 ≤ x) (h0 : 0 < s0)
    (h : evalEvent prices ptMul slMul e expiry = .ok o) :
    (∀ t, o.ptTime = some t → ∃ r ∈ prices, r.time = t ∧ ∃ h, r.high = some h ∧ s0 < h) ∧
    (∀ t, o.slTime = some t → ∃ r ∈ prices, r.time = t ∧ ∃ l, r.low = some l ∧ l < s0) ∧
    (o.ptTime = none → o.slTime = none → ∃ r ∈ prices, r.time = expiry ∧
      ∀ c, r.close = some c → ∃ y, o.ret = some y ∧ (0 < y ↔ s0 < c) ∧ (y < 0 ↔ c < s0)) := by
  obtain ⟨h1, h2, h3⟩ := long_event prices ptMul slMul e s0 x expiry o hs ht hx h
  refine ⟨fun t hpt => ?_, fun t hsl => ?_, fun hp hl => ?_⟩
  · obtain ⟨hpos, r, hr, hrt, p, hp, hlt⟩ := h1 t hpt
    refine ⟨r, hr, hrt, p, hp, ?_⟩
    rw [long_ret_pos h0] at hlt
    nlinarith [mul_nonneg h0.le (mul_nonneg hpos.le hx0)]
  · obtain ⟨hpos, r, hr, hrt, p, hp, hlt⟩ := h2 t hsl
    refine ⟨r, hr, hrt, p, hp, ?_⟩
    rw [long_ret_pos' h0] at hlt
    nlinarith [mul_nonneg h0.le (mul_nonneg hpos.le hx0)]
  · obtain ⟨r, hr, hrt, hret⟩ := h3 hp hl
    refine ⟨r, hr, hrt, fun c hc => ⟨tradeRet 1 s0 c, by rw [hret, hc]; rfl, ?_, ?_⟩⟩
    · rw [long_ret_pos h0, add_zero, mul_one]
    · rw [long_ret_pos' h0, add_zero, mul_one]

/-- C316: a long event that starts at a negative price is a short one: it takes profit on a bar whose high is below the
price at the start, stops out on a bar whose low is above it, and at the expiry has a positive return just if the price has
fallen. -/
theorem C316_below (prices : List (Row K)) (ptMul slMul : K) (e : Event K) (s0 x : K) (expiry : ℤ) (o : Outcome K)
    (hs : SortedTable prices) (ht : Tradable prices e 1 s0 expiry) (hx : e.target = some x) (hx0 : 0 ≤ x) (h0 : s0 < 0)
    (h : evalEvent prices ptMul slMul e expiry = .ok o) :
    (∀ t, o.ptTime = some t → ∃ r ∈ prices, r.time = t ∧ ∃ h, r.high = some h ∧ h < s0) ∧
    (∀ t, o.slTime = some t → ∃ r ∈ prices, r.time = t ∧ ∃ l, r.low = some l ∧ s0 < l) ∧
    (o.ptTime = none → o.slTime = none → ∃ r ∈ prices, r.time = expiry ∧
      ∀ c, r.close = some c → ∃ y, o.ret = some y ∧ (0 < y ↔ c < s0) ∧ (y < 0 ↔ s0 < c)) := by
  obtain ⟨h1, h2, h3⟩ := long_event prices ptMul slMul e s0 x expiry o hs ht hx h
  refine ⟨fun t hpt => ?_, fun t hsl => ?_, fun hp hl => ?_⟩
  · obtain ⟨hpos, r, hr, hrt, p, hp, hlt⟩ := h1 t hpt
    refine ⟨r, hr, hrt, p, hp, ?_⟩
    rw [long_ret_neg h0] at hlt
    nlinarith [mul_nonneg (neg_pos.2 h0).le (mul_nonneg hpos.le hx0)]
  · obtain ⟨hpos, r, hr, hrt, p, hp, hlt⟩ := h2 t hsl
    refine ⟨r, hr, hrt, p, hp, ?_⟩
    rw [long_ret_neg' h0] at hlt
    nlinarith [mul_nonneg (neg_pos.2 h0).le (mul_nonneg hpos.le hx0)]
  · obtain ⟨r, hr, hrt, hret⟩ := h3 hp hl
    refine ⟨r, hr, hrt, fun c hc => ⟨tradeRet 1 s0 c, by rw [hret, hc]; rfl, ?_, ?_⟩⟩
    · rw [long_ret_neg h0, add_zero, mul_one]
    · rw [long_ret_neg' h0, add_zero, mul_one]

/-- A price that rises from -10 to -8. -/
def belowZero : List (Row ℚ) :=
  [⟨0, some (-10), some (-10), some (-10), some (-10)⟩, ⟨1, some (-9), some (-8), some (-9), some (-8)⟩]

/-- C316, the full claim does not hold: a long event on a price that rises from -10 to -8 is stopped out. -/
theorem C316_rise_counterexample : ¬ RiseIsProfit ℚ := by
  intro h
  have hev : evalEvent belowZero 1 1 ⟨0, none, some (1 / 20), some 1⟩ 1 = .ok ⟨none, some 1, 1, some (-1 / 10)⟩ := by
    decide +kernel
  have htr : Tradable belowZero ⟨0, none, some (1 / 20), some 1⟩ 1 (-10) 1 :=
    ⟨rfl, Or.inl rfl, ⟨_, List.mem_cons_self, rfl, rfl⟩, by norm_num, ⟨_, List.mem_cons_of_mem _ List.mem_cons_self, rfl⟩⟩
  obtain ⟨-, h2, -⟩ := h belowZero 1 1 _ _ _ _ _ (by unfold SortedTable belowZero; decide) htr rfl (by norm_num) hev
  obtain ⟨r, hr, ht, l, hl, hlt⟩ := h2 1 rfl
  simp only [belowZero, List.mem_cons, List.not_mem_nil, or_false] at hr
  rcases hr with rfl | rfl
  · simp at ht
  · cases hl
    norm_num at hlt

/-- An event that meets the hypotheses of the partial theorem. -/
example : Tradable exPrices ⟨0, some 3, some (1 / 10), some 1⟩ 1 10 3 ∧
    ∃ o, evalEvent exPrices 1 1 ⟨0, some 3, some (1 / 10), some 1⟩ 3 = .ok o := by
  have htr : Tradable exPrices ⟨0, some 3, some (1 / 10), some 1⟩ 1 10 3 :=
    ⟨rfl, Or.inl rfl, ⟨_, List.mem_cons_self, rfl, rfl⟩, by norm_num,
      ⟨_, List.getLast_mem (by decide : exPrices ≠ []), rfl⟩⟩
  obtain ⟨o, ho, -⟩ := evalEvent_spec exPrices 1 1 _ 1 10 3 exPrices_sorted htr
  exact ⟨htr, o, ho⟩

end FinML.Labels
