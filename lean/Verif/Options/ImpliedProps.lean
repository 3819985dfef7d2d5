import Verif.Options.ScaleProps

/-! # Implied volatilities of different quotes (C262)

Quotes of a call and a put on parity, of a cheaper and a dearer option, and in another currency. -/

namespace FinML.Options

open Set

variable {brentq : (ℝ → Py (Option ℝ)) → ℝ → ℝ → ℕ → Py ℝ} {xtol rtol : ℝ}

/-- On parity the put has its price at the volatilities at which the call has. -/
theorem parity_iff {s0 k r t q oc op sigma : ℝ} {divs : Option (List (ℝ × ℝ))} {fut : Bool}
    (hpar : oc - op = (s0 - pv r divs) * Real.exp (-((if fut then r else q) * t)) - k * Real.exp (-(r * t))) :
    bsmOptionPrice .call s0 k r sigma t divs q fut = .ok (some oc) ↔
      bsmOptionPrice .put s0 k r sigma t divs q fut = .ok (some op) := by
  constructor
  · intro h
    obtain ⟨p, hp⟩ := (C108_both s0 k r sigma t q divs fut).1 ⟨_, h⟩
    have := C108_parity h hp
    rw [hp, show p = op by linarith]
  · intro h
    obtain ⟨c, hc⟩ := (C108_both s0 k r sigma t q divs fut).2 ⟨_, h⟩
    have := C108_parity hc h
    rw [hc, show c = oc by linarith]

/-- C262.  A call and a put quoted on put-call parity are both refused or neither is, and what is returned for
the two is close to one and the same volatility. -/
theorem C262_parity (hB : BrentOk brentq xtol rtol) {s0 k r t q oc op lo hi : ℝ} {divs : Option (List (ℝ × ℝ))}
    {fut : Bool} {n n' : ℕ} (hd : divs = none ∨ q = 0) (hs0 : 0 < s0 - pv r divs) (hk : 0 < k) (ht : 0 < t)
    (hlo : 0 < lo) (hlh : lo < hi)
    (hpar : oc - op = (s0 - pv r divs) * Real.exp (-((if fut then r else q) * t)) - k * Real.exp (-(r * t)))
    {ivc ivp : Py ℝ}
    (hc : ivc = impliedVolatility brentq oc (fun sigma => bsmOptionPrice .call s0 k r sigma t divs q fut) lo hi n)
    (hp : ivp = impliedVolatility brentq op (fun sigma => bsmOptionPrice .put s0 k r sigma t divs q fut) lo hi n') :
    (ivc = .error .valueError ↔ ivp = .error .valueError) ∧
    ∀ x y, ivc = .ok x → ivp = .ok y → ∃ sigma ∈ Icc lo hi,
      |x - sigma| ≤ xtol + rtol * sigma ∧ |y - sigma| ≤ xtol + rtol * sigma := by
  obtain ⟨c1, c2, -⟩ := C110_implied hB (.inl rfl) hd hs0 hk ht hlo hlh hc
  obtain ⟨p1, p2, -⟩ := C110_implied hB (.inr rfl) hd hs0 hk ht hlo hlh hp
  refine ⟨?_, fun x y hx hy => ?_⟩
  · rw [c1, p1]
    simp only [parity_iff hpar]
  · obtain ⟨s, hs, hxs, hu⟩ := c2 x hx
    obtain ⟨s', hs', hys, hu'⟩ := p2 y hy
    have e : s = s' := (hu' s (lt_of_lt_of_le hlo hs.1)).1
      ((parity_iff hpar).1 ((hu s (lt_of_lt_of_le hlo hs.1)).2 rfl))
    exact ⟨s, hs, hxs, e ▸ hys⟩

/-- C262.  A dearer quote of the same option has a larger implied volatility (up to the tolerance of the root
finder). -/
theorem C262_dearer (hB : BrentOk brentq xtol rtol) {ot : OptionType} (ho : ot = .call ∨ ot = .put)
    {s0 k r t q o1 o2 lo hi : ℝ} {divs : Option (List (ℝ × ℝ))} {fut : Bool} {n n' : ℕ}
    (hd : divs = none ∨ q = 0) (hs0 : 0 < s0 - pv r divs) (hk : 0 < k) (ht : 0 < t) (hlo : 0 < lo) (hlh : lo < hi)
    (h12 : o1 < o2) {x y : ℝ}
    (h1 : impliedVolatility brentq o1 (fun sigma => bsmOptionPrice ot s0 k r sigma t divs q fut) lo hi n = .ok x)
    (h2 : impliedVolatility brentq o2 (fun sigma => bsmOptionPrice ot s0 k r sigma t divs q fut) lo hi n' = .ok y) :
    ∃ s ∈ Icc lo hi, ∃ s' ∈ Icc lo hi, s < s' ∧ |x - s| ≤ xtol + rtol * s ∧ |y - s'| ≤ xtol + rtol * s' := by
  obtain ⟨-, c2, -⟩ := C110_implied hB ho hd hs0 hk ht hlo hlh h1.symm
  obtain ⟨-, p2, -⟩ := C110_implied hB ho hd hs0 hk ht hlo hlh h2.symm
  obtain ⟨s, hs, hxs, hu⟩ := c2 x rfl
  obtain ⟨s', hs', hys, hu'⟩ := p2 y rfl
  refine ⟨s, hs, s', hs', ?_, hxs, hys⟩
  have e1 := (hu s (lt_of_lt_of_le hlo hs.1)).2 rfl
  have e2 := (hu' s' (lt_of_lt_of_le hlo hs'.1)).2 rfl
  rcases lt_trichotomy s s' with h | h | h
  · exact h
  · rw [h, e2] at e1
    simp only [Except.ok.injEq, Option.some.injEq] at e1
    exact absurd e1 h12.ne'
  · have := C110_increasing ho hs0 hk ht (lt_of_lt_of_le hlo hs'.1) h e2 e1
    exact absurd this (not_lt.2 h12.le)

/-- C262.  A quote in another currency, with spot, strike and dividends in it, is refused if and only if the
original one is, and implies the same volatility. -/
theorem C262_currency (hB : BrentOk brentq xtol rtol) {ot : OptionType} (ho : ot = .call ∨ ot = .put)
    {s0 k r t q o lo hi c : ℝ} {divs : Option (List (ℝ × ℝ))} {fut : Bool} {n n' : ℕ} (hc : 0 < c)
    (hd : divs = none ∨ q = 0) (hs0 : 0 < s0 - pv r divs) (hk : 0 < k) (ht : 0 < t) (hlo : 0 < lo) (hlh : lo < hi)
    {iv iv' : Py ℝ}
    (h1 : iv = impliedVolatility brentq o (fun sigma => bsmOptionPrice ot s0 k r sigma t divs q fut) lo hi n)
    (h2 : iv' = impliedVolatility brentq (c * o) (fun sigma => bsmOptionPrice ot (c * s0) (c * k) r sigma t
      (divs.map (List.map fun v => (c * v.1, v.2))) q fut) lo hi n') :
    (iv = .error .valueError ↔ iv' = .error .valueError) ∧
    ∀ x y, iv = .ok x → iv' = .ok y → ∃ sigma ∈ Icc lo hi,
      |x - sigma| ≤ xtol + rtol * sigma ∧ |y - sigma| ≤ xtol + rtol * sigma := by
  have hpv : c * s0 - pv r (divs.map (List.map fun v => (c * v.1, v.2))) = c * (s0 - pv r divs) := by
    have := spotLess_scale c s0 r divs
    rwa [spotLess_eq, spotLess_eq] at this
  have key : ∀ sigma, bsmOptionPrice ot (c * s0) (c * k) r sigma t (divs.map (List.map fun v => (c * v.1, v.2))) q fut
      = .ok (some (c * o)) ↔ bsmOptionPrice ot s0 k r sigma t divs q fut = .ok (some o) := by
    intro sigma
    rw [C170_bsm_units ot hc]
    generalize bsmOptionPrice ot s0 k r sigma t divs q fut = v
    cases v with
    | error e => simp [Except.map]
    | ok v =>
      cases v with
      | none => simp [Except.map]
      | some v => simp [Except.map, hc.ne']
  obtain ⟨c1, c2, -⟩ := C110_implied hB ho hd hs0 hk ht hlo hlh h1
  obtain ⟨p1, p2, -⟩ := C110_implied hB ho (by rcases hd with h | h <;> simp [h]) (by rw [hpv]; exact mul_pos hc hs0)
    (mul_pos hc hk) ht hlo hlh h2
  refine ⟨?_, fun x y hx hy => ?_⟩
  · rw [c1, p1]
    simp only [key]
  · obtain ⟨s, hs, hxs, hu⟩ := c2 x hx
    obtain ⟨s', hs', hys, hu'⟩ := p2 y hy
    have e : s = s' := (hu' s (lt_of_lt_of_le hlo hs.1)).1 ((key s).2 ((hu s (lt_of_lt_of_le hlo hs.1)).2 rfl))
    exact ⟨s, hs, hxs, e ▸ hys⟩

/-- The hypotheses of the three theorems can be met: quotes of a call and a put on parity. -/
example : ∃ oc op : ℝ, bsmOptionPrice .call 100 100 0 (1 / 5) 1 none 0 false = .ok (some oc) ∧
    bsmOptionPrice .put 100 100 0 (1 / 5) 1 none 0 false = .ok (some op) ∧
    oc - op = (100 - pv 0 none) * Real.exp (-((if false then 0 else 0) * 1)) - 100 * Real.exp (-(0 * 1)) := by
  have hc : ∃ oc, bsmOptionPrice .call 100 100 0 (1 / 5) 1 none 0 false = .ok (some oc) := by
    rw [call_ok (.inl rfl) (by norm_num), bsmCall_eq (by simp [pv]) (by norm_num) (by norm_num) (by norm_num)]
    exact ⟨_, rfl⟩
  obtain ⟨oc, hoc⟩ := hc
  obtain ⟨op, hop⟩ := (C108_both _ _ _ _ _ _ _ _).1 ⟨oc, hoc⟩
  exact ⟨oc, op, hoc, hop, by simpa using C108_parity hoc hop⟩

end FinML.Options
