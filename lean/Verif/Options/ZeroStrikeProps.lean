import Verif.Options.BsmProps

/-! # Property C306: options with a zero strike -/

namespace FinML.Options

/-- C306, the full claim: with a zero strike the call is worth the discounted forward and the put nothing. -/
def ZeroStrike : Prop :=
  ∀ (s0 r sigma t q : ℝ) (divs : Option (List (ℝ × ℝ))) (fut : Bool), (divs = none ∨ q = 0) → pv r divs < s0 →
    0 < sigma → 0 < t →
      bsmOptionPrice .call s0 0 r sigma t divs q fut =
        .ok (some ((s0 - pv r divs) * Real.exp (-((if fut then r else q) * t)))) ∧
      bsmOptionPrice .put s0 0 r sigma t divs q fut = .ok (some 0)

/-- C306, part: the claim for an underlying that pays cash dividends.  Missing from the full claim: an underlying without
them, for which the division by the strike raises, `C306_raises`. -/
theorem C306_dividends_partial (s0 r sigma t : ℝ) (d : ℝ × ℝ) (ds : List (ℝ × ℝ)) (fut : Bool)
    (hs0 : pv r (some (d :: ds)) < s0) (hs : 0 < sigma) (ht : 0 < t) :
    bsmOptionPrice .call s0 0 r sigma t (some (d :: ds)) 0 fut =
        .ok (some ((s0 - pv r (some (d :: ds))) * Real.exp (-((if fut then r else 0) * t)))) ∧
      bsmOptionPrice .put s0 0 r sigma t (some (d :: ds)) 0 fut = .ok (some 0) := by
  have hst : 0 < sigma * √t := mul_pos hs (Real.sqrt_pos.2 ht)
  have h1 : bsmCall (s0 - pv r (some (d :: ds))) 0 r sigma t (if fut then r else 0) =
      some ((s0 - pv r (some (d :: ds))) * Real.exp (-((if fut then r else 0) * t))) := by
    unfold bsmCall bsmD2 bsmD1 logRatio
    rw [if_neg (not_lt.2 ht.le), if_pos rfl, if_pos (sub_pos.2 hs0)]
    simp only [FExt.add, FExt.div, if_neg (not_lt.2 hst.le), FExt.cdf]
    simp
  rw [call_ok' (.inr rfl) (by simp), put_ok' (.inr rfl) (by simp), bsmPut_eq, h1]
  simp

/-- C306: with a zero strike calls and puts raise a ZeroDivisionError exactly if no cash dividend is given (and the
dividends are not refused). -/
theorem C306_raises (ot : OptionType) (hot : ot = .call ∨ ot = .put) (s0 r sigma t q : ℝ)
    (divs : Option (List (ℝ × ℝ))) (fut : Bool) :
    bsmOptionPrice ot s0 0 r sigma t divs q fut = .error .zeroDivision ↔ divs = none ∨ (divs = some [] ∧ q = 0) := by
  unfold bsmOptionPrice
  rcases divs with - | (- | ⟨d, ds⟩)
  · simp
  · by_cases hq : q = 0 <;> simp [hq]
  · by_cases hq : q = 0 <;> rcases hot with rfl | rfl <;> simp [hq]

/-- C306: the value that the claim gives to a zero strike is the limit of the prices: the call with a small strike `k` is
worth less, by at most the present value of `k`, and the put at most the present value of `k`. -/
theorem C306_limit {s0 k r sigma t q c p : ℝ} {divs : Option (List (ℝ × ℝ))} {fut : Bool}
    (hs0 : pv r divs < s0) (hk : 0 < k) (hs : 0 < sigma) (ht : 0 < t)
    (hc : bsmOptionPrice .call s0 k r sigma t divs q fut = .ok (some c))
    (hp : bsmOptionPrice .put s0 k r sigma t divs q fut = .ok (some p)) :
    |c - (s0 - pv r divs) * Real.exp (-((if fut then r else q) * t))| < k * Real.exp (-(r * t)) ∧
      |p| < k * Real.exp (-(r * t)) := by
  obtain ⟨hd, -, -⟩ := call_cases hc
  obtain ⟨c', p', h1, h2, h3, h4, h5, h6⟩ := C109_bounds (divs := divs) (fut := fut) hd (sub_pos.2 hs0) hk hs ht rfl rfl
  rw [hc] at h1
  rw [hp] at h2
  cases h1
  cases h2
  have h7 := lt_of_le_of_lt (le_max_right _ _) h3
  have h8 := lt_of_le_of_lt (le_max_left _ _) h5
  exact ⟨abs_lt.2 ⟨by linarith, by linarith [h8]⟩, abs_lt.2 ⟨by linarith, h6⟩⟩

/-- C306, the full claim does not hold: without dividends a zero strike raises. -/
theorem C306_zero_strike_counterexample : ¬ ZeroStrike := by
  intro h
  have h1 := (h 1 0 1 1 0 none false (.inl rfl) (by simp [pv]) one_pos one_pos).1
  rw [(C306_raises .call (.inl rfl) 1 0 1 1 0 none false).2 (.inl rfl)] at h1
  cases h1

/-- A share at 100 that pays a dividend of 2 in half a year: the call with strike 0 is worth 98 without interest. -/
example : bsmOptionPrice .call 100 0 0 (1 / 5) 1 (some [(2, 1 / 2)]) 0 false = .ok (some 98) := by
  rw [(C306_dividends_partial 100 0 (1 / 5) 1 (2, 1 / 2) [] false (by norm_num [pv]) (by norm_num) one_pos).1]
  norm_num [pv]

end FinML.Options
