import Verif.Options.ScaleProps

/-!
# C172: a call is a put with the two assets exchanged
-/

namespace FinML.Options

/-! ## The tree -/

/-- The trees of the two views have the same moves, and probabilities and discounts that are exchanged. -/
theorem tree_dual {tr tr' : Tree} {t r sigma q : ℝ} {n : ℕ} (h : TreeOk tr t r sigma q n)
    (h' : TreeOk tr' t q sigma r n) :
    tr'.u = tr.u ∧ tr'.d = tr.d ∧ tr.disc * (tr.p * tr.u) = tr'.disc * (1 - tr'.p) ∧
      tr.disc * ((1 - tr.p) * tr.d) = tr'.disc * tr'.p := by
  have hdt : tr'.dt = tr.dt := by rw [h.dt_eq, h'.dt_eq]
  have hu : tr'.u = tr.u := by rw [h.u_eq, h'.u_eq, hdt]
  have hd : tr'.d = tr.d := by
    have e := h'.ud
    rw [hu, ← h.ud] at e
    exact mul_left_cancel₀ h.u_pos.ne' e
  have m1 := h.mean
  have m2 := h'.mean
  rw [hu, hd, hdt] at m2
  have ha : Real.exp ((r - q) * tr.dt) * Real.exp ((q - r) * tr.dt) = 1 := by
    rw [← Real.exp_add, show (r - q) * tr.dt + (q - r) * tr.dt = 0 by ring, Real.exp_zero]
  have hdisc : tr'.disc = tr.disc * Real.exp ((r - q) * tr.dt) := by
    rw [h.disc_eq, h'.disc_eq, hdt, ← Real.exp_add]
    ring_nf
  have hud := h.ud
  have hne := h.ne
  refine ⟨hu, hd, ?_, ?_⟩
  · rw [hdisc]
    generalize Real.exp ((r - q) * tr.dt) = a at *
    generalize Real.exp ((q - r) * tr.dt) = b at *
    have : tr.p * tr.u = a * (1 - tr'.p) := by
      apply mul_right_cancel₀ hne
      have e1 : tr.p * (tr.u - tr.d) = a - tr.d := by linear_combination m1
      have e2 : tr'.p * (tr.u - tr.d) = b - tr.d := by linear_combination m2
      linear_combination tr.u * e1 + a * e2 + ha - hud
    rw [this]
    ring
  · rw [hdisc]
    generalize Real.exp ((r - q) * tr.dt) = a at *
    generalize Real.exp ((q - r) * tr.dt) = b at *
    have : (1 - tr.p) * tr.d = a * tr'.p := by
      apply mul_right_cancel₀ hne
      have e1 : tr.p * (tr.u - tr.d) = a - tr.d := by linear_combination m1
      have e2 : tr'.p * (tr.u - tr.d) = b - tr.d := by linear_combination m2
      linear_combination -tr.d * e1 - a * e2 - ha + hud
    rw [this]
    ring

/-- The value of exercising, seen from both sides. -/
theorem payoff_dual (k s : ℝ) : payoff .call k s = payoff .put s k := rfl

theorem X_dual {tr tr' : Tree} {t r sigma q : ℝ} {n : ℕ} (h : TreeOk tr t r sigma q n)
    (h' : TreeOk tr' t q sigma r n) (am : Bool) (m : ℕ) (s k : ℝ) :
    X tr (payoff .call k) (if am then payoff .call k else fun _ => 0) m s =
      X tr' (payoff .put s) (if am then payoff .put s else fun _ => 0) m k := by
  obtain ⟨hu, hd, e1, e2⟩ := tree_dual h h'
  induction m generalizing s k with
  | zero => rfl
  | succ m ih =>
    have sc : ∀ {c : ℝ} (x : ℝ), 0 < c →
        X tr' (payoff .put (c * s)) (if am then payoff .put (c * s) else fun _ => 0) m (c * x) =
          c * X tr' (payoff .put s) (if am then payoff .put s else fun _ => 0) m x := by
      intro c x hc
      cases am with
      | true => exact X_scale hc (payoff_scale .put hc s) (payoff_scale .put hc s) _ _
      | false => exact X_scale hc (payoff_scale .put hc s) (fun _ => (mul_zero c).symm) _ _
    have up : X tr (payoff .call k) (if am then payoff .call k else fun _ => 0) m (s * tr.u) =
        tr.u * X tr' (payoff .put s) (if am then payoff .put s else fun _ => 0) m (k * tr.d) := by
      rw [ih, ← sc _ h.u_pos, mul_comm s tr.u, show tr.u * (k * tr.d) = k by linear_combination k * h.ud]
    have down : X tr (payoff .call k) (if am then payoff .call k else fun _ => 0) m (s * tr.d) =
        tr.d * X tr' (payoff .put s) (if am then payoff .put s else fun _ => 0) m (k * tr.u) := by
      rw [ih, ← sc _ h.d_pos, mul_comm s tr.d, show tr.d * (k * tr.u) = k by linear_combination k * h.ud]
    simp only [X]
    rw [up, down, hu, hd]
    congr 1
    · linear_combination
        X tr' (payoff .put s) (if am then payoff .put s else fun _ => 0) m (k * tr.d) * e1 +
        X tr' (payoff .put s) (if am then payoff .put s else fun _ => 0) m (k * tr.u) * e2
    · cases am <;> rfl

theorem mkTree_dual (t r sigma q : ℝ) (n : ℕ) :
    (mkTree t r sigma q n).isSome = (mkTree t q sigma r n).isSome := by
  unfold mkTree
  simp only
  split <;> rfl

/-- C172.  The binomial price of a call, of either exercise style, is that of a put on the strike struck
at the spot, with rate and yield exchanged.  This includes the errors and NaN. -/
theorem C172_binom (style : OptionType) (s0 k t r sigma q : ℝ) (n : ℤ) :
    binomOptionPrice .call style s0 k t r sigma q false n =
      binomOptionPrice .put style k s0 t q sigma r false n := by
  unfold binomOptionPrice
  have e : ∀ a b : ℝ, yieldUsed a b false = a := fun _ _ => rfl
  simp only [exercise, Option.isNone_some, Bool.false_eq_true, if_false, e]
  by_cases h0 : n = 0
  · rw [if_pos h0, if_pos h0]
  · rw [if_neg h0, if_neg h0]
    by_cases h1 : n < 0
    · rw [if_pos h1, if_pos h1]
    · rw [if_neg h1, if_neg h1]
      have hd := mkTree_dual t r sigma q n.toNat
      cases ht : mkTree t r sigma q n.toNat with
      | none =>
        rw [ht] at hd
        have hn : mkTree t q sigma r n.toNat = none := by
          rw [← Option.not_isSome_iff_eq_none, ← hd]
          simp
        rw [hn]
        cases style <;> rfl
      | some tr =>
        rw [ht] at hd
        obtain ⟨tr', ht'⟩ := Option.isSome_iff_exists.1 hd.symm
        rw [ht']
        cases style <;> simp only [earlyValue, Option.map_some, tree_value, Except.ok.injEq, Option.some.injEq]
        · exact X_dual (mkTree_ok ht) (mkTree_ok ht') true _ _ _
        · exact X_dual (mkTree_ok ht) (mkTree_ok ht') false _ _ _

/-- C172.  On a future there is nothing to exchange but spot and strike. -/
theorem C172_futures (style : OptionType) (s0 k t r sigma q q' : ℝ) (n : ℤ) :
    binomOptionPrice .call style s0 k t r sigma q true n =
      binomOptionPrice .put style k s0 t r sigma q' true n :=
  C172_binom style s0 k t r sigma r n

/-! ## The formula -/

theorem fext_dual {A B y : ℝ} (hAB : A + B = y ^ 2) :
    ((FExt.fin B).div y).neg = ((FExt.fin A).div y).add (-y) ∧
    (((FExt.fin B).div y).add (-y)).neg = (FExt.fin A).div y := by
  obtain rfl : B = y ^ 2 - A := by linarith
  unfold FExt.div
  simp only
  by_cases h0 : y = 0
  · subst h0
    rw [if_pos rfl, if_pos rfl]
    rcases lt_trichotomy A 0 with h | h | h
    · rw [if_neg (not_lt.2 h.le), if_pos h, if_pos (by linarith)]
      exact ⟨rfl, rfl⟩
    · subst h
      simp [FExt.neg, FExt.add]
    · rw [if_pos h, if_neg (by linarith), if_pos (by linarith)]
      exact ⟨rfl, rfl⟩
  · rw [if_neg h0, if_neg h0]
    simp only [FExt.neg, FExt.add, FExt.fin.injEq]
    constructor <;> · field_simp; ring

theorem d_dual {s0 k : ℝ} (hs : 0 < s0) (hk : 0 < k) (r sigma t q : ℝ) :
    (bsmD1 k s0 q sigma t r).neg = bsmD2 s0 k r sigma t q ∧
    (bsmD2 k s0 q sigma t r).neg = bsmD1 s0 k r sigma t q := by
  unfold bsmD2 bsmD1
  by_cases ht : t < 0
  · rw [if_pos ht, if_pos ht]
    exact ⟨rfl, rfl⟩
  · rw [if_neg ht, if_neg ht]
    have h1 : logRatio s0 k = .fin (Real.log s0 - Real.log k) := by
      unfold logRatio npLog
      rw [if_neg hk.ne', if_pos (div_pos hs hk), Real.log_div hs.ne' hk.ne']
    have h2 : logRatio k s0 = .fin (Real.log k - Real.log s0) := by
      unfold logRatio npLog
      rw [if_neg hs.ne', if_pos (div_pos hk hs), Real.log_div hk.ne' hs.ne']
    rw [h1, h2]
    have hy : (sigma * √t) ^ 2 = sigma ^ 2 * t := by
      rw [mul_pow, Real.sq_sqrt (not_lt.1 ht)]
    exact fext_dual (by rw [hy]; ring)

/-- C172.  The same for the Black-Scholes-Merton price. -/
theorem C172_bsm {s0 k : ℝ} (hs : 0 < s0) (hk : 0 < k) (r sigma t q : ℝ) :
    bsmOptionPrice .call s0 k r sigma t none q false = bsmOptionPrice .put k s0 q sigma t none r false := by
  obtain ⟨h1, h2⟩ := d_dual hs hk r sigma t q
  have e : ∀ a b : ℝ, yieldUsed a b false = a := fun _ _ => rfl
  unfold bsmOptionPrice
  simp only [Option.isSome_none, Bool.false_eq_true, false_and, if_false, hs.ne', hk.ne', spotLess, e]
  congr 1
  unfold bsmCall bsmPut
  rw [h1, h2]
  cases (bsmD1 s0 k r sigma t q).cdf <;> cases (bsmD2 s0 k r sigma t q).cdf <;>
    simp
  ring

/-- A call with a yield of 3% and a rate of 1% on a tree of 50 steps, against the put. -/
example : ∃ v, binomOptionPrice .call .american 100 90 1 (1 / 100) (1 / 5) (3 / 100) false (50 : ℕ) = .ok (some v) ∧
    binomOptionPrice .put .american 90 100 1 (3 / 100) (1 / 5) (1 / 100) false (50 : ℕ) = .ok (some v) := by
  obtain ⟨v, hv⟩ : ∃ v, binomOptionPrice .call .american 100 90 1 (1 / 100) (1 / 5) (3 / 100) false (50 : ℕ) =
      .ok (some v) := by
    rw [C103_defined]
    norm_num
  exact ⟨v, hv, by rw [← C172_binom]; exact hv⟩

end FinML.Options
