import Verif.Labels.DoubleModel
import Verif.Labels.Lemmas
import Verif.Alloc.DoubleProps
import Verif.Bars.DoubleProps

/-! # The triple barriers in doubles (C279, C280) -/

namespace FinML.Labels

open FinML.Alloc FinML.CV

/-- Every price of the table, if there, is a positive double. -/
def DoublePrices (prices : List (Row ℚ)) : Prop :=
  ∀ r ∈ prices, ∀ x, r.op = some x ∨ r.high = some x ∨ r.low = some x ∨ r.close = some x → 0 < x ∧ IsDouble x

/-- C279, full claim, times: with prices, target and multipliers that are doubles, an event ends, in doubles, when
it should. -/
def DoubleEnds : Prop := ∀ (prices : List (Row ℚ)) (ptMul slMul : ℚ) (e : Event ℚ) (expiry : ℤ) (o oR : Outcome ℚ),
  DoublePrices prices → IsDouble ptMul → IsDouble slMul → (∀ x, e.target = some x → IsDouble x) →
  evalEvent prices ptMul slMul e expiry = .ok o → evalEventR signedDouble prices ptMul slMul e expiry = .ok oR →
  oR.endTime = o.endTime

/-- C279, full claim, labels: with prices, target and multipliers that are doubles, the return of an event has, in
doubles, the sign it should have. -/
def DoubleLabels : Prop := ∀ (prices : List (Row ℚ)) (ptMul slMul : ℚ) (e : Event ℚ) (expiry : ℤ) (o oR : Outcome ℚ),
  DoublePrices prices → IsDouble ptMul → IsDouble slMul → (∀ x, e.target = some x → IsDouble x) →
  evalEvent prices ptMul slMul e expiry = .ok o → evalEventR signedDouble prices ptMul slMul e expiry = .ok oR →
  oR.ret.map SignType.sign = o.ret.map SignType.sign

/-- Prices that rise by exactly a tenth and then fall below the start. -/
def upDown : List (Row ℚ) :=
  [⟨0, some 100, some 100, some 100, some 100⟩, ⟨1, some 100, some 110, some 100, some 100⟩,
    ⟨2, some 100, some 100, some 95, some 95⟩]

theorem isDouble_nat (k : ℕ) (hk : k < 2 ^ 53) : IsDouble (k : ℚ) := ⟨k, 0, hk, by simp⟩

theorem upDown_doubles : DoublePrices upDown := by
  intro r hr x hx
  have h100 : IsDouble (100 : ℚ) := by simpa using isDouble_nat 100 (by norm_num)
  have h110 : IsDouble (110 : ℚ) := by simpa using isDouble_nat 110 (by norm_num)
  have h95 : IsDouble (95 : ℚ) := by simpa using isDouble_nat 95 (by norm_num)
  simp only [upDown, List.mem_cons, List.not_mem_nil, or_false] at hr
  rcases hr with rfl | rfl | rfl <;>
  · simp only [Option.some.injEq] at hx
    rcases hx with rfl | rfl | rfl | rfl <;> constructor <;> first | assumption | norm_num

/-- C279, counterexample: a long event at 100 with target `0.1` and both multipliers one.  The price reaches exactly
110, whose return is a tenth and not above the double `0.1`; in doubles `110/100 - 1` is above it.  So the event is
closed with a profit and labelled 1, where it should run to its expiry, with a loss. -/
theorem C279_barriers_counterexample : ¬ DoubleEnds ∧ ¬ DoubleLabels := by
  have hd : IsDouble (roundDouble (1 / 10)) := (C45_rounding (1 / 10) (by norm_num)).1
  have h1 : IsDouble (1 : ℚ) := by simpa using isDouble_nat 1 (by norm_num)
  have a : evalEvent upDown 1 1 ⟨0, some 2, some (roundDouble (1 / 10)), some 1⟩ 2 =
      .ok ⟨none, none, 2, some (-1 / 20)⟩ := by decide +kernel
  have b : evalEventR signedDouble upDown 1 1 ⟨0, some 2, some (roundDouble (1 / 10)), some 1⟩ 2 =
      .ok ⟨some 1, none, 1, some (roundDouble (11 / 10) - 1)⟩ := by decide +kernel
  constructor
  · intro h
    have := h _ _ _ _ _ _ _ upDown_doubles h1 h1 (by rintro x hx; cases hx; exact hd) a b
    norm_num at this
  · intro h
    have := h _ _ _ _ _ _ _ upDown_doubles h1 h1 (by rintro x hx; cases hx; exact hd) a b
    have hp : 0 < roundDouble (11 / 10) - 1 := by decide +kernel
    have hn : (-1 / 20 : ℚ) < 0 := by norm_num
    simp [sign_pos hp, sign_neg hn] at this

/-- C279. Without rounding the outcome in doubles is that of the exact model. -/
theorem C279_without_rounding (prices : List (Row ℚ)) (ptMul slMul : ℚ) (e : Event ℚ) (expiry : ℤ) :
    evalEventR id prices ptMul slMul e expiry = evalEvent prices ptMul slMul e expiry := rfl

theorem atLabel_rel {α β : Type} (R : α → β → Prop) (path : List (Row ℚ)) (f : Row ℚ → α) (g : Row ℚ → β)
    (h : ∀ r ∈ path, R (f r) (g r)) (t : ℤ) (x : α) (hx : atLabel (path.map fun r => (r.time, f r)) t = .ok x) :
    ∃ y, atLabel (path.map fun r => (r.time, g r)) t = .ok y ∧ R x y := by
  induction path with
  | nil => simp [atLabel] at hx
  | cons a l ih =>
    unfold atLabel at hx ih ⊢
    simp only [List.map_cons] at hx ⊢
    by_cases ht : a.time = t
    · rw [List.find?_cons_of_pos (by simpa using ht)] at hx ⊢
      cases hx
      exact ⟨_, rfl, h a (by simp)⟩
    · rw [List.find?_cons_of_neg (by simpa using ht)] at hx ⊢
      exact ih (fun r hr => h r (by simp [hr])) hx

/-- The end of the loop body, given both paths and both times. -/
theorem compare (R : Option ℚ → Option ℚ → Prop) (rd : ℚ → ℚ) (prices : List (Row ℚ)) (ptMul slMul : ℚ)
    (e : Event ℚ) (expiry : ℤ) (side : ℤ) (s0 : Row ℚ) (hs0 : rowAt prices e.start = .ok s0) (hside : e.side = some side)
    (hpt : minTime (((ptPathR rd (window prices e expiry) s0.op side).filter fun p =>
        gtNan p.2 (ptLimitR rd ptMul e)).map Prod.fst) =
      minTime (((ptPath (window prices e expiry) s0.op side).filter fun p =>
        gtNan p.2 (ptLimit ptMul e)).map Prod.fst))
    (hsl : minTime (((slPathR rd (window prices e expiry) s0.op side).filter fun p =>
        ltNan p.2 (slLimitR rd slMul e)).map Prod.fst) =
      minTime (((slPath (window prices e expiry) s0.op side).filter fun p =>
        ltNan p.2 (slLimit slMul e)).map Prod.fst))
    (hR : ∀ r ∈ prices, ∀ x, x = r.high ∨ x = r.low ∨ x = r.close → R (retOf s0.op x) (retR rd s0.op x) ∧
      R (negNan (retOf s0.op x)) (negNan (retR rd s0.op x)))
    (o : Outcome ℚ) (ho : evalEvent prices ptMul slMul e expiry = .ok o) :
    ∃ oR, evalEventR rd prices ptMul slMul e expiry = .ok oR ∧ oR.ptTime = o.ptTime ∧ oR.slTime = o.slTime ∧
      oR.endTime = o.endTime ∧ R o.ret oR.ret := by
  unfold evalEvent at ho
  unfold evalEventR
  simp only [hs0, hside, py_bind_ok] at ho ⊢
  by_cases h1 : ¬ (side = -1 ∨ side = 1)
  · simp only [h1] at ho
    cases ho
  by_cases h2 : s0.op = some 0
  · simp only [h1, h2, if_true, if_false] at ho
    cases ho
  simp only [h1, h2, if_false] at ho ⊢
  unfold window at hpt hsl
  simp only [hpt, hsl]
  have hw : ∀ r ∈ prices.filter (fun r => e.start ≤ r.time ∧ r.time ≤ expiry), r ∈ prices :=
    fun r hr => List.mem_of_mem_filter hr
  generalize minTime (((ptPath (prices.filter fun r => e.start ≤ r.time ∧ r.time ≤ expiry) s0.op side).filter fun p =>
        gtNan p.2 (ptLimit ptMul e)).map Prod.fst) = pT at ho ⊢
  generalize minTime (((slPath (prices.filter fun r => e.start ≤ r.time ∧ r.time ≤ expiry) s0.op side).filter fun p =>
        ltNan p.2 (slLimit slMul e)).map Prod.fst) = sT at ho ⊢
  have hP := fun t x => atLabel_rel R (prices.filter fun r => e.start ≤ r.time ∧ r.time ≤ expiry)
    (fun r => if side = 1 then retOf s0.op r.high else negNan (retOf s0.op r.low))
    (fun r => if side = 1 then retR rd s0.op r.high else negNan (retR rd s0.op r.low))
    (fun r hr => by
      by_cases hs : side = 1
      · simp only [hs, if_true]; exact (hR r (hw r hr) _ (Or.inl rfl)).1
      · simp only [hs, if_false]; exact (hR r (hw r hr) _ (Or.inr (Or.inl rfl))).2) t x
  have hS := fun t x => atLabel_rel R (prices.filter fun r => e.start ≤ r.time ∧ r.time ≤ expiry)
    (fun r => if side = 1 then retOf s0.op r.low else negNan (retOf s0.op r.high))
    (fun r => if side = 1 then retR rd s0.op r.low else negNan (retR rd s0.op r.high))
    (fun r hr => by
      by_cases hs : side = 1
      · simp only [hs, if_true]; exact (hR r (hw r hr) _ (Or.inr (Or.inl rfl))).1
      · simp only [hs, if_false]; exact (hR r (hw r hr) _ (Or.inl rfl)).2) t x
  change ∀ t x, atLabel (ptPath _ s0.op side) t = .ok x →
    ∃ y, atLabel (ptPathR rd _ s0.op side) t = .ok y ∧ R x y at hP
  change ∀ t x, atLabel (slPath _ s0.op side) t = .ok x →
    ∃ y, atLabel (slPathR rd _ s0.op side) t = .ok y ∧ R x y at hS
  cases pT with
  | none =>
    cases sT with
    | none =>
      simp only [py_bind_eq_ok, py_pure] at ho ⊢
      obtain ⟨c, hc, ho⟩ := ho
      cases ho
      exact ⟨_, ⟨c, hc, rfl⟩, rfl, rfl, rfl, (hR c (rowAt_eq_ok _ _ _ hc).1 _ (Or.inr (Or.inr rfl))).1⟩
    | some s =>
      simp only [py_bind_eq_ok, py_pure] at ho ⊢
      obtain ⟨x, hx, ho⟩ := ho
      cases ho
      obtain ⟨y, hy, hxy⟩ := hS _ _ hx
      exact ⟨_, ⟨y, hy, rfl⟩, rfl, rfl, rfl, hxy⟩
  | some p =>
    cases sT with
    | none =>
      simp only [py_bind_eq_ok, py_pure] at ho ⊢
      obtain ⟨x, hx, ho⟩ := ho
      cases ho
      obtain ⟨y, hy, hxy⟩ := hP _ _ hx
      exact ⟨_, ⟨y, hy, rfl⟩, rfl, rfl, rfl, hxy⟩
    | some s =>
      by_cases hps : p < s
      · simp only [hps, if_true, py_bind_eq_ok, py_pure] at ho ⊢
        obtain ⟨x, hx, ho⟩ := ho
        cases ho
        obtain ⟨y, hy, hxy⟩ := hP _ _ hx
        exact ⟨_, ⟨y, hy, rfl⟩, rfl, rfl, rfl, hxy⟩
      · simp only [hps, if_false, py_bind_eq_ok, py_pure] at ho ⊢
        obtain ⟨x, hx, ho⟩ := ho
        cases ho
        obtain ⟨y, hy, hxy⟩ := hS _ _ hx
        exact ⟨_, ⟨y, hy, rfl⟩, rfl, rfl, rfl, hxy⟩

theorem retR_err (s p : ℚ) (h : 0 ≤ p / s) :
    |signedDouble (signedDouble (p / s) - 1) - (p / s - 1)| ≤ (2 * (p / s) + 1) / 2 ^ 52 := by
  set x := p / s
  have h1 := signedDouble_err x
  have h2 := signedDouble_err (signedDouble x - 1)
  rw [abs_of_nonneg h] at h1
  have h3 : |signedDouble x - 1| ≤ x + 1 + x / 2 ^ 53 := by
    have h4 := abs_le.1 h1
    rw [abs_le]
    constructor <;> linarith [h4.1, h4.2]
  generalize signedDouble (signedDouble x - 1) = z at *
  generalize signedDouble x = y at *
  have h5 : |z - (y - 1)| ≤ (x + 1 + x / 2 ^ 53) / 2 ^ 53 := h2.trans (by gcongr)
  have a := abs_le.1 h5
  have b := abs_le.1 h1
  rw [abs_le]
  constructor <;> linarith [a.1, a.2, b.1, b.2]

/-- The return of a price is farther from the limit than rounding can carry it. -/
def Clear (s p limit : ℚ) : Prop := (2 * (p / s) + 1 + |limit|) / 2 ^ 52 < |p / s - 1 - limit|

theorem clear_iff {s p l : ℚ} (h : 0 ≤ p / s) (hc : Clear s p l) :
    (signedDouble l < signedDouble (signedDouble (p / s) - 1) ↔ l < p / s - 1) ∧
      (signedDouble (signedDouble (p / s) - 1) < signedDouble l ↔ p / s - 1 < l) := by
  have h1 := abs_le.1 (retR_err s p h)
  have h2 := abs_le.1 (signedDouble_err l)
  unfold Clear at hc
  generalize signedDouble (signedDouble (p / s) - 1) = z at *
  generalize signedDouble l = w at *
  have h0 := abs_nonneg l
  rcases lt_or_ge 0 (p / s - 1 - l) with hp | hp
  · rw [abs_of_pos hp] at hc
    refine ⟨⟨fun _ => by linarith, fun _ => ?_⟩, ⟨fun _ => ?_, fun _ => by linarith⟩⟩ <;>
    linarith [h1.1, h1.2, h2.1, h2.2]
  · rw [abs_of_nonpos hp] at hc
    refine ⟨⟨fun _ => ?_, fun _ => by linarith⟩, ⟨fun _ => ?_, fun _ => ?_⟩⟩ <;>
    linarith [h1.1, h1.2, h2.1, h2.2]

/-- All the bars of an event are clear of both barriers. -/
def AllClear (prices : List (Row ℚ)) (ptMul slMul : ℚ) (e : Event ℚ) (expiry side : ℤ) (s : ℚ) : Prop :=
  ∀ r ∈ prices, e.start ≤ r.time → r.time ≤ expiry → ∀ x, e.target = some x →
    (0 < ptMul → ∀ p, bestPrice side r = some p → Clear s p (side * (ptMul * x))) ∧
    (0 < slMul → ∀ p, worstPrice side r = some p → Clear s p (side * (-slMul * x)))

theorem times_congr (path : List (Row ℚ)) (f g : Row ℚ → Option ℚ) (P Q : Option ℚ → Bool)
    (h : ∀ r ∈ path, P (f r) = Q (g r)) :
    ((path.map fun r => (r.time, f r)).filter fun p => P p.2).map Prod.fst =
      ((path.map fun r => (r.time, g r)).filter fun p => Q p.2).map Prod.fst := by
  induction path with
  | nil => rfl
  | cons a l ih =>
    have := h a (by simp)
    simp only [List.map_cons, List.filter_cons, this]
    split_ifs <;> simp only [List.map_cons, ih fun r hr => h r (by simp [hr])]

/-- C279, what holds: when no bar of the event comes within a rounding error of a barrier, the event ends, in
doubles, when it should, by the barrier it should, and with the return it should up to rounding (missing: prices
that reach a barrier exactly, or nearly). -/
theorem C279_clear_partial (prices : List (Row ℚ)) (ptMul slMul : ℚ) (e : Event ℚ) (expiry side : ℤ) (s : ℚ)
    (s0 : Row ℚ) (hs0 : rowAt prices e.start = .ok s0) (hs : s0.op = some s) (hside : e.side = some side)
    (hpos : 0 < s) (hnn : ∀ r ∈ prices, ∀ x, r.high = some x ∨ r.low = some x ∨ r.close = some x → 0 ≤ x)
    (hc : AllClear prices ptMul slMul e expiry side s) (o : Outcome ℚ)
    (ho : evalEvent prices ptMul slMul e expiry = .ok o) :
    ∃ oR, evalEventR signedDouble prices ptMul slMul e expiry = .ok oR ∧ oR.ptTime = o.ptTime ∧
      oR.slTime = o.slTime ∧ oR.endTime = o.endTime ∧ (oR.ret = none ↔ o.ret = none) ∧
      ∀ x y, o.ret = some x → oR.ret = some y → |y - x| ≤ (2 * |x| + 3) / 2 ^ 52 := by
  have hsd : side = 1 ∨ side = -1 := by
    by_contra hcon
    unfold evalEvent at ho
    simp only [hs0, hside, py_bind_ok] at ho
    have h1 : ¬ (side = -1 ∨ side = 1) := by tauto
    simp only [h1] at ho
    cases ho
  refine (compare (fun a b => (b = none ↔ a = none) ∧ ∀ x y, a = some x → b = some y → |y - x| ≤ (2 * |x| + 3) / 2 ^ 52)
    signedDouble prices ptMul slMul e expiry side s0 hs0 hside ?_ ?_ ?_ o ho)
  · congr 1
    unfold ptPath ptPathR
    refine times_congr _ _ _ (fun v => gtNan v (ptLimitR signedDouble ptMul e)) (fun v => gtNan v (ptLimit ptMul e)) ?_
    intro r hr
    rw [mem_window] at hr
    rw [hs]
    unfold ptLimit ptLimitR
    cases ht : e.target with
    | none => simp [gtNan]
    | some x =>
      by_cases hp : 0 < ptMul
      · have hcl := (hc r hr.1 hr.2.1 hr.2.2 x ht).1 hp
        rcases hsd with rfl | rfl
        · simp only [hp, if_true, Option.map_some, bestPrice] at hcl ⊢
          cases hh : r.high with
          | none => rfl
          | some p =>
            have := clear_iff (div_nonneg (hnn r hr.1 p (Or.inl hh)) hpos.le) (hcl p hh)
            simp only [Int.cast_one, one_mul] at this
            simp [gtNan, retR, retOf, this.1]
        · simp only [hp, if_true, Option.map_some, bestPrice] at hcl ⊢
          cases hh : r.low with
          | none => rfl
          | some p =>
            have := clear_iff (div_nonneg (hnn r hr.1 p (Or.inr (Or.inl hh))) hpos.le) (hcl p hh)
            simp only [Int.cast_neg, Int.cast_one, neg_one_mul, signedDouble_neg] at this
            have h2 := this.2
            simp only [gtNan, retR, retOf, negNan, Option.bind_some, Option.map_some]
            simp only [show ((-1 : ℤ) = 1) = False by simp, if_false, decide_eq_decide]
            rw [lt_neg, h2, lt_neg]
      · simp [hp, gtNan]
  · congr 1
    unfold slPath slPathR
    refine times_congr _ _ _ (fun v => ltNan v (slLimitR signedDouble slMul e)) (fun v => ltNan v (slLimit slMul e)) ?_
    intro r hr
    rw [mem_window] at hr
    rw [hs]
    unfold slLimit slLimitR
    cases ht : e.target with
    | none => simp [ltNan]
    | some x =>
      by_cases hp : 0 < slMul
      · have hcl := (hc r hr.1 hr.2.1 hr.2.2 x ht).2 hp
        rcases hsd with rfl | rfl
        · simp only [hp, if_true, Option.map_some, worstPrice] at hcl ⊢
          cases hh : r.low with
          | none => rfl
          | some p =>
            have := clear_iff (div_nonneg (hnn r hr.1 p (Or.inr (Or.inl hh))) hpos.le) (hcl p hh)
            simp only [Int.cast_one, one_mul] at this
            simpa [ltNan, retR, retOf] using this.2
        · simp only [hp, if_true, Option.map_some, worstPrice] at hcl ⊢
          cases hh : r.high with
          | none => rfl
          | some p =>
            have := clear_iff (div_nonneg (hnn r hr.1 p (Or.inl hh)) hpos.le) (hcl p hh)
            have h2 := this.1
            rw [show (((-1 : ℤ) : ℚ) * (-slMul * x)) = -(-slMul * x) by push_cast; ring, signedDouble_neg] at h2
            simp only [ltNan, retR, retOf, negNan, Option.bind_some, Option.map_some]
            simp only [show ((-1 : ℤ) = 1) = False by simp, if_false, decide_eq_decide]
            rw [neg_lt, h2, neg_lt]
      · simp [hp, ltNan]
  · intro r hr x hx
    cases x with
    | none => simp [retOf, retR, hs, negNan]
    | some p =>
      have hp : 0 ≤ p := hnn r hr p (by
        rcases hx with h | h | h
        · exact Or.inl h.symm
        · exact Or.inr (Or.inl h.symm)
        · exact Or.inr (Or.inr h.symm))
      have h1 := retR_err s p (div_nonneg hp hpos.le)
      have h2 : (2 * (p / s) + 1) / 2 ^ 52 ≤ (2 * |p / s - 1| + 3) / 2 ^ 52 := by
        have := le_abs_self (p / s - 1)
        apply div_le_div_of_nonneg_right _ (by norm_num)
        linarith
      simp only [retOf, retR, hs, negNan, Option.bind_some, Option.map_some]
      refine ⟨⟨by simp, ?_⟩, ⟨by simp, ?_⟩⟩
      · rintro a b ha hb
        cases ha; cases hb
        exact h1.trans h2
      · rintro a b ha hb
        cases ha; cases hb
        rw [abs_neg, ← abs_neg, show -(-signedDouble (signedDouble (p / s) - 1) - -(p / s - 1)) =
          signedDouble (signedDouble (p / s) - 1) - (p / s - 1) by ring]
        exact h1.trans h2

/-- Two doubles, one larger, over their common unit: whole numbers, one of them below `2^53`. -/
theorem doubles_ratio {p s : ℚ} (hp : IsDouble p) (hs : IsDouble s) :
    ∃ (P S : ℕ) (g : ℤ), p = P * (2 : ℚ) ^ g ∧ s = S * (2 : ℚ) ^ g ∧ (P < 2 ^ 53 ∨ S < 2 ^ 53) := by
  obtain ⟨m, e, hm, rfl⟩ := hp
  obtain ⟨n, f, hn, rfl⟩ := hs
  have h2 : (2 : ℚ) ≠ 0 := by norm_num
  rcases le_total e f with h | h
  · refine ⟨m, n * 2 ^ (f - e).toNat, e, rfl, ?_, Or.inl hm⟩
    push_cast
    rw [mul_assoc, ← zpow_natCast, ← zpow_add₀ h2, Int.toNat_of_nonneg (by omega)]
    congr 2
    omega
  · refine ⟨m * 2 ^ (e - f).toNat, n, f, ?_, rfl, Or.inr hn⟩
    push_cast
    rw [mul_assoc, ← zpow_natCast, ← zpow_add₀ h2, Int.toNat_of_nonneg (by omega)]
    congr 2
    omega

theorem ratio_above {p s : ℚ} (hp : IsDouble p) (hs : IsDouble s) (h0 : 0 < s) (h : s < p) :
    1 < signedDouble (p / s) := by
  obtain ⟨P, S, g, rfl, rfl, hb⟩ := doubles_ratio hp hs
  have h2 : (0 : ℚ) < (2 : ℚ) ^ g := by positivity
  have hS : (0 : ℚ) < S := by
    by_contra hc
    nlinarith
  have hSP : S < P := by
    have := lt_of_mul_lt_mul_right h h2.le
    exact_mod_cast this
  have hS' : (S : ℚ) ≤ 2 ^ 53 - 1 := by
    have : S ≤ 2 ^ 53 - 1 := by omega
    have : (S : ℚ) ≤ ((2 ^ 53 - 1 : ℕ) : ℚ) := by exact_mod_cast this
    refine this.trans ?_
    norm_num
  have hSP' : (S : ℚ) + 1 ≤ P := by exact_mod_cast hSP
  have hq : (1 + 1 / (2 ^ 53 - 1) : ℚ) ≤ P * (2 : ℚ) ^ g / (S * (2 : ℚ) ^ g) := by
    rw [mul_div_mul_right _ _ h2.ne', le_div_iff₀ hS]
    have : (1 / (2 ^ 53 - 1) : ℚ) * S ≤ 1 := by
      rw [div_mul_eq_mul_div, one_mul, div_le_one (by norm_num)]
      exact hS'
    linarith
  refine lt_of_lt_of_le ?_ (signedDouble_mono hq)
  decide +kernel

theorem ratio_below {p s : ℚ} (hp : IsDouble p) (hs : IsDouble s) (hp0 : 0 < p) (h : p < s) :
    signedDouble (p / s) < 1 := by
  obtain ⟨P, S, g, rfl, rfl, hb⟩ := doubles_ratio hp hs
  have h2 : (0 : ℚ) < (2 : ℚ) ^ g := by positivity
  have hP : (0 : ℚ) < P := by
    by_contra hc
    nlinarith
  have hPS : P < S := by
    have := lt_of_mul_lt_mul_right h h2.le
    exact_mod_cast this
  have hP' : (P : ℚ) ≤ 2 ^ 53 - 1 := by
    have : P ≤ 2 ^ 53 - 1 := by omega
    have : (P : ℚ) ≤ ((2 ^ 53 - 1 : ℕ) : ℚ) := by exact_mod_cast this
    refine this.trans ?_
    norm_num
  have hPS' : (P : ℚ) + 1 ≤ S := by exact_mod_cast hPS
  have hS : (0 : ℚ) < S := by linarith
  have hq : P * (2 : ℚ) ^ g / (S * (2 : ℚ) ^ g) ≤ (1 - 1 / 2 ^ 53 : ℚ) := by
    rw [mul_div_mul_right _ _ h2.ne', div_le_iff₀ hS]
    have : (1 / 2 ^ 53 : ℚ) * P ≤ 1 - 1 / 2 ^ 53 := by
      have := mul_le_mul_of_nonneg_left hP' (show (0 : ℚ) ≤ 1 / 2 ^ 53 by positivity)
      refine this.trans (le_of_eq ?_)
      norm_num
    have h3 : (1 - 1 / 2 ^ 53 : ℚ) * (P + 1) ≤ (1 - 1 / 2 ^ 53 : ℚ) * S :=
      mul_le_mul_of_nonneg_left hPS' (by norm_num)
    linarith
  refine lt_of_le_of_lt (signedDouble_mono hq) ?_
  decide +kernel

theorem sign_signedDouble (q : ℚ) : SignType.sign (signedDouble q) = SignType.sign q := by
  have h := signedDouble_err q
  rcases lt_trichotomy q 0 with hq | rfl | hq
  · rw [abs_of_neg hq, abs_le] at h
    rw [sign_neg hq, sign_neg]
    linarith [h.1, h.2]
  · simp only [abs_zero, zero_div, sub_zero, abs_nonpos_iff] at h
    rw [h]
  · rw [abs_of_pos hq, abs_le] at h
    rw [sign_pos hq, sign_pos]
    linarith [h.1, h.2]

/-- C280, one price: the return computed in doubles is positive, zero or negative as the price is above, at or below
the start. -/
theorem C280_sign (s p : ℚ) (hs : 0 < s) (hp : 0 < p) (hds : IsDouble s) (hdp : IsDouble p) :
    (retR signedDouble (some s) (some p)).map SignType.sign = some (SignType.sign (p - s)) := by
  simp only [retR, Option.bind_some, Option.map_some, sign_signedDouble, Option.some.injEq]
  rcases lt_trichotomy p s with h | rfl | h
  · have := ratio_below hdp hds hp h
    rw [sign_neg (by linarith), sign_neg (by linarith)]
  · rw [div_self hs.ne', signedDouble_one, sub_self, sub_self]
  · have := ratio_above hdp hds hs h
    rw [sign_pos (by linarith), sign_pos (by linarith)]

theorem times_of_ok (rd : ℚ → ℚ) (prices : List (Row ℚ)) (ptMul slMul : ℚ) (e : Event ℚ) (expiry side : ℤ) (s0 : Row ℚ)
    (hs0 : rowAt prices e.start = .ok s0) (hside : e.side = some side) (o : Outcome ℚ)
    (ho : evalEventR rd prices ptMul slMul e expiry = .ok o) :
    o.ptTime = minTime (((ptPathR rd (window prices e expiry) s0.op side).filter fun p =>
        gtNan p.2 (ptLimitR rd ptMul e)).map Prod.fst) ∧
      o.slTime = minTime (((slPathR rd (window prices e expiry) s0.op side).filter fun p =>
        ltNan p.2 (slLimitR rd slMul e)).map Prod.fst) := by
  unfold evalEventR at ho
  simp only [hs0, hside, py_bind_ok] at ho
  by_cases h1 : ¬ (side = -1 ∨ side = 1)
  · simp only [h1] at ho
    cases ho
  by_cases h2 : s0.op = some 0
  · simp only [h1, h2, if_true, if_false] at ho
    cases ho
  simp only [h1, h2, if_false] at ho
  unfold window
  generalize minTime (((ptPathR rd (prices.filter fun r => e.start ≤ r.time ∧ r.time ≤ expiry) s0.op side).filter fun p =>
        gtNan p.2 (ptLimitR rd ptMul e)).map Prod.fst) = pT at ho ⊢
  generalize minTime (((slPathR rd (prices.filter fun r => e.start ≤ r.time ∧ r.time ≤ expiry) s0.op side).filter fun p =>
        ltNan p.2 (slLimitR rd slMul e)).map Prod.fst) = sT at ho ⊢
  cases pT <;> cases sT
  · simp only [py_bind_eq_ok, py_pure] at ho
    obtain ⟨c, -, ho⟩ := ho
    cases ho
    exact ⟨rfl, rfl⟩
  · simp only [py_bind_eq_ok, py_pure] at ho
    obtain ⟨c, -, ho⟩ := ho
    cases ho
    exact ⟨rfl, rfl⟩
  · simp only [py_bind_eq_ok, py_pure] at ho
    obtain ⟨c, -, ho⟩ := ho
    cases ho
    exact ⟨rfl, rfl⟩
  · dsimp only at ho
    split_ifs at ho <;>
    · simp only [py_bind_eq_ok, py_pure] at ho
      obtain ⟨c, -, ho⟩ := ho
      cases ho
      exact ⟨rfl, rfl⟩

/-- C280, one event: with positive doubles as prices, if the doubles find the touches of the two barriers where they
are, then the return has the right sign, however small it is; so both labels and meta-labels are right. -/
theorem C280_event (prices : List (Row ℚ)) (ptMul slMul : ℚ) (e : Event ℚ) (expiry : ℤ) (o oR : Outcome ℚ)
    (hd : DoublePrices prices) (ho : evalEvent prices ptMul slMul e expiry = .ok o)
    (hoR : evalEventR signedDouble prices ptMul slMul e expiry = .ok oR)
    (hp : oR.ptTime = o.ptTime) (hs : oR.slTime = o.slTime) :
    oR.endTime = o.endTime ∧ oR.ret.map SignType.sign = o.ret.map SignType.sign ∧
      ∀ (x : Option ℤ) (hasSide cancel : Bool), rowLabel ⟨x, some oR.endTime, oR.ret⟩ hasSide cancel =
        rowLabel ⟨x, some o.endTime, o.ret⟩ hasSide cancel := by
  have key : oR.endTime = o.endTime ∧ oR.ret.map SignType.sign = o.ret.map SignType.sign := by
    cases h0 : rowAt prices e.start with
    | error er =>
      unfold evalEvent at ho
      simp only [h0] at ho
      cases ho
    | ok s0 =>
      cases h1 : e.side with
      | none =>
        unfold evalEvent at ho
        simp only [h0, h1, py_bind_ok] at ho
        cases ho
      | some side =>
        have hR := times_of_ok signedDouble prices ptMul slMul e expiry side s0 h0 h1 oR hoR
        have hE := times_of_ok id prices ptMul slMul e expiry side s0 h0 h1 o ho
        obtain ⟨o', a, -, -, b, c⟩ := compare (fun a b => b.map SignType.sign = a.map SignType.sign) signedDouble prices
          ptMul slMul e expiry side s0 h0 h1 (hR.1.symm.trans (hp.trans hE.1)) (hR.2.symm.trans (hs.trans hE.2)) (by
            intro r hr x hx
            cases hop : s0.op with
            | none => simp [retOf, retR, negNan]
            | some s =>
              cases x with
              | none => simp [retOf, retR, negNan]
              | some p =>
                obtain ⟨hs1, hs2⟩ := hd s0 (rowAt_eq_ok _ _ _ h0).1 s (Or.inl hop)
                obtain ⟨hp1, hp2⟩ := hd r hr p (by
                  rcases hx with h | h | h
                  · exact Or.inr (Or.inl h.symm)
                  · exact Or.inr (Or.inr (Or.inl h.symm))
                  · exact Or.inr (Or.inr (Or.inr h.symm)))
                have h3 := C280_sign s p hs1 hp1 hs2 hp2
                have h4 : SignType.sign (p / s - 1) = SignType.sign (p - s) := by
                  rw [show p / s - 1 = (p - s) / s by field_simp]
                  rcases lt_trichotomy (p - s) 0 with h | h | h
                  · rw [sign_neg h, sign_neg (div_neg_of_neg_of_pos h hs1)]
                  · rw [h, zero_div]
                  · rw [sign_pos h, sign_pos (div_pos h hs1)]
                simp only [retOf, retR, negNan, Option.bind_some, Option.map_some, Option.some.injEq] at h3 ⊢
                rw [Left.sign_neg, Left.sign_neg, h3, h4]
                exact ⟨rfl, rfl⟩) o ho
        rw [hoR] at a
        cases a
        exact ⟨b, c⟩
  refine ⟨key.1, key.2, fun x hasSide cancel => ?_⟩
  have h := key.2
  unfold rowLabel
  rw [key.1]
  have h5 : npSign oR.ret = npSign o.ret ∧ nonPositive oR.ret = nonPositive o.ret := by
    cases ha : oR.ret with
    | none => cases hb : o.ret with
      | none => exact ⟨rfl, rfl⟩
      | some y => rw [ha, hb] at h; simp at h
    | some x => cases hb : o.ret with
      | none => rw [ha, hb] at h; simp at h
      | some y =>
        rw [ha, hb] at h
        simp only [Option.map_some, Option.some.injEq] at h
        simp only [npSign, nonPositive, Option.map_some]
        rcases lt_trichotomy y 0 with hy | rfl | hy
        · have hx : x < 0 := by rwa [sign_neg hy, sign_eq_neg_one_iff] at h
          simp [hx, hy, hx.le, hy.le, hx.not_gt, hy.not_gt]
        · have hx : x = 0 := by rwa [sign_zero, sign_eq_zero_iff] at h
          simp [hx]
        · have hx : 0 < x := by rwa [sign_pos hy, sign_eq_one_iff] at h
          simp [hx, hy, hx.not_ge, hy.not_ge]
  rw [h5.1, h5.2]

/-- The hypotheses of C279 and C280 are met by the prices above with the target `3/64`. -/
example : AllClear upDown 1 1 ⟨0, some 2, some (3 / 64), some 1⟩ 2 1 100 ∧
    evalEvent upDown 1 1 ⟨0, some 2, some (3 / 64), some 1⟩ 2 = .ok ⟨some 1, some 2, 1, some (1 / 10)⟩ := by
  constructor
  · intro r hr _ _ x hx
    cases hx
    simp only [upDown, List.mem_cons, List.not_mem_nil, or_false] at hr
    rcases hr with rfl | rfl | rfl <;>
    · refine ⟨fun _ p hp => ?_, fun _ p hp => ?_⟩ <;>
      · simp only [bestPrice, worstPrice, if_true] at hp
        cases hp
        unfold Clear
        decide +kernel
  · decide +kernel

end FinML.Labels
