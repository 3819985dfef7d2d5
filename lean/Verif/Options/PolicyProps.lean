import Verif.Options.BinomProps

/-!
# American prices are those of the best exercise policy: C141
-/

namespace FinML.Options

theorem paths_length {n : ℕ} {l : List Bool} (h : l ∈ paths n) : l.length = n := by
  induction n generalizing l with
  | zero => simp [paths] at h; simp [h]
  | succ n ih =>
    simp only [paths, List.mem_append, List.mem_map] at h
    rcases h with ⟨a, ha, rfl⟩ | ⟨a, ha, rfl⟩ <;> simp [ih ha]

theorem stopTime_now {stop : List Bool → Bool} (h : stop [] = true) (l : List Bool) : stopTime stop l = 0 := by
  unfold stopTime
  cases l with
  | nil => rfl
  | cons b l =>
    rw [List.length_cons, List.range_succ_eq_map, List.find?_cons_of_pos (by simpa using h)]
    rfl

theorem stopTime_later {stop : List Bool → Bool} (h : stop [] = false) (b : Bool) (l : List Bool) :
    stopTime stop (b :: l) = stopTime (fun x => stop (b :: x)) l + 1 := by
  unfold stopTime
  rw [List.length_cons, List.range_succ_eq_map, List.find?_cons_of_neg (by simp [h]), List.find?_map]
  cases hf : (List.range l.length).find? ((fun i : ℕ => stop (List.take i (b :: l))) ∘ Nat.succ) with
  | none =>
    have : (List.range l.length).find? (fun i : ℕ => stop (b :: l.take i)) = none := hf
    simp [this]
  | some i =>
    have : (List.range l.length).find? (fun i : ℕ => stop (b :: l.take i)) = some i := hf
    simp [this]

/-- The weights of all paths sum to 1. -/
theorem paths_weight (p : ℝ) (n : ℕ) :
    ((paths n).map fun l : List Bool => p ^ l.count true * (1 - p) ^ l.count false).sum = 1 := by
  induction n with
  | zero => simp [paths]
  | succ n ih =>
    simp only [paths, List.map_append, List.map_map, List.sum_append, Function.comp_def]
    simp only [List.count_cons_self, List.count_cons_of_ne (by decide : true ≠ false),
      List.count_cons_of_ne (by decide : false ≠ true), pow_succ]
    have e1 : (fun l : List Bool => p ^ l.count true * p * (1 - p) ^ l.count false) =
        fun l : List Bool => p * (p ^ l.count true * (1 - p) ^ l.count false) := by funext l; ring
    have e2 : (fun l : List Bool => p ^ l.count true * ((1 - p) ^ l.count false * (1 - p))) =
        fun l : List Bool => (1 - p) * (p ^ l.count true * (1 - p) ^ l.count false) := by funext l; ring
    rw [e1, e2, List.sum_map_mul_left, List.sum_map_mul_left, ih]
    ring

theorem policyValue_zero (u d p disc : ℝ) (pay : ℝ → ℝ) (stop : List Bool → Bool) (s : ℝ) :
    policyValue u d p disc pay 0 stop s = pay s := by
  simp [policyValue, paths, stopTime, priceAfter]

theorem policyValue_stop (u d p disc : ℝ) (pay : ℝ → ℝ) (n : ℕ) {stop : List Bool → Bool}
    (h : stop [] = true) (s : ℝ) : policyValue u d p disc pay n stop s = pay s := by
  unfold policyValue
  simp only [stopTime_now h, pow_zero, one_mul, List.take_zero, priceAfter, List.count_nil, mul_one]
  rw [List.sum_map_mul_right, paths_weight, one_mul]

theorem policyValue_go (u d p disc : ℝ) (pay : ℝ → ℝ) (n : ℕ) {stop : List Bool → Bool}
    (h : stop [] = false) (s : ℝ) : policyValue u d p disc pay (n + 1) stop s =
      disc * (p * policyValue u d p disc pay n (fun x => stop (true :: x)) (s * u) +
        (1 - p) * policyValue u d p disc pay n (fun x => stop (false :: x)) (s * d)) := by
  unfold policyValue
  simp only [paths, List.map_append, List.map_map, List.sum_append, Function.comp_def, stopTime_later h,
    List.take_succ_cons, priceAfter, List.count_cons_self, List.count_cons_of_ne (by decide : true ≠ false),
    List.count_cons_of_ne (by decide : false ≠ true)]
  rw [mul_add, ← mul_assoc, ← mul_assoc, ← List.sum_map_mul_left, ← List.sum_map_mul_left]
  congr 2
  · apply List.map_congr_left
    intro l _
    rw [show ∀ a b : ℕ, s * u ^ (a + 1) * d ^ b = s * u * u ^ a * d ^ b from fun a b => by ring]
    ring
  · apply List.map_congr_left
    intro l _
    rw [show ∀ a b : ℕ, s * u ^ a * d ^ (b + 1) = s * d * u ^ a * d ^ b from fun a b => by ring]
    ring

theorem policyValue_le {tr : Tree} {pay : ℝ → ℝ} (hd : 0 ≤ tr.disc) (hp : 0 ≤ tr.p) (hp1 : tr.p ≤ 1)
    (n : ℕ) (stop : List Bool → Bool) (s : ℝ) :
    policyValue tr.u tr.d tr.p tr.disc pay n stop s ≤ X tr pay pay n s := by
  induction n generalizing stop s with
  | zero => rw [policyValue_zero]; exact le_refl _
  | succ n ih =>
    cases h : stop [] with
    | true => rw [policyValue_stop _ _ _ _ _ _ h]; exact le_max_right _ _
    | false =>
      rw [policyValue_go _ _ _ _ _ _ h]
      exact le_trans (mul_le_mul_of_nonneg_left (avg_mono hp hp1 (ih _ _) (ih _ _)) hd) (le_max_left _ _)

/-- The policy that stops now or not, and then follows others. -/
def combine (now : Bool) (a b : List Bool → Bool) : List Bool → Bool
  | [] => now
  | true :: l => a l
  | false :: l => b l

open Classical in
theorem exists_policy (tr : Tree) (pay : ℝ → ℝ) (n : ℕ) (s : ℝ) :
    ∃ stop : List Bool → Bool, X tr pay pay n s = policyValue tr.u tr.d tr.p tr.disc pay n stop s := by
  induction n generalizing s with
  | zero => exact ⟨fun _ => true, by rw [policyValue_zero]; rfl⟩
  | succ n ih =>
    obtain ⟨a, ha⟩ := ih (s * tr.u)
    obtain ⟨b, hb⟩ := ih (s * tr.d)
    rcases le_total (tr.disc * (tr.p * X tr pay pay n (s * tr.u) + (1 - tr.p) * X tr pay pay n (s * tr.d)))
      (pay s) with h | h
    · refine ⟨combine true a b, ?_⟩
      rw [policyValue_stop _ _ _ _ _ _ rfl]
      exact max_eq_right h
    · refine ⟨combine false a b, ?_⟩
      rw [policyValue_go _ _ _ _ _ _ rfl]
      simp only [combine]
      rw [← ha, ← hb]
      exact max_eq_left h

/-- C141: with a probability that is one, the American price is the highest expected discounted payoff
over all exercise policies that look at the moves so far, and a policy attains it. -/
theorem C141_best_policy {ot : OptionType} {s0 k t r sigma q u d p v : ℝ} {fut : Bool} {n : ℕ}
    (h : binomOptionPrice ot .american s0 k t r sigma q fut n = .ok (some v))
    (hc : CRR t r sigma (if fut then r else q) n u d p) (hd : DriftOk t r sigma (if fut then r else q) n) :
    IsGreatest {x | ∃ stop : List Bool → Bool, x = policyValue u d p (Real.exp (-r * (t / n)))
      (fun s => if ot = .call then max (s - k) 0 else max (k - s) 0) n stop s0} v := by
  obtain ⟨m, tr, hnm, hm, ho, hok, ht, early, hea, rfl⟩ := binom_cases h
  obtain rfl : n = m := by exact_mod_cast hnm
  obtain ⟨hp, hp1⟩ := hok.probability hd
  simp only [earlyValue, Option.some.injEq] at hea
  subst hea
  obtain ⟨rfl, rfl, rfl⟩ := hc.unique hok.crr
  have e : (fun s => if ot = .call then max (s - k) 0 else max (k - s) 0) = payoff ot k := by
    funext s; rcases ho with rfl | rfl <;> simp [payoff, exercise]
  have ed : Real.exp (-r * (t / n)) = tr.disc := by rw [hok.disc_eq, hok.dt_eq]
  rw [e, ed]
  refine ⟨exists_policy tr _ n s0, ?_⟩
  rintro x ⟨stop, rfl⟩
  exact policyValue_le hok.disc_pos.le hp hp1 n stop s0

/-- The hypotheses of C141 can be met. -/
example : ∃ u d p v, binomOptionPrice .put .american 100 90 1 (1 / 25) (1 / 5) 0 false (1 : ℕ) = .ok (some v) ∧
    CRR 1 (1 / 25) (1 / 5) 0 1 u d p ∧ DriftOk 1 (1 / 25) (1 / 5) 0 1 := by
  obtain ⟨tr, ht⟩ := (mkTree_isSome (t := 1) (r := 1 / 25) (sigma := 1 / 5) (q := 0) (n := 1) (by norm_num)).2
    (by norm_num)
  refine ⟨tr.u, tr.d, tr.p, _, binom_ok (by norm_num) (.inr rfl) rfl ht, (mkTree_ok ht).crr, ?_⟩
  simp [DriftOk]; norm_num [abs_of_pos]

end FinML.Options
