import Verif.Alloc.HrpInvProps
import Mathlib.Tactic.NormNum

/-!
# Property C337: a riskier instrument and its weight in hierarchical risk parity

The returns of one instrument are multiplied by a factor above one, as leverage does.  Its correlations stay as they
are, and so does the order of the instruments.
-/

namespace FinML.Alloc

set_option linter.unusedSectionVars false

variable {K : Type} [Field K] [LinearOrder K] [IsStrictOrderedRing K]

/-- The covariances after the returns of instrument `i` are multiplied by `c`. -/
def leverCov (cov : ℕ → ℕ → K) (i : ℕ) (c : K) (a b : ℕ) : K :=
  (if a = i then c else 1) * (if b = i then c else 1) * cov a b

/-- Every portfolio of the instruments has a positive variance. -/
def PosDefOn (cov : ℕ → ℕ → K) (order : List ℕ) : Prop :=
  ∀ w : ℕ → K, (∃ i ∈ order, w i ≠ 0) → 0 < (order.map fun j => (order.map fun i => w i * cov i j * w j).sum).sum

/-- The claim for `_recursive_bisection`: leverage never raises the weight of the instrument. -/
def RiskierGetsLess : Prop :=
  ∀ (cov : ℕ → ℕ → ℚ) (order : List ℕ) (i : ℕ) (c w w' : ℚ) (ws ws' : Labelled ℚ), order.Nodup →
    (∀ a b, cov a b = cov b a) → PosDefOn cov order → i ∈ order → 1 < c →
    recursiveBisection cov order = .ok ws → recursiveBisection (leverCov cov i c) order = .ok ws' →
    (i, w) ∈ ws → (i, w') ∈ ws' → w' ≤ w

/-- The covariances of the witness: a quiet instrument and two that hedge each other. -/
def hedgeCov (a b : ℕ) : ℚ :=
  if a = 0 ∧ b = 0 then 1 / 100 else if a = 1 ∧ b = 1 then 4 else if a = 2 ∧ b = 2 then 9
  else if a = 1 ∧ b = 2 ∨ a = 2 ∧ b = 1 then -594 / 100 else 0

/-- C337, the claim is false.  Two instruments of volatility 2 and 3 and correlation -0.99 are in one cluster, beside
a third of volatility 1/10.  Raising the volatility of the first from 2 to 5/2 makes the two a better hedge, and its
weight doubles. -/
theorem C337_riskier_counterexample : ¬ RiskierGetsLess := by
  intro h
  have h1 : recursiveBisection hedgeCov [0, 1, 2] =
      .ok [(0, 4032 / 4201), (1, 117 / 4201), (2, 52 / 4201)] := by
    decide +kernel
  have h2 : ∃ ws', recursiveBisection (leverCov hedgeCov 1 (5 / 4)) [0, 1, 2] = .ok ws' ∧
      ∃ p ∈ ws', p.1 = 1 ∧ 1 / 20 < p.2 := by
    have : (match recursiveBisection (leverCov hedgeCov 1 (5 / 4)) [0, 1, 2] with
      | .ok ws' => decide (∃ p ∈ ws', p.1 = 1 ∧ 1 / 20 < p.2)
      | .error _ => false) = true := by decide +kernel
    revert this
    cases hw : recursiveBisection (leverCov hedgeCov 1 (5 / 4)) [0, 1, 2] with
    | error e => simp
    | ok ws' => intro h3; exact ⟨ws', rfl, of_decide_eq_true h3⟩
  obtain ⟨ws', hw', ⟨j, w'⟩, hm, rfl, hlt⟩ := h2
  have hsym : ∀ a b, hedgeCov a b = hedgeCov b a := by
    intro a b
    unfold hedgeCov
    simp only [and_comm, or_comm]
  have hpd : PosDefOn hedgeCov [0, 1, 2] := by
    intro w hw
    simp only [hedgeCov, List.map_cons, List.map_nil, List.sum_cons, List.sum_nil]
    norm_num
    have e : w 0 * (1 / 100) * w 0 + (w 1 * 4 * w 1 + -(w 2 * (297 / 50) * w 1) +
        (-(w 1 * (297 / 50) * w 2) + w 2 * 9 * w 2)) =
        w 0 ^ 2 / 100 + 4 * (w 1 - 297 / 200 * w 2) ^ 2 + 1791 / 10000 * w 2 ^ 2 := by ring
    have hz : ¬ (w 0 = 0 ∧ w 1 = 0 ∧ w 2 = 0) := by
      rintro ⟨a, b, c⟩
      obtain ⟨i, hi, hne⟩ := hw
      simp at hi
      rcases hi with rfl | rfl | rfl <;> contradiction
    refine lt_of_lt_of_eq ?_ e.symm
    by_contra hn
    have a0 := sq_nonneg (w 0)
    have a1 := sq_nonneg (w 1 - 297 / 200 * w 2)
    have a2 := sq_nonneg (w 2)
    have b0 : w 0 ^ 2 = 0 := by linarith
    have b2 : w 2 ^ 2 = 0 := by linarith
    have b1 : (w 1 - 297 / 200 * w 2) ^ 2 = 0 := by linarith
    have c0 := pow_eq_zero_iff (two_ne_zero) |>.1 b0
    have c2 := pow_eq_zero_iff (two_ne_zero) |>.1 b2
    have c1 := pow_eq_zero_iff (two_ne_zero) |>.1 b1
    rw [c2] at c1
    exact hz ⟨c0, by linarith, c2⟩
  have := h hedgeCov [0, 1, 2] 1 (5 / 4) (117 / 4201) w' _ ws' (by decide) hsym hpd (by simp)
    (by norm_num) h1 hw' (by simp) hm
  norm_num at this
  linarith

/-! ## Few instruments, or uncorrelated ones -/

theorem groupVar_one (cov : ℕ → ℕ → K) (i : ℕ) (h : 0 < cov i i) : groupVar cov [i] = cov i i := by
  have := h.ne'
  simp only [groupVar, List.map_cons, List.map_nil, List.sum_cons, List.sum_nil, add_zero]
  field_simp

theorem groupVar_pair (cov : ℕ → ℕ → K) (hsym : ∀ a b, cov a b = cov b a) (i j : ℕ) (hi : 0 < cov i i)
    (hj : 0 < cov j j) : groupVar cov [i, j] =
      cov i i * cov j j * (cov i i + cov j j + 2 * cov i j) / (cov i i + cov j j) ^ 2 := by
  have := hi.ne'
  have := hj.ne'
  have := (add_pos hi hj).ne'
  have := (add_pos hj hi).ne'
  simp only [groupVar, List.map_cons, List.map_nil, List.sum_cons, List.sum_nil, add_zero, hsym j i]
  field_simp
  ring

theorem share_eq {A B C R : K} (hA : 0 < A) (hB : 0 < B) (hC : 0 < C) (hR : 0 ≤ R) :
    A / (A + B * C * (B + C + 2 * R) / (B + C) ^ 2) * (C / (B + C)) =
      (1 + B / C + B / A + 2 * R * B / (A * (B + C)))⁻¹ := by
  have hs := add_pos hB hC
  have h1 : 0 < A * (B + C) ^ 2 + B * C * (B + C + 2 * R) := by positivity
  apply eq_inv_of_mul_eq_one_left
  have e : A + B * C * (B + C + 2 * R) / (B + C) ^ 2 =
      (A * (B + C) ^ 2 + B * C * (B + C + 2 * R)) / (B + C) ^ 2 := by field_simp
  have := h1.ne'
  rw [e]
  field_simp
  ring

/-- The weights of three instruments, the covariance of the last two not being negative. -/
theorem three_weights (cov : ℕ → ℕ → K) (hsym : ∀ a b, cov a b = cov b a) (i j k : ℕ) (hnd : [i, j, k].Nodup)
    (hi : 0 < cov i i) (hj : 0 < cov j j) (hk : 0 < cov k k) (hc : 0 ≤ cov j k) :
    recursiveBisection cov [i, j, k] = .ok
      [(i, groupVar cov [j, k] / (cov i i + groupVar cov [j, k])),
       (j, 1 / (1 + cov j j / cov k k + cov j j / cov i i + 2 * cov j k * cov j j / (cov i i * (cov j j + cov k k)))),
       (k, 1 / (1 + cov k k / cov j j + cov k k / cov i i + 2 * cov j k * cov k k / (cov i i * (cov j j + cov k k))))] := by
  have hs := add_pos hj hk
  have hg : 0 < groupVar cov [j, k] := by
    rw [groupVar_pair cov hsym j k hj hk]
    exact div_pos (mul_pos (mul_pos hj hk) (by linarith)) (pow_pos hs 2)
  have g1 := hi.ne'
  have g2 := hj.ne'
  have g3 := hk.ne'
  have g4 := hs.ne'
  have hv1 := fun a (h : 0 < cov a a) => clusterVar_eq cov [a] (by simp) (by simpa using h)
  simp only [List.nodup_cons, List.mem_cons, List.not_mem_nil, or_false, not_or, List.nodup_nil, not_false_eq_true,
    and_true] at hnd
  obtain ⟨⟨n1, n2⟩, n3⟩ := hnd
  have hv2 := clusterVar_eq cov [j, k] (by simp) (by simpa using ⟨hj, hk⟩)
  have e1 := hv1 i hi
  have e2 := hv1 j hj
  have e3 := hv1 k hk
  rw [groupVar_one cov i hi] at e1
  rw [groupVar_one cov j hj] at e2
  rw [groupVar_one cov k hk] at e3
  have hsum : cov i i + groupVar cov [j, k] ≠ 0 := (add_pos hi hg).ne'
  unfold recursiveBisection
  simp [bisectLoop, halves, pairLoop, splitWeights, e1, e2, e3, hv2, hsum, g4, scaleLabels, n1, n2, n3, Ne.symm n1,
    Ne.symm n2, Ne.symm n3]
  have e := share_eq hi hj hk hc
  have e' := share_eq hi hk hj hc
  refine ⟨by field_simp; ring, ?_, ?_⟩
  · rw [groupVar_pair cov hsym j k hj hk, show 1 - cov j j / (cov j j + cov k k) = cov k k / (cov j j + cov k k) by
      field_simp; ring]
    exact e
  · rw [groupVar_pair cov hsym j k hj hk]
    rw [add_comm (cov k k) (cov j j), mul_comm (cov k k) (cov j j)] at e'
    exact e'

theorem leverCov_self (cov : ℕ → ℕ → K) (i : ℕ) (c : K) : leverCov cov i c i i = c ^ 2 * cov i i := by
  simp [leverCov, sq]

theorem leverCov_of_ne (cov : ℕ → ℕ → K) {i a b : ℕ} (c : K) (ha : a ≠ i) (hb : b ≠ i) :
    leverCov cov i c a b = cov a b := by simp [leverCov, ha, hb]

theorem leverCov_left (cov : ℕ → ℕ → K) {i b : ℕ} (c : K) (hb : b ≠ i) : leverCov cov i c i b = c * cov i b := by
  simp [leverCov, hb]

theorem leverCov_right (cov : ℕ → ℕ → K) {i a : ℕ} (c : K) (ha : a ≠ i) : leverCov cov i c a i = c * cov a i := by
  simp [leverCov, ha]

theorem leverCov_symm {cov : ℕ → ℕ → K} (h : ∀ a b, cov a b = cov b a) (i : ℕ) (c : K) (a b : ℕ) :
    leverCov cov i c a b = leverCov cov i c b a := by
  simp only [leverCov, h a b]
  ring

theorem leverCov_diag {cov : ℕ → ℕ → K} {i a : ℕ} {c : K} (hc : 0 < c) (h : 0 < cov a a) :
    0 < leverCov cov i c a a := by
  unfold leverCov
  split_ifs <;> positivity

theorem leverCov_nonneg {cov : ℕ → ℕ → K} {i a b : ℕ} {c : K} (hc : 0 < c) (h : 0 ≤ cov a b) :
    0 ≤ leverCov cov i c a b := by
  unfold leverCov
  split_ifs <;> positivity

theorem lever_lt {c v : K} (hc : 1 < c) (hv : 0 < v) : v < c ^ 2 * v := by
  have : 1 < c ^ 2 := one_lt_pow₀ hc two_ne_zero
  nlinarith

/-- A share falls when its part grows. -/
theorem lever_share {c B C A R : K} (hc : 1 < c) (hA : 0 < A) (hB : 0 < B) (hC : 0 < C) (hR : 0 ≤ R) :
    1 / (1 + c ^ 2 * B / C + c ^ 2 * B / A + 2 * (c * R) * (c ^ 2 * B) / (A * (c ^ 2 * B + C))) <
      1 / (1 + B / C + B / A + 2 * R * B / (A * (B + C))) := by
  have hc0 : 0 < c := by linarith
  have hv := lever_lt hc hB
  have h1 : B / C < c ^ 2 * B / C := div_lt_div_of_pos_right hv hC
  have h2 : B / A < c ^ 2 * B / A := div_lt_div_of_pos_right hv hA
  have h3 : 2 * R * B / (A * (B + C)) ≤ 2 * (c * R) * (c ^ 2 * B) / (A * (c ^ 2 * B + C)) := by
    rw [div_le_div_iff₀ (by positivity) (by positivity)]
    have h4 : c ^ 2 * B + C ≤ c ^ 3 * (B + C) := by
      have : 1 ≤ c ^ 3 := one_le_pow₀ hc.le
      have : c ^ 2 ≤ c ^ 3 := pow_le_pow_right₀ hc.le (by norm_num)
      nlinarith
    have h5 : 0 ≤ 2 * R * B * A := by positivity
    calc 2 * R * B * (A * (c ^ 2 * B + C)) = 2 * R * B * A * (c ^ 2 * B + C) := by ring
      _ ≤ 2 * R * B * A * (c ^ 3 * (B + C)) := mul_le_mul_of_nonneg_left h4 h5
      _ = _ := by ring
  exact one_div_lt_one_div_of_lt (by positivity) (by linarith)

theorem lever_two (cov : ℕ → ℕ → K) (a b : ℕ) (hab : a ≠ b) (ha : 0 < cov a a) (hb : 0 < cov b b) (c : K)
    (hc : 1 < c) (i : ℕ) (hi : i ∈ [a, b]) :
    ∃ ws ws', recursiveBisection cov [a, b] = .ok ws ∧ recursiveBisection (leverCov cov i c) [a, b] = .ok ws' ∧
      ∀ w w', (i, w) ∈ ws → (i, w') ∈ ws' → w' < w := by
  have hc0 : 0 < c := by linarith
  refine ⟨_, _, C81_two_assets cov a b hab ha hb,
    C81_two_assets _ a b hab (leverCov_diag hc0 ha) (leverCov_diag hc0 hb), ?_⟩
  have key : ∀ x y : K, 0 < x → 0 < y → 1 / (c ^ 2 * x) / (1 / (c ^ 2 * x) + 1 / y) < 1 / x / (1 / x + 1 / y) := by
    intro x y hx hy
    have hv := lever_lt hc hx
    have e1 : 1 / (c ^ 2 * x) / (1 / (c ^ 2 * x) + 1 / y) = y / (y + c ^ 2 * x) := by field_simp
    have e2 : 1 / x / (1 / x + 1 / y) = y / (y + x) := by field_simp
    rw [e1, e2]
    exact div_lt_div_of_pos_left hy (by positivity) (by linarith)
  intro w w' hw hw'
  rcases (by simpa using hi : i = a ∨ i = b) with rfl | rfl
  · simp [hab] at hw hw'
    subst hw hw'
    have := key _ _ ha hb
    simpa [leverCov_self, leverCov_of_ne cov c hab.symm hab.symm] using this
  · simp [hab.symm] at hw hw'
    subst hw hw'
    have := key _ _ hb ha
    rw [add_comm (1 / (c ^ 2 * cov i i)), add_comm (1 / cov i i)] at this
    simpa [leverCov_self, leverCov_of_ne cov c hab hab] using this

theorem lever_three (cov : ℕ → ℕ → K) (hsym : ∀ a b, cov a b = cov b a) (a b d : ℕ) (hnd : [a, b, d].Nodup)
    (ha : 0 < cov a a) (hb : 0 < cov b b) (hd : 0 < cov d d) (hbd : 0 ≤ cov b d) (c : K)
    (hc : 1 < c) (i : ℕ) (hi : i ∈ [a, b, d]) :
    ∃ ws ws', recursiveBisection cov [a, b, d] = .ok ws ∧ recursiveBisection (leverCov cov i c) [a, b, d] = .ok ws' ∧
      ∀ w w', (i, w) ∈ ws → (i, w') ∈ ws' → w' < w := by
  have hc0 : 0 < c := by linarith
  refine ⟨_, _, three_weights cov hsym a b d hnd ha hb hd hbd, three_weights _ (leverCov_symm hsym i c) a b d hnd
    (leverCov_diag hc0 ha) (leverCov_diag hc0 hb) (leverCov_diag hc0 hd) (leverCov_nonneg hc0 hbd), ?_⟩
  simp only [List.nodup_cons, List.mem_cons, List.not_mem_nil, or_false, not_or, List.nodup_nil, not_false_eq_true,
    and_true] at hnd
  obtain ⟨⟨n1, n2⟩, n3⟩ := hnd
  intro w w' hw hw'
  rcases (by simpa using hi : i = a ∨ i = b ∨ i = d) with rfl | rfl | rfl
  · simp [n1, n2] at hw hw'
    subst hw hw'
    have hg : 0 < groupVar cov [b, d] := by
      rw [groupVar_pair cov hsym b d hb hd]
      exact div_pos (mul_pos (mul_pos hb hd) (by linarith)) (pow_pos (add_pos hb hd) 2)
    have e : groupVar (leverCov cov i c) [b, d] = groupVar cov [b, d] := by
      simp [groupVar, leverCov_of_ne cov c (Ne.symm n1) (Ne.symm n1), leverCov_of_ne cov c (Ne.symm n1) (Ne.symm n2),
        leverCov_of_ne cov c (Ne.symm n2) (Ne.symm n1), leverCov_of_ne cov c (Ne.symm n2) (Ne.symm n2)]
    rw [e, leverCov_self]
    exact div_lt_div_of_pos_left hg (by positivity) (by linarith [lever_lt hc ha])
  · simp [Ne.symm n1, n3] at hw hw'
    subst hw hw'
    rw [leverCov_self, leverCov_of_ne cov c n1 n1, leverCov_of_ne cov c (Ne.symm n3) (Ne.symm n3),
      leverCov_left cov c (Ne.symm n3)]
    simpa using lever_share hc ha hb hd hbd
  · simp [Ne.symm n2, Ne.symm n3] at hw hw'
    subst hw hw'
    rw [leverCov_self, leverCov_of_ne cov c n2 n2, leverCov_of_ne cov c n3 n3, leverCov_right cov c n3]
    have := lever_share hc ha hd hb hbd
    rw [add_comm (cov i i), add_comm (c ^ 2 * cov i i)] at this
    simpa using this

theorem lever_uncorrelated (cov : ℕ → ℕ → K) (order : List ℕ) (hnd : order.Nodup) (hpos : ∀ a ∈ order, 0 < cov a a)
    (hu : Uncorrelated cov order) (hlen : 2 ≤ order.length) (c : K) (hc : 1 < c) (i : ℕ) (hi : i ∈ order) :
    ∃ ws ws', recursiveBisection cov order = .ok ws ∧ recursiveBisection (leverCov cov i c) order = .ok ws' ∧
      ∀ w w', (i, w) ∈ ws → (i, w') ∈ ws' → w' < w := by
  have hc0 : 0 < c := by linarith
  refine ⟨_, _, C201_uncorrelated cov order hnd hpos hu, C201_uncorrelated _ order hnd
    (fun a ha => leverCov_diag hc0 (hpos a ha)) (fun a ha b hb hab => by simp [leverCov, hu a ha b hb hab]), ?_⟩
  intro w w' hw hw'
  obtain ⟨l1, l2, rfl⟩ := List.append_of_mem hi
  have h1 : i ∉ l1 := fun h => by
    rw [List.nodup_append] at hnd
    exact hnd.2.2 i h i (by simp) rfl
  have h2 : i ∉ l2 := fun h => by
    rw [List.nodup_append] at hnd
    exact (List.nodup_cons.1 hnd.2.1).1 h
  simp only [List.mem_map, Prod.mk.injEq] at hw hw'
  obtain ⟨a, -, ha, rfl⟩ := hw
  obtain ⟨b, -, hb, rfl⟩ := hw'
  rw [ha, hb]
  set f : ℕ → K := fun a => 1 / cov a a with hf
  have e : ∀ l : List ℕ, i ∉ l → (l.map fun a => 1 / leverCov cov i c a a) = l.map f := by
    intro l hl
    apply List.map_congr_left
    intro a ha
    have : a ≠ i := fun h => hl (h ▸ ha)
    rw [leverCov_of_ne cov c this this]
  have hv := hpos i (by simp)
  have hR : 0 < (l1.map f).sum + (l2.map f).sum := by
    have hn : ∀ l : List ℕ, (∀ a ∈ l, 0 < cov a a) → 0 ≤ (l.map f).sum := fun l hl =>
      List.sum_nonneg (by
        simp only [List.mem_map]
        rintro _ ⟨a, ha, rfl⟩
        exact (one_div_pos.2 (hl a ha)).le)
    have hp : ∀ l : List ℕ, l ≠ [] → (∀ a ∈ l, 0 < cov a a) → 0 < (l.map f).sum := fun l hne hl =>
      inv_sum_pos cov l hne hl
    have p1 : ∀ a ∈ l1, 0 < cov a a := fun a ha => hpos a (by simp [ha])
    have p2 : ∀ a ∈ l2, 0 < cov a a := fun a ha => hpos a (by simp [ha])
    rcases l1 with _ | ⟨x, l1⟩
    · rcases l2 with _ | ⟨y, l2⟩
      · simp at hlen
      · exact add_pos_of_nonneg_of_pos (hn _ p1) (hp _ (by simp) p2)
    · exact add_pos_of_pos_of_nonneg (hp _ (by simp) p1) (hn _ p2)
  simp only [List.map_append, List.map_cons, List.sum_append, List.sum_cons, e l1 h1, e l2 h2, leverCov_self]
  set R := (l1.map f).sum + (l2.map f).sum with hRdef
  have e1 : (l1.map f).sum + (1 / (c ^ 2 * cov i i) + (l2.map f).sum) = R + 1 / (c ^ 2 * cov i i) := by
    rw [hRdef]; ring
  have e2 : (l1.map f).sum + (f i + (l2.map f).sum) = R + 1 / cov i i := by rw [hRdef]; ring
  rw [e1, e2]
  have hlt := lever_lt hc hv
  have q1 : 1 / (c ^ 2 * cov i i) / (R + 1 / (c ^ 2 * cov i i)) = 1 / (R * (c ^ 2 * cov i i) + 1) := by field_simp
  have q2 : 1 / cov i i / (R + 1 / cov i i) = 1 / (R * cov i i + 1) := by field_simp
  rw [q1, q2]
  exact one_div_lt_one_div_of_lt (by positivity) (by nlinarith)

/-- C337, what holds: leverage lowers the weight of the instrument if there are two instruments, or three with no
negative covariance, or any number of uncorrelated ones.  Missing: instruments with negative covariances, for which
the claim is false (`C337_riskier_counterexample`), and more than three instruments with positive ones. -/
theorem C337_riskier_partial (cov : ℕ → ℕ → K) (hsym : ∀ a b, cov a b = cov b a) (order : List ℕ) (hnd : order.Nodup)
    (hpos : ∀ a ∈ order, 0 < cov a a) (hlen : 2 ≤ order.length)
    (h : order.length = 2 ∨ (order.length = 3 ∧ ∀ a ∈ order, ∀ b ∈ order, 0 ≤ cov a b) ∨ Uncorrelated cov order)
    (c : K) (hc : 1 < c) (i : ℕ) (hi : i ∈ order) :
    ∃ ws ws', recursiveBisection cov order = .ok ws ∧ recursiveBisection (leverCov cov i c) order = .ok ws' ∧
      ∀ w w', (i, w) ∈ ws → (i, w') ∈ ws' → w' < w := by
  rcases h with h | ⟨h, hn⟩ | h
  · obtain ⟨a, b, rfl⟩ := List.length_eq_two.1 h
    exact lever_two cov a b (by simpa using hnd) (hpos a (by simp)) (hpos b (by simp)) c hc i hi
  · obtain ⟨a, b, d, rfl⟩ := List.length_eq_three.1 h
    exact lever_three cov hsym a b d hnd (hpos a (by simp)) (hpos b (by simp)) (hpos d (by simp))
      (hn b (by simp) d (by simp)) c hc i hi
  · exact lever_uncorrelated cov order hnd hpos h hlen c hc i hi

/-- The hypotheses of `C337_riskier_partial` are met by three instruments with variances 1 and covariances 1/2. -/
example : (∀ a ∈ [0, 1, 2], 0 < (fun i j : ℕ => if i = j then (1 : ℚ) else 1 / 2) a a) ∧
    ∀ a ∈ [0, 1, 2], ∀ b ∈ [0, 1, 2], 0 ≤ (fun i j : ℕ => if i = j then (1 : ℚ) else 1 / 2) a b := by
  decide +kernel

/-! ## The whole allocation -/

/-- The returns with those of instrument `i` multiplied by `c`. -/
def lever (i : ℕ) (c : ℝ) (x : List (ℕ → ℝ)) : List (ℕ → ℝ) :=
  x.map fun r a => if a = i then c * r a else r a

theorem colMean_lever (i : ℕ) (c : ℝ) (x : List (ℕ → ℝ)) (a : ℕ) :
    colMean (lever i c x) a = (if a = i then c else 1) * colMean x a := by
  unfold colMean lever
  rw [List.map_map, List.length_map]
  split_ifs with h
  · have : (x.map ((fun r : ℕ → ℝ => r a) ∘ fun r a => if a = i then c * r a else r a)) =
        x.map fun r => c * r a := List.map_congr_left fun r _ => by simp [h]
    rw [this, List.sum_map_mul_left, mul_div_assoc]
  · have : (x.map ((fun r : ℕ → ℝ => r a) ∘ fun r a => if a = i then c * r a else r a)) =
        x.map fun r => r a := List.map_congr_left fun r _ => by simp [h]
    rw [this, one_mul]

theorem sampleCov_lever (i : ℕ) (c : ℝ) (x : List (ℕ → ℝ)) : sampleCov (lever i c x) = leverCov (sampleCov x) i c := by
  funext a b
  unfold sampleCov leverCov
  rw [colMean_lever, colMean_lever]
  unfold lever
  rw [List.map_map, List.length_map, ← mul_div_assoc, ← List.sum_map_mul_left]
  congr 2
  apply List.map_congr_left
  intro r _
  simp only [Function.comp_apply]
  split_ifs <;> ring

theorem sampleCorr_lever (i : ℕ) {c : ℝ} (hc : 0 < c) (x : List (ℕ → ℝ)) : sampleCorr (lever i c x) = sampleCorr x := by
  funext a b
  unfold sampleCorr
  rw [sampleCov_lever]
  have h : ∀ a, √(leverCov (sampleCov x) i c a a) = (if a = i then c else 1) * √(sampleCov x a a) := by
    intro a
    have : leverCov (sampleCov x) i c a a = (if a = i then c else 1) ^ 2 * sampleCov x a a := by
      unfold leverCov; ring
    rw [this, Real.sqrt_mul (sq_nonneg _), Real.sqrt_sq]
    split_ifs <;> linarith
  rw [h a, h b]
  unfold leverCov
  have e : ((if a = i then c else 1) * √(sampleCov x a a) * ((if b = i then c else 1) * √(sampleCov x b b))) =
      ((if a = i then c else 1) * (if b = i then c else 1)) * (√(sampleCov x a a) * √(sampleCov x b b)) := by ring
  rw [e]
  exact mul_div_mul_left _ _ (mul_ne_zero (by split_ifs <;> linarith) (by split_ifs <;> linarith))

/-- C337.  Leverage of an instrument changes neither the correlations nor the tree nor the order of the instruments:
the allocation of the levered returns is the bisection of the levered covariances in the same order. -/
theorem C337_order (linkage : ℕ → (ℕ → ℕ → ℝ) → List Row) (n : ℕ) (x : List (ℕ → ℝ))
    (hlink : ValidLinkage n (linkage n (corrToDist (sampleCorr x)))) (i : ℕ) (c : ℝ) (hc : 0 < c) :
    ∃ order, order.Perm (List.range n) ∧ hrpAllocations linkage n x = recursiveBisection (sampleCov x) order ∧
      hrpAllocations linkage n (lever i c x) = recursiveBisection (leverCov (sampleCov x) i c) order := by
  obtain ⟨order, h1, -, h3⟩ := C79_quasi_diagonalize n _ hlink
  refine ⟨order, h3, ?_, ?_⟩
  · unfold hrpAllocations
    simp only [h1, py_bind_ok]
  · unfold hrpAllocations
    rw [sampleCorr_lever i hc, sampleCov_lever]
    simp only [h1, py_bind_ok]

theorem sampleCov_symm (x : List (ℕ → ℝ)) (a b : ℕ) : sampleCov x a b = sampleCov x b a := by
  unfold sampleCov
  simp only [mul_comm]

/-- C337, end to end: in `hrp_allocations` leverage of an instrument lowers its weight, for every clustering method,
if there are two instruments, or three with no negative covariance, or any number of uncorrelated ones.  Missing: as in
`C337_riskier_partial`. -/
theorem C337_hrp_partial (linkage : ℕ → (ℕ → ℕ → ℝ) → List Row) (n : ℕ) (x : List (ℕ → ℝ))
    (hlink : ValidLinkage n (linkage n (corrToDist (sampleCorr x)))) (hpos : ∀ a < n, 0 < sampleCov x a a)
    (h : n = 2 ∨ (n = 3 ∧ ∀ a < n, ∀ b < n, 0 ≤ sampleCov x a b) ∨
      ∀ a < n, ∀ b < n, a ≠ b → sampleCov x a b = 0)
    (c : ℝ) (hc : 1 < c) (i : ℕ) (hi : i < n) :
    ∃ ws ws', hrpAllocations linkage n x = .ok ws ∧ hrpAllocations linkage n (lever i c x) = .ok ws' ∧
      ∀ w w', (i, w) ∈ ws → (i, w') ∈ ws' → w' < w := by
  obtain ⟨order, hperm, h1, h2⟩ := C337_order linkage n x hlink i c (by linarith)
  have hmem : ∀ a ∈ order, a < n := fun a ha => List.mem_range.1 (hperm.mem_iff.1 ha)
  have hl : order.length = n := by rw [hperm.length_eq, List.length_range]
  rw [h1, h2]
  refine C337_riskier_partial (sampleCov x) (sampleCov_symm x) order (hperm.nodup_iff.2 List.nodup_range)
    (fun a ha => hpos a (hmem a ha)) (hl ▸ hlink.two_le) ?_ c hc i (hperm.mem_iff.2 (List.mem_range.2 hi))
  rcases h with h | ⟨h, hn⟩ | h
  · exact .inl (hl.trans h)
  · exact .inr (.inl ⟨hl.trans h, fun a ha b hb => hn a (hmem a ha) b (hmem b hb)⟩)
  · exact .inr (.inr fun a ha b hb => h a (hmem a ha) b (hmem b hb))

end FinML.Alloc
