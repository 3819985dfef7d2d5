import Verif.Default.CountDoubleModel
import Verif.Default.CountProps
import Verif.Alloc.NearProps

/-! # Property C321: the number of defaults in doubles -/

namespace FinML.Default

open FinML.Alloc

/-- Entry `i` of the first vector is that of the second up to `lev i` roundings. -/
def VApprox (lev : ℕ → ℕ) (vR v : List ℚ) : Prop :=
  vR.length = v.length ∧ ∀ i, ∃ f, vR.getD i 0 = v.getD i 0 * f ∧ Near (lev i) f ∧ 0 ≤ v.getD i 0

theorem vapprox_mono {lev lev' : ℕ → ℕ} {vR v : List ℚ} (h : VApprox lev vR v) (hl : ∀ i, lev i ≤ lev' i) :
    VApprox lev' vR v := by
  refine ⟨h.1, fun i => ?_⟩
  obtain ⟨f, h1, h2, h3⟩ := h.2 i
  exact ⟨f, h1, near_mono h2 (hl i), h3⟩

theorem getD_modify (v : List ℚ) (i j : ℕ) (g : ℚ → ℚ) (hi : i < v.length) :
    (v.modify i g).getD j 0 = if j = i then g (v.getD j 0) else v.getD j 0 := by
  rw [List.getD_eq_getElem?_getD, List.getElem?_modify, List.getD_eq_getElem?_getD]
  by_cases h : j = i
  · subst h
    rw [if_pos rfl, List.getElem?_eq_getElem hi]
    simp
  · rw [if_neg h]
    have h' : ¬ i = j := fun e => h e.symm
    simp [h']

theorem addAt_approx {lev : ℕ → ℕ} {vR v : List ℚ} (h : VApprox lev vR v) (i : ℕ) (hi : i < v.length) (xR x g : ℚ)
    (hx : xR = x * g) (hg : Near (lev i) g) (h0 : 0 ≤ x) :
    VApprox (fun j => if j = i then lev i + 1 else lev j) (addAtR signedDouble vR i xR) (addAt v i x) := by
  refine ⟨by simp [addAtR, addAt, h.1], fun j => ?_⟩
  unfold addAtR addAt
  rw [getD_modify vR i j _ (by rw [h.1]; exact hi), getD_modify v i j _ hi]
  obtain ⟨f, h1, h2, h3⟩ := h.2 j
  by_cases hj : j = i
  · subst hj
    simp only [if_true]
    obtain ⟨e, e1, e2⟩ := near_add h2 hg h3 h0
    obtain ⟨d, d1, d2⟩ := sd_factor (vR.getD j 0 + xR)
    refine ⟨e * d, ?_, near_mul e2 d2, add_nonneg h3 h0⟩
    rw [d1, h1, hx, e1, mul_assoc]
  · simp only [if_neg hj]
    exact ⟨f, h1, h2, h3⟩

theorem addAtR_length (rd : ℚ → ℚ) (vec : List ℚ) (i : ℕ) (x : ℚ) : (addAtR rd vec i x).length = vec.length := by
  simp [addAtR]

theorem row_approx {A B : ℕ} {aR a bR b : List ℚ} (ha : VApprox (fun _ => A) aR a) (hb : VApprox (fun _ => B) bR b)
    (j : ℕ) (vR v : List ℚ) (hv : VApprox (fun _ => A + B + 1 + j) vR v) (n : ℕ) (hn : j + n ≤ v.length) :
    VApprox (fun i => if j ≤ i ∧ i < j + n then A + B + 1 + j + 1 else A + B + 1 + j)
      ((List.range n).foldl (fun vec k => addAtR signedDouble vec (j + k) (signedDouble (aR.getD j 0 * bR.getD k 0))) vR)
      ((List.range n).foldl (fun vec k => addAt vec (j + k) (a.getD j 0 * b.getD k 0)) v) ∧
    ((List.range n).foldl (fun vec k => addAt vec (j + k) (a.getD j 0 * b.getD k 0)) v).length = v.length := by
  induction n with
  | zero =>
    refine ⟨vapprox_mono hv fun i => ?_, rfl⟩
    split_ifs <;> omega
  | succ n ih =>
    obtain ⟨h1, h2⟩ := ih (by omega)
    rw [List.range_succ, List.foldl_append, List.foldl_append, List.foldl_cons, List.foldl_cons, List.foldl_nil,
      List.foldl_nil]
    obtain ⟨f, f1, f2, f3⟩ := ha.2 j
    obtain ⟨g, g1, g2, g3⟩ := hb.2 n
    obtain ⟨d, d1, d2⟩ := sd_factor (aR.getD j 0 * bR.getD n 0)
    refine ⟨?_, by rw [addAt_length, h2]⟩
    have hp : Near (A + B + 1) (f * g * d) := near_mul (near_mul f2 g2) d2
    have := addAt_approx h1 (j + n) (by rw [h2]; omega) (signedDouble (aR.getD j 0 * bR.getD n 0))
      (a.getD j 0 * b.getD n 0) (f * g * d) (by rw [d1, f1, g1]; ring) (near_mono hp (by split_ifs <;> omega))
      (mul_nonneg f3 g3)
    refine vapprox_mono this fun i => ?_
    split_ifs <;> omega

theorem rows_approx {A B : ℕ} {aR a bR b : List ℚ} (ha : VApprox (fun _ => A) aR a) (hb : VApprox (fun _ => B) bR b)
    (N : ℕ) (m : ℕ) (hm : m + b.length ≤ N + 1) :
    VApprox (fun _ => A + B + 1 + m)
      ((List.range m).foldl (fun vec j => (List.range bR.length).foldl (fun vec k =>
        addAtR signedDouble vec (j + k) (signedDouble (aR.getD j 0 * bR.getD k 0))) vec) (List.replicate N 0))
      ((List.range m).foldl (fun vec j => (List.range b.length).foldl (fun vec k =>
        addAt vec (j + k) (a.getD j 0 * b.getD k 0)) vec) (List.replicate N 0)) ∧
    ((List.range m).foldl (fun vec j => (List.range b.length).foldl (fun vec k =>
        addAt vec (j + k) (a.getD j 0 * b.getD k 0)) vec) (List.replicate N (0 : ℚ))).length = N := by
  induction m with
  | zero =>
    refine ⟨⟨rfl, fun i => ⟨1, by simp, near_one _, ?_⟩⟩, by simp⟩
    simp only [List.range_zero, List.foldl_nil]
    rw [List.getD_eq_getElem?_getD, List.getElem?_replicate]
    split_ifs <;> simp
  | succ m ih =>
    obtain ⟨h1, h2⟩ := ih (by omega)
    rw [List.range_succ, List.foldl_append, List.foldl_append, List.foldl_cons, List.foldl_cons, List.foldl_nil,
      List.foldl_nil]
    have := row_approx ha hb m _ _ h1 b.length (by rw [h2]; omega)
    refine ⟨vapprox_mono (by rw [hb.1] at this ⊢; exact this.1) fun i => ?_, by rw [this.2, h2]⟩
    split_ifs <;> omega

theorem convolve_approx {A B : ℕ} {aR a bR b : List ℚ} (ha : VApprox (fun _ => A) aR a)
    (hb : VApprox (fun _ => B) bR b) (h0 : 0 < a.length) :
    VApprox (fun _ => A + B + 1 + a.length) (convolveR signedDouble aR bR) (convolve a b) := by
  unfold convolveR convolve
  rw [ha.1]
  have := (rows_approx ha hb (a.length + b.length - 1) a.length (by omega)).1
  rw [hb.1] at this ⊢
  exact this

/-- A vector of `n + 1` entries, computed with at most `2n² - 1` roundings. -/
def Good (vR v : List ℚ) : Prop := 2 ≤ v.length ∧ VApprox (fun _ => 2 * (v.length - 1) ^ 2 - 1) vR v

theorem good_convolve {aR a bR b : List ℚ} (ha : Good aR a) (hb : Good bR b) :
    Good (convolveR signedDouble aR bR) (convolve a b) := by
  have hl := (convolve_spec a b).1
  have h1 := ha.1
  have h2 := hb.1
  refine ⟨by omega, vapprox_mono (convolve_approx ha.2 hb.2 (by omega)) fun _ => ?_⟩
  rw [hl]
  obtain ⟨m, hm⟩ : ∃ m, a.length = m + 2 := ⟨a.length - 2, by omega⟩
  obtain ⟨n, hn⟩ : ∃ n, b.length = n + 2 := ⟨b.length - 2, by omega⟩
  rw [hm, hn, show m + 2 - 1 = m + 1 by omega, show n + 2 - 1 = n + 1 by omega,
    show m + 2 + (n + 2) - 1 - 1 = m + n + 2 by omega]
  have e1 : 1 ≤ (m + 1) ^ 2 := Nat.one_le_pow _ _ (by omega)
  have e2 : 1 ≤ (n + 1) ^ 2 := Nat.one_le_pow _ _ (by omega)
  have e3 : 2 * (m + 1) ^ 2 + 2 * (n + 1) ^ 2 + (m + 2) ≤ 2 * (m + n + 2) ^ 2 := by nlinarith
  omega

theorem good_pairUp : ∀ {lR l : List (List ℚ)}, List.Forall₂ Good lR l →
    ∃ l'R l', pairUpR signedDouble lR = .ok l'R ∧ pairUp l = .ok l' ∧ List.Forall₂ Good l'R l'
  | [], _, .nil => ⟨[], [], rfl, rfl, .nil⟩
  | [a], _, .cons h .nil => ⟨[a], _, rfl, rfl, .cons h .nil⟩
  | a :: b :: rest, _, .cons (b := a') h1 (.cons (b := b') (l₂ := rest') h2 h3) => by
    obtain ⟨cR, c, e1, e2, e3⟩ := good_pairUp h3
    refine ⟨_ :: cR, _ :: c, ?_, ?_, .cons (good_convolve h1 h2) e3⟩
    · unfold pairUpR
      have : convolvePyR signedDouble a b = .ok (convolveR signedDouble a b) := by
        unfold convolvePyR
        have := h1.1
        have := h1.2.1
        rw [if_neg (by omega)]
      rw [this, e1]
      rfl
    · unfold pairUp
      have : convolvePy a' b' = .ok (convolve a' b') := by
        unfold convolvePy
        have := h1.1
        rw [if_neg (by omega)]
      rw [this, e2]
      rfl

theorem good_mergeAll {lR l : List (List ℚ)} (h : List.Forall₂ Good lR l) (hne : l ≠ []) :
    ∃ vR v, mergeAllR signedDouble lR = .ok [vR] ∧ mergeAll l = .ok [v] ∧ Good vR v := by
  obtain ⟨n, hn⟩ : ∃ n, l.length = n := ⟨_, rfl⟩
  induction n using Nat.strong_induction_on generalizing lR l with
  | _ n ih =>
    by_cases h1 : 1 < l.length
    · obtain ⟨l'R, l', e1, e2, e3⟩ := good_pairUp h
      have hlen := pairUp_length e2
      obtain ⟨vR, v, f1, f2, f3⟩ := ih l'.length (by omega) e3 (by
        intro h0
        rw [h0] at hlen
        simp at hlen
        omega) rfl
      refine ⟨vR, v, ?_, ?_, f3⟩
      · unfold mergeAllR
        rw [if_pos (by rw [h.length_eq]; exact h1)]
        split
        · rename_i x hx
          rw [e1] at hx
          cases hx
          exact f1
        · rename_i x hx
          rw [e1] at hx
          cases hx
      · unfold mergeAll
        rw [if_pos h1]
        split
        · rename_i x hx
          rw [e2] at hx
          cases hx
          exact f2
        · rename_i x hx
          rw [e2] at hx
          cases hx
    · match lR, l, h with
      | [], [], _ => exact absurd rfl hne
      | [a], [b], .cons hab .nil =>
        refine ⟨a, b, ?_, ?_, hab⟩
        · unfold mergeAllR; rw [if_neg (by simp)]
        · unfold mergeAll; rw [if_neg (by simp)]
      | _ :: _ :: _, _ :: _ :: _, _ => simp at h1

theorem cpow_ge (k : ℕ) : 1 - (k : ℚ) / 2 ^ 53 ≤ (1 - 1 / 2 ^ 53 : ℚ) ^ k := by
  induction k with
  | zero => simp
  | succ k ih =>
    rw [pow_succ _ k]
    have h1 := mul_le_mul_of_nonneg_right ih c_pos.le
    have h2 : (0 : ℚ) ≤ (k : ℚ) / 2 ^ 53 * (1 / 2 ^ 53) := by positivity
    have h3 : (1 - (k : ℚ) / 2 ^ 53) * (1 - 1 / 2 ^ 53) =
      1 - ((k + 1 : ℕ) : ℚ) / 2 ^ 53 + (k : ℚ) / 2 ^ 53 * (1 / 2 ^ 53) := by push_cast; ring
    rw [h3] at h1
    exact le_trans (le_add_of_nonneg_right h2) h1

theorem near_small {k : ℕ} {f : ℚ} (h : Near k f) (hk : k ≤ 2 ^ 52) : |f - 1| ≤ 2 * (k : ℚ) / 2 ^ 53 := by
  refine (near_abs h).trans ?_
  have h1 := cpow_ge k
  have hk' : (k : ℚ) / 2 ^ 53 ≤ 1 / 2 := by
    rw [div_le_iff₀ (by norm_num)]
    have : (k : ℚ) ≤ 2 ^ 52 := by exact_mod_cast hk
    linarith
  have h0 : (0 : ℚ) ≤ (k : ℚ) / 2 ^ 53 := by positivity
  rw [sub_le_iff_le_add, div_le_iff₀ (cpow_pos k), mul_div_assoc]
  generalize (k : ℚ) / 2 ^ 53 = t at *
  generalize (1 - 1 / 2 ^ 53 : ℚ) ^ k = c at *
  nlinarith

/-- C321.  Every probability of a number of defaults among `n` firms, down to the smallest, has in doubles a relative
error of at most `4n² 2^-53`. -/
theorem C321_relative (probs : List ℚ) (hne : probs ≠ []) (hp : ∀ p ∈ probs, 0 ≤ p ∧ p ≤ 1)
    (hn : probs.length < 2 ^ 25) :
    ∃ vR v, systematicDefaultProbsR signedDouble probs = .ok vR ∧ systematicDefaultProbs probs = .ok v ∧
      vR.length = probs.length + 1 ∧ v.length = probs.length + 1 ∧
      ∀ k, |vR.getD k 0 - v.getD k 0| ≤ v.getD k 0 * (4 * (probs.length : ℚ) ^ 2 / 2 ^ 53) := by
  have hg : List.Forall₂ Good (probs.map fun p => [signedDouble (1 - p), p]) (probs.map fun p => [1 - p, p]) := by
    clear hne hn
    induction probs with
    | nil => exact .nil
    | cons p ps ih =>
      refine .cons ?_ (ih fun q hq => hp q (List.mem_cons_of_mem _ hq))
      obtain ⟨h0, h1⟩ := hp p List.mem_cons_self
      refine ⟨by simp, by simp, fun i => ?_⟩
      obtain ⟨d, d1, d2⟩ := sd_factor (1 - p)
      match i with
      | 0 => exact ⟨d, by simpa using d1, by simpa using d2, by simpa using h1⟩
      | 1 => exact ⟨1, by simp, near_one _, by simpa using h0⟩
      | i + 2 => exact ⟨1, by simp, near_one _, by simp⟩
  obtain ⟨vR, v, e1, e2, e3⟩ := good_mergeAll hg (by simpa using hne)
  obtain ⟨w, w1, w2, -⟩ := C114_law probs hne
  have hv : systematicDefaultProbs probs = .ok v := by
    unfold systematicDefaultProbs getDefaultCountProbs
    rw [e2]
    rfl
  rw [hv] at w1
  cases w1
  refine ⟨vR, v, ?_, hv, by rw [e3.2.1, w2], w2, fun k => ?_⟩
  · unfold systematicDefaultProbsR getDefaultCountProbsR
    rw [e1]
    rfl
  · obtain ⟨f, f1, f2, f3⟩ := e3.2.2 k
    rw [w2, Nat.add_sub_cancel] at f2
    have hsq : probs.length ^ 2 ≤ 2 ^ 50 := by
      calc probs.length ^ 2 ≤ (2 ^ 25) ^ 2 := Nat.pow_le_pow_left hn.le 2
        _ = 2 ^ 50 := by norm_num
    have hs := near_small f2 (by show 2 * probs.length ^ 2 - 1 ≤ 2 ^ 52; omega)
    rw [f1, show v.getD k 0 * f - v.getD k 0 = v.getD k 0 * (f - 1) by ring, abs_mul, abs_of_nonneg f3]
    apply mul_le_mul_of_nonneg_left _ f3
    refine hs.trans ?_
    apply div_le_div_of_nonneg_right _ (by norm_num)
    have : ((2 * probs.length ^ 2 - 1 : ℕ) : ℚ) ≤ 2 * (probs.length : ℚ) ^ 2 := by
      exact_mod_cast Nat.sub_le _ _
    linarith

/-- C321.  The probabilities in doubles are non-negative, and zero only if the event is impossible. -/
theorem C321_sign (probs vR v : List ℚ) (hp : ∀ p ∈ probs, 0 ≤ p ∧ p ≤ 1) (hn : probs.length < 2 ^ 25)
    (hR : systematicDefaultProbsR signedDouble probs = .ok vR) (hv : systematicDefaultProbs probs = .ok v) (k : ℕ) :
    0 ≤ vR.getD k 0 ∧ (vR.getD k 0 = 0 ↔ v.getD k 0 = 0) := by
  have hne : probs ≠ [] := by
    rintro rfl
    rw [C114_empty] at hv
    cases hv
  obtain ⟨vR', v', e1, e2, e3, e4, e5⟩ := C321_relative probs hne hp hn
  rw [hR] at e1
  rw [hv] at e2
  cases e1
  cases e2
  have h := e5 k
  have h0 : 0 ≤ v.getD k 0 := by
    have hf := (C114_probability probs v hv hp).1
    rw [List.getD_eq_getElem?_getD]
    cases hg : v[k]? with
    | none => simp
    | some x => simpa using (hf x (List.mem_of_getElem? hg)).1
  have hq : (4 * (probs.length : ℚ) ^ 2 / 2 ^ 53) < 1 := by
    rw [div_lt_one (by norm_num)]
    have : (probs.length : ℚ) < 2 ^ 25 := by exact_mod_cast hn
    have h0 : (0 : ℚ) ≤ probs.length := Nat.cast_nonneg _
    nlinarith
  rw [abs_le] at h
  constructor
  · nlinarith [h.1]
  · constructor
    · intro hz
      rw [hz] at h
      by_contra hne
      have hpos := lt_of_le_of_ne h0 (Ne.symm hne)
      nlinarith [h.1]
    · intro hz
      rw [hz] at h
      linarith [h.1, h.2]

/-- The full claim on the order: in doubles, too, the order of the firms does not matter. -/
def OrderFree : Prop :=
  ∀ probs probs' : List ℚ, probs.Perm probs' → (∀ p ∈ probs, 0 ≤ p ∧ p ≤ 1 ∧ signedDouble p = p) →
    systematicDefaultProbsR signedDouble probs = systematicDefaultProbsR signedDouble probs'

/-- C321 (partial).  In another order every probability agrees up to the error of both. -/
theorem C321_order_partial (probs probs' : List ℚ) (h : probs.Perm probs') (hne : probs ≠ [])
    (hp : ∀ p ∈ probs, 0 ≤ p ∧ p ≤ 1) (hn : probs.length < 2 ^ 25) :
    ∃ vR vR' v, systematicDefaultProbsR signedDouble probs = .ok vR ∧
      systematicDefaultProbsR signedDouble probs' = .ok vR' ∧ systematicDefaultProbs probs = .ok v ∧
      ∀ k, |vR.getD k 0 - vR'.getD k 0| ≤ v.getD k 0 * (8 * (probs.length : ℚ) ^ 2 / 2 ^ 53) := by
  obtain ⟨vR, v, e1, e2, -, -, e5⟩ := C321_relative probs hne hp hn
  obtain ⟨vR', v', f1, f2, -, -, f5⟩ := C321_relative probs' (by
    rintro rfl; exact hne h.eq_nil) (fun p hp' => hp p (h.mem_iff.2 hp')) (by rw [← h.length_eq]; exact hn)
  have := C115_firms probs probs' h
  rw [e2, f2] at this
  cases this
  refine ⟨vR, vR', v, e1, f1, e2, fun k => ?_⟩
  have h1 := e5 k
  have h2 := f5 k
  rw [← h.length_eq, abs_sub_comm] at h2
  have h3 := abs_sub_le (vR.getD k 0) (v.getD k 0) (vR'.getD k 0)
  calc |vR.getD k 0 - vR'.getD k 0| ≤ _ := h3
    _ ≤ _ := add_le_add h1 h2
    _ = _ := by ring

theorem mergeAllR_step {rd : ℚ → ℚ} {l l' : List (List ℚ)} (h1 : 1 < l.length) (h : pairUpR rd l = .ok l') :
    mergeAllR rd l = mergeAllR rd l' := by
  conv_lhs => unfold mergeAllR
  rw [if_pos h1]
  split
  · rename_i x hx
    rw [h] at hx
    cases hx
    rfl
  · rename_i x hx
    rw [h] at hx
    cases hx

theorem three_firms (rd : ℚ → ℚ) (p q r : ℚ) :
    systematicDefaultProbsR rd [p, q, r] =
      .ok (convolveR rd (convolveR rd [rd (1 - p), p] [rd (1 - q), q]) [rd (1 - r), r]) := by
  unfold systematicDefaultProbsR getDefaultCountProbsR
  rw [List.map_cons, List.map_cons, List.map_cons, List.map_nil,
    mergeAllR_step (l' := [convolveR rd [rd (1 - p), p] [rd (1 - q), q], [rd (1 - r), r]]) (by simp) rfl,
    mergeAllR_step (l' := [convolveR rd (convolveR rd [rd (1 - p), p] [rd (1 - q), q]) [rd (1 - r), r]]) (by simp) (by
      simp [pairUpR, convolvePyR])]
  unfold mergeAllR
  rw [if_neg (by simp)]
  rfl

/-- C321 (refuted).  With default probabilities 1/2, 1/4 and the double 0.1 the order of the last two firms changes the
probability of one default. -/
theorem C321_order_counterexample : ¬ OrderFree := by
  intro h
  have := h [1 / 2, 1 / 4, 3602879701896397 / 2 ^ 55] [1 / 2, 3602879701896397 / 2 ^ 55, 1 / 4]
    (List.Perm.cons _ (List.Perm.swap _ _ _)) (by decide +kernel)
  rw [three_firms, three_firms, Except.ok.injEq] at this
  revert this
  decide +kernel

/-- Three firms meet the hypotheses. -/
example : ∃ vR v, systematicDefaultProbsR signedDouble [1 / 2, 1 / 4, 1 / 8] = .ok vR ∧
    systematicDefaultProbs [(1 / 2 : ℚ), 1 / 4, 1 / 8] = .ok v ∧
    ∀ k, |vR.getD k 0 - v.getD k 0| ≤ v.getD k 0 * (4 * (3 : ℚ) ^ 2 / 2 ^ 53) := by
  obtain ⟨vR, v, h1, h2, -, -, h5⟩ := C321_relative [1 / 2, 1 / 4, 1 / 8] (by simp) (by decide +kernel) (by norm_num)
  exact ⟨vR, v, h1, h2, by simpa using h5⟩

end FinML.Default
