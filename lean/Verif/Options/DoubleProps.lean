import Verif.Options.DoubleModel
import Verif.Bars.VwapDoubleProps

/-!
# Binomial option prices in doubles (C292)
-/

namespace FinML.Options

open FinML.Alloc

/-! ## Values of the nodes -/

/-- The value of the option at node `(i, j)` with `m` steps left: `hold` of the two next nodes, or early exercise. -/
def nodeVal {K : Type} [LinearOrder K] (hold : K → K → K) (pay early : ℕ → ℕ → K) : ℕ → ℕ → ℕ → K
  | 0, i, j => pay i j
  | m + 1, i, j => max (hold (nodeVal hold pay early m (i + 1) (j + 1)) (nodeVal hold pay early m (i + 1) j)) (early i j)

section
variable {K : Type} [Field K] [LinearOrder K]

omit [LinearOrder K] in
theorem range_getD (f : ℕ → K) (n j : ℕ) (h : j < n) : ((List.range n).map f).getD j 0 = f j := by
  simp [List.getD_eq_getElem?_getD, h]

theorem backwardR_eq (L : Lib K) (tr : TreeR K) (early pay : K → K) (s0 : K) (i m : ℕ) (row : List K)
    (h : row = (List.range (i + 1)).map fun j : ℕ => nodeVal (holdR L tr) (fun a b => pay (spotR L tr s0 a b))
      (fun a b => early (spotR L tr s0 a b)) m i j) :
    (backwardR L tr early s0 i row).getD 0 0 = nodeVal (holdR L tr) (fun a b => pay (spotR L tr s0 a b))
      (fun a b => early (spotR L tr s0 a b)) (i + m) 0 0 := by
  induction i generalizing m row with
  | zero =>
    subst h
    simp [backwardR]
  | succ i ih =>
    rw [backwardR, ih (m + 1), show i + (m + 1) = i + 1 + m by omega]
    subst h
    refine List.map_congr_left fun j hj => ?_
    have hj := List.mem_range.1 hj
    rw [range_getD _ _ _ (by omega), range_getD _ _ _ (by omega)]
    rfl

theorem price_cases {L : Lib K} {ot style : OptionType} {s0 k t r sigma q : K} {fut : Bool} {n : ℤ} {v : K}
    (h : binomOptionPriceR L ot style s0 k t r sigma q fut n = .ok (some v)) :
    ∃ (m : ℕ) (tr : TreeR K) (early : K → K), n = m ∧ 0 < m ∧ (ot = .call ∨ ot = .put) ∧
      mkTreeR L t r sigma (if fut then r else q) m = some tr ∧ earlyValueR L ot style k = some early ∧
      v = nodeVal (holdR L tr) (fun a b => payoffR L ot k (spotR L tr s0 a b))
        (fun a b => early (spotR L tr s0 a b)) m 0 0 := by
  unfold binomOptionPriceR at h
  by_cases h1 : n = 0
  · rw [if_pos h1] at h; exact absurd h (by simp)
  by_cases h2 : n < 0
  · rw [if_neg h1, if_pos h2] at h; exact absurd h (by simp)
  by_cases h3 : (exerciseR L ot s0 k).isNone
  · rw [if_neg h1, if_neg h2, if_pos h3] at h; exact absurd h (by simp)
  · rw [if_neg h1, if_neg h2, if_neg h3] at h
    have ho : ot = .call ∨ ot = .put := by
      cases ot <;> simp [exerciseR] at h3 ⊢
    cases he : earlyValueR L ot style k with
    | none => rw [he] at h; exact absurd h (by simp)
    | some early =>
      rw [he] at h
      simp only [Except.ok.injEq, Option.map_eq_some_iff] at h
      obtain ⟨tr, ht, hv⟩ := h
      refine ⟨n.toNat, tr, early, by omega, by omega, ho, ht, rfl, ?_⟩
      rw [← hv]
      have := backwardR_eq L tr early (payoffR L ot k) s0 n.toNat 0 (lastRowR L tr (payoffR L ot k) s0 n.toNat) rfl
      simpa using this

omit [Field K] in
theorem nodeVal_mono {hold : K → K → K} (hm : ∀ a b c d : K, a ≤ b → c ≤ d → hold a c ≤ hold b d)
    {pay pay' early early' : ℕ → ℕ → K} (hp : ∀ i j, pay i j ≤ pay' i j) (he : ∀ i j, early i j ≤ early' i j)
    (m i j : ℕ) : nodeVal hold pay early m i j ≤ nodeVal hold pay' early' m i j := by
  induction m generalizing i j with
  | zero => exact hp i j
  | succ m ih => exact max_le_max (hm _ _ _ _ (ih _ _) (ih _ _)) (he i j)

end

/-! ## The library in doubles -/

/-- What is used of `exp` and `pow`; every operation rounds to doubles. -/
structure LibOk (L : Lib ℚ) : Prop where
  rd : L.rd = signedDouble
  exp_zero : L.exp 0 = 1
  exp_pos : ∀ x, 0 < L.exp x
  exp_mono : Monotone L.exp
  pow_zero : ∀ x, L.pow x 0 = 1
  pow_nonneg : ∀ (x : ℚ) (j : ℕ), 0 ≤ x → 0 ≤ L.pow x j

/-- The growth over one step computed by the code is between its computed down and up moves. -/
def DriftOkR (L : Lib ℚ) (t r sigma q : ℚ) (n : ℕ) : Prop :=
  let dt := signedDouble (t / n)
  let u := L.exp (signedDouble (sigma * L.sqrt dt))
  let a := L.exp (signedDouble (signedDouble (r - q) * dt))
  signedDouble (1 / u) ≤ a ∧ a ≤ u

theorem sd_zero' : signedDouble 0 = 0 := by simpa using signedDouble_nat 0 (by norm_num)

theorem sd_nonneg {x : ℚ} (h : 0 ≤ x) : 0 ≤ signedDouble x := by
  have := signedDouble_mono h
  rwa [sd_zero'] at this

theorem sd_nonpos {x : ℚ} (h : x ≤ 0) : signedDouble x ≤ 0 := by
  have := signedDouble_mono h
  rwa [sd_zero'] at this

theorem sd_le_one {x : ℚ} (h : x ≤ 1) : signedDouble x ≤ 1 := by
  have := signedDouble_mono h
  rwa [signedDouble_one] at this

/-- C292: the probability computed in doubles lies between 0 and 1 if the computed growth over one step lies between
the computed moves. -/
theorem C292_probability (L : Lib ℚ) (hL : LibOk L) (t r sigma q : ℚ) (n : ℕ) (tr : TreeR ℚ)
    (h : mkTreeR L t r sigma q n = some tr) (hd : DriftOkR L t r sigma q n) : 0 ≤ tr.p ∧ tr.p ≤ 1 := by
  unfold mkTreeR at h
  rw [hL.rd] at h
  dsimp only at h
  split_ifs at h with hc
  simp only [Option.some.injEq] at h
  subst h
  obtain ⟨h1, h2⟩ := hd
  dsimp only at h1 h2 hc ⊢
  push Not at hc
  obtain ⟨-, hne⟩ := hc
  generalize L.exp (signedDouble (sigma * L.sqrt (signedDouble (t / n)))) = u at *
  generalize L.exp (signedDouble (signedDouble (r - q) * signedDouble (t / n))) = a at *
  generalize signedDouble (1 / u) = d at *
  have hu : 0 ≤ signedDouble (u - d) := sd_nonneg (by linarith)
  have hu' : 0 < signedDouble (u - d) := lt_of_le_of_ne hu (Ne.symm hne)
  have ha : 0 ≤ signedDouble (a - d) := sd_nonneg (by linarith)
  refine ⟨sd_nonneg (div_nonneg ha hu), sd_le_one ?_⟩
  rw [div_le_one hu']
  exact signedDouble_mono (by linarith)

/-- C292: this is so when the yield is at most the rate and the drift of a step is at most its volatility. -/
theorem C292_drift (L : Lib ℚ) (hL : LibOk L) (t r sigma q : ℚ) (n : ℕ) (ht : 0 ≤ t) (hrq : q ≤ r)
    (h : signedDouble (r - q) * signedDouble (t / n) ≤ sigma * L.sqrt (signedDouble (t / n))) :
    DriftOkR L t r sigma q n := by
  have hdt : 0 ≤ signedDouble (t / n) := sd_nonneg (by positivity)
  have h0 : 0 ≤ signedDouble (signedDouble (r - q) * signedDouble (t / n)) :=
    sd_nonneg (mul_nonneg (sd_nonneg (by linarith)) hdt)
  have ha := hL.exp_mono h0
  have hua := hL.exp_mono (signedDouble_mono h)
  rw [hL.exp_zero] at ha
  refine ⟨(sd_le_one ?_).trans ha, hua⟩
  rw [div_le_one (hL.exp_pos _)]
  exact ha.trans hua

theorem tree_pos {L : Lib ℚ} (hL : LibOk L) {t r sigma q : ℚ} {n : ℕ} {tr : TreeR ℚ}
    (h : mkTreeR L t r sigma q n = some tr) : 0 < tr.u ∧ 0 ≤ tr.d ∧ 0 ≤ tr.disc ∧
      (0 ≤ t → 0 ≤ r → tr.disc ≤ 1) := by
  unfold mkTreeR at h
  rw [hL.rd] at h
  dsimp only at h
  split_ifs at h with hc
  simp only [Option.some.injEq] at h
  subst h
  refine ⟨hL.exp_pos _, sd_nonneg (by have := hL.exp_pos (signedDouble (sigma * L.sqrt (signedDouble (t / n)))); positivity),
    (hL.exp_pos _).le, fun ht hr => ?_⟩
  have h0 : signedDouble (-r * signedDouble (t / n)) ≤ 0 :=
    sd_nonpos (mul_nonpos_of_nonpos_of_nonneg (by linarith) (sd_nonneg (by positivity)))
  have := hL.exp_mono h0
  rwa [hL.exp_zero] at this

theorem hold_mono {L : Lib ℚ} (hL : LibOk L) {tr : TreeR ℚ} (hp : 0 ≤ tr.p) (hp1 : tr.p ≤ 1) (hd : 0 ≤ tr.disc)
    (a b c d : ℚ) (hab : a ≤ b) (hcd : c ≤ d) : holdR L tr a c ≤ holdR L tr b d := by
  unfold holdR
  rw [hL.rd]
  refine signedDouble_mono (mul_le_mul_of_nonneg_left (signedDouble_mono (add_le_add ?_ ?_)) hd)
  · exact signedDouble_mono (mul_le_mul_of_nonneg_left hab hp)
  · exact signedDouble_mono (mul_le_mul_of_nonneg_left hcd (sd_nonneg (by linarith)))

theorem spot_mono {L : Lib ℚ} (hL : LibOk L) {tr : TreeR ℚ} (hu : 0 ≤ tr.u) (hd : 0 ≤ tr.d) {s s' : ℚ} (h : s ≤ s')
    (i j : ℕ) : spotR L tr s i j ≤ spotR L tr s' i j := by
  unfold spotR
  rw [hL.rd]
  exact signedDouble_mono (mul_le_mul_of_nonneg_right (signedDouble_mono (mul_le_mul_of_nonneg_right h
    (hL.pow_nonneg _ _ hu))) (hL.pow_nonneg _ _ hd))

theorem payoffR_nonneg (L : Lib ℚ) (ot : OptionType) (k s : ℚ) : 0 ≤ payoffR L ot k s := by
  unfold payoffR exerciseR
  cases ot <;> simp

/-! ## The theorems -/

/-- C292: in doubles an American option is worth at least the European one. -/
theorem C292_american (L : Lib ℚ) (hL : LibOk L) (ot : OptionType) (s0 k t r sigma q : ℚ) (fut : Bool) (n : ℕ)
    (hd : DriftOkR L t r sigma (if fut then r else q) n) (am eur : ℚ)
    (ha : binomOptionPriceR L ot .american s0 k t r sigma q fut n = .ok (some am))
    (he : binomOptionPriceR L ot .european s0 k t r sigma q fut n = .ok (some eur)) : 0 ≤ eur ∧ eur ≤ am := by
  obtain ⟨m, tr, early, hn, hm, -, ht, hea, rfl⟩ := price_cases ha
  obtain ⟨m', tr', early', hn', -, -, ht', hee, rfl⟩ := price_cases he
  obtain rfl : n = m := by exact_mod_cast hn
  obtain rfl : n = m' := by exact_mod_cast hn'
  rw [ht] at ht'
  obtain rfl : tr = tr' := by simpa using ht'
  simp only [earlyValueR, Option.some.injEq] at hea hee
  subst hea hee
  obtain ⟨hp, hp1⟩ := C292_probability L hL _ _ _ _ _ _ ht hd
  obtain ⟨-, -, hdisc, -⟩ := tree_pos hL ht
  obtain ⟨l, rfl⟩ : ∃ l, n = l + 1 := ⟨n - 1, by omega⟩
  exact ⟨le_max_right _ _, nodeVal_mono (hold_mono hL hp hp1 hdisc) (fun i j => le_rfl)
    (fun i j => payoffR_nonneg L ot k _) _ _ _⟩

/-- C292: in doubles an American option is worth at least the rounded value of immediate exercise. -/
theorem C292_intrinsic (L : Lib ℚ) (hL : LibOk L) (ot : OptionType) (s0 k t r sigma q : ℚ) (fut : Bool) (n : ℤ)
    (hs : signedDouble s0 = s0) (am : ℚ)
    (ha : binomOptionPriceR L ot .american s0 k t r sigma q fut n = .ok (some am)) :
    (ot = .call → max (signedDouble (s0 - k)) 0 ≤ am) ∧ (ot = .put → max (signedDouble (k - s0)) 0 ≤ am) := by
  obtain ⟨m, tr, early, -, hm, -, -, hea, rfl⟩ := price_cases ha
  simp only [earlyValueR, Option.some.injEq] at hea
  subst hea
  obtain ⟨l, rfl⟩ : ∃ l, m = l + 1 := ⟨m - 1, by omega⟩
  have h0 : spotR L tr s0 0 0 = s0 := by
    unfold spotR
    rw [hL.rd, hL.pow_zero, hL.pow_zero]
    simp [hs]
  constructor
  · rintro rfl
    refine le_trans (le_of_eq ?_) (le_max_right _ _)
    simp only [h0]
    simp [payoffR, exerciseR, hL.rd]
  · rintro rfl
    refine le_trans (le_of_eq ?_) (le_max_right _ _)
    simp only [h0]
    simp [payoffR, exerciseR, hL.rd]

theorem early_mono {L : Lib ℚ} {ot style : OptionType} {k k' : ℚ} {e e' : ℚ → ℚ}
    (h : earlyValueR L ot style k = some e) (h' : earlyValueR L ot style k' = some e') {s s' : ℚ}
    (hp : payoffR L ot k s ≤ payoffR L ot k' s') : e s ≤ e' s' := by
  cases style <;> simp [earlyValueR] at h h' <;> subst h h' <;> simp [hp]

/-- C292: in doubles a call is worth no more, and a put no less, when the strike is higher. -/
theorem C292_strike (L : Lib ℚ) (hL : LibOk L) (ot style : OptionType) (s0 k k' t r sigma q : ℚ) (fut : Bool) (n : ℕ)
    (hd : DriftOkR L t r sigma (if fut then r else q) n) (hk : k ≤ k') (v v' : ℚ)
    (h : binomOptionPriceR L ot style s0 k t r sigma q fut n = .ok (some v))
    (h' : binomOptionPriceR L ot style s0 k' t r sigma q fut n = .ok (some v')) :
    (ot = .call → v' ≤ v) ∧ (ot = .put → v ≤ v') := by
  obtain ⟨m, tr, early, hn, hm, -, ht, he, rfl⟩ := price_cases h
  obtain ⟨m', tr', early', hn', -, -, ht', he', rfl⟩ := price_cases h'
  obtain rfl : n = m := by exact_mod_cast hn
  obtain rfl : n = m' := by exact_mod_cast hn'
  rw [ht] at ht'
  obtain rfl : tr = tr' := by simpa using ht'
  obtain ⟨hp, hp1⟩ := C292_probability L hL _ _ _ _ _ _ ht hd
  obtain ⟨-, -, hdisc, -⟩ := tree_pos hL ht
  constructor
  · rintro rfl
    have hc : ∀ s, payoffR L .call k' s ≤ payoffR L .call k s := fun s => by
      simp only [payoffR, exerciseR, Option.getD_some, hL.rd]
      exact max_le_max_right 0 (signedDouble_mono (by linarith))
    exact nodeVal_mono (hold_mono hL hp hp1 hdisc) (fun i j => hc _) (fun i j => early_mono he' he (hc _)) _ _ _
  · rintro rfl
    have hc : ∀ s, payoffR L .put k s ≤ payoffR L .put k' s := fun s => by
      simp only [payoffR, exerciseR, Option.getD_some, hL.rd]
      exact max_le_max_right 0 (signedDouble_mono (by linarith))
    exact nodeVal_mono (hold_mono hL hp hp1 hdisc) (fun i j => hc _) (fun i j => early_mono he he' (hc _)) _ _ _

/-- C292: in doubles a call is worth no less, and a put no more, when the underlying is higher. -/
theorem C292_spot (L : Lib ℚ) (hL : LibOk L) (ot style : OptionType) (s0 s0' k t r sigma q : ℚ) (fut : Bool) (n : ℕ)
    (hd : DriftOkR L t r sigma (if fut then r else q) n) (hs : s0 ≤ s0') (v v' : ℚ)
    (h : binomOptionPriceR L ot style s0 k t r sigma q fut n = .ok (some v))
    (h' : binomOptionPriceR L ot style s0' k t r sigma q fut n = .ok (some v')) :
    (ot = .call → v ≤ v') ∧ (ot = .put → v' ≤ v) := by
  obtain ⟨m, tr, early, hn, hm, -, ht, he, rfl⟩ := price_cases h
  obtain ⟨m', tr', early', hn', -, -, ht', he', rfl⟩ := price_cases h'
  obtain rfl : n = m := by exact_mod_cast hn
  obtain rfl : n = m' := by exact_mod_cast hn'
  rw [ht] at ht'
  obtain rfl : tr = tr' := by simpa using ht'
  obtain ⟨hp, hp1⟩ := C292_probability L hL _ _ _ _ _ _ ht hd
  obtain ⟨hu, hdn, hdisc, -⟩ := tree_pos hL ht
  have hsp := fun i j => spot_mono hL hu.le hdn hs i j
  constructor
  · rintro rfl
    have hc : ∀ i j, payoffR L .call k (spotR L tr s0 i j) ≤ payoffR L .call k (spotR L tr s0' i j) := fun i j => by
      simp only [payoffR, exerciseR, Option.getD_some, hL.rd]
      exact max_le_max_right 0 (signedDouble_mono (by linarith [hsp i j]))
    exact nodeVal_mono (hold_mono hL hp hp1 hdisc) (fun i j => hc i j) (fun i j => early_mono he he' (hc i j)) _ _ _
  · rintro rfl
    have hc : ∀ i j, payoffR L .put k (spotR L tr s0' i j) ≤ payoffR L .put k (spotR L tr s0 i j) := fun i j => by
      simp only [payoffR, exerciseR, Option.getD_some, hL.rd]
      exact max_le_max_right 0 (signedDouble_mono (by linarith [hsp i j]))
    exact nodeVal_mono (hold_mono hL hp hp1 hdisc) (fun i j => hc i j) (fun i j => early_mono he' he (hc i j)) _ _ _

/-! ## Accuracy -/

/-- One step of the exact tree. -/
def hold (tr : TreeR ℚ) (up down : ℚ) : ℚ := tr.disc * (tr.p * up + (1 - tr.p) * down)

theorem sd_bounds {x : ℚ} (h : 0 ≤ x) :
    (1 - 1 / 2 ^ 53 : ℚ) * x ≤ signedDouble x ∧ (1 - 1 / 2 ^ 53 : ℚ) * signedDouble x ≤ x := by
  obtain ⟨f, hf, h1, h2⟩ := sd_factor x
  rw [pow_one] at h1 h2
  rw [hf]
  constructor
  · nlinarith
  · nlinarith

/-- `y` is within `k` roundings of `x`. -/
def Within (k : ℕ) (x y : ℚ) : Prop := 0 ≤ x ∧ 0 ≤ y ∧ (1 - 1 / 2 ^ 53 : ℚ) ^ k * x ≤ y ∧ (1 - 1 / 2 ^ 53 : ℚ) ^ k * y ≤ x

theorem within_refl {x : ℚ} (h : 0 ≤ x) : Within 0 x x := ⟨h, h, by simp, by simp⟩

theorem within_mono {j k : ℕ} {x y : ℚ} (h : Within j x y) (hjk : j ≤ k) : Within k x y := by
  obtain ⟨h1, h2, h3, h4⟩ := h
  have hc : (1 - 1 / 2 ^ 53 : ℚ) ^ k ≤ (1 - 1 / 2 ^ 53 : ℚ) ^ j := pow_le_pow_of_le_one c_pos.le c_le hjk
  exact ⟨h1, h2, (mul_le_mul_of_nonneg_right hc h1).trans h3, (mul_le_mul_of_nonneg_right hc h2).trans h4⟩

theorem within_sd {k : ℕ} {x y : ℚ} (h : Within k x y) : Within (k + 1) x (signedDouble y) := by
  obtain ⟨h1, h2, h3, h4⟩ := h
  obtain ⟨b1, b2⟩ := sd_bounds h2
  have hc := cpow_pos k
  refine ⟨h1, sd_nonneg h2, ?_, ?_⟩
  · rw [pow_succ]
    calc _ = (1 - 1 / 2 ^ 53 : ℚ) * ((1 - 1 / 2 ^ 53 : ℚ) ^ k * x) := by ring
      _ ≤ (1 - 1 / 2 ^ 53 : ℚ) * y := mul_le_mul_of_nonneg_left h3 c_pos.le
      _ ≤ _ := b1
  · rw [pow_succ]
    calc _ = (1 - 1 / 2 ^ 53 : ℚ) ^ k * ((1 - 1 / 2 ^ 53 : ℚ) * signedDouble y) := by ring
      _ ≤ (1 - 1 / 2 ^ 53 : ℚ) ^ k * y := mul_le_mul_of_nonneg_left b2 hc.le
      _ ≤ _ := h4

theorem within_add {k : ℕ} {x y z w : ℚ} (h : Within k x y) (g : Within k z w) : Within k (x + z) (y + w) := by
  obtain ⟨h1, h2, h3, h4⟩ := h
  obtain ⟨g1, g2, g3, g4⟩ := g
  exact ⟨by linarith, by linarith, by rw [mul_add]; linarith, by rw [mul_add]; linarith⟩

theorem within_mul {j k : ℕ} {x y z w : ℚ} (h : Within j x y) (g : Within k z w) : Within (j + k) (x * z) (y * w) := by
  obtain ⟨h1, h2, h3, h4⟩ := h
  obtain ⟨g1, g2, g3, g4⟩ := g
  have hj := cpow_pos j
  have hk := cpow_pos k
  refine ⟨mul_nonneg h1 g1, mul_nonneg h2 g2, ?_, ?_⟩
  · rw [pow_add, mul_mul_mul_comm]
    exact mul_le_mul h3 g3 (mul_nonneg hk.le g1) h2
  · rw [pow_add, mul_mul_mul_comm]
    exact mul_le_mul h4 g4 (mul_nonneg hk.le g2) h1

theorem within_max {k : ℕ} {x y z : ℚ} (h : Within k x y) (hz : 0 ≤ z) : Within k (max x z) (max y z) := by
  obtain ⟨h1, h2, h3, h4⟩ := h
  have hk := cpow_pos k
  have hk1 : (1 - 1 / 2 ^ 53 : ℚ) ^ k ≤ 1 := pow_le_one₀ c_pos.le c_le
  refine ⟨le_max_of_le_left h1, le_max_of_le_left h2, ?_, ?_⟩
  · rw [mul_max_of_nonneg _ _ hk.le]
    exact max_le_max h3 (mul_le_of_le_one_left hz hk1)
  · rw [mul_max_of_nonneg _ _ hk.le]
    exact max_le_max h4 (mul_le_of_le_one_left hz hk1)

theorem within_close {k : ℕ} {x y : ℚ} (hk : k ≤ 2 ^ 52) (h : Within k x y) : |y - x| ≤ (k : ℚ) / 2 ^ 52 * x := by
  obtain ⟨h1, h2, h3, h4⟩ := h
  have hg := FinML.Bars.growth_le k hk
  have hc := cpow_pos k
  have hgy : y ≤ growth k * x := by
    unfold growth
    rw [div_mul_eq_mul_div, le_div_iff₀ hc]
    linarith
  have hgx : x ≤ growth k * y := by
    unfold growth
    rw [div_mul_eq_mul_div, le_div_iff₀ hc]
    linarith
  have hg1 := one_le_growth k
  have hb : (growth k - 1) * x ≤ (k : ℚ) / 2 ^ 52 * x := mul_le_mul_of_nonneg_right hg h1
  rw [abs_le]
  constructor
  · by_cases hxy : x ≤ y
    · nlinarith
    · have : (growth k - 1) * y ≤ (growth k - 1) * x := mul_le_mul_of_nonneg_left (by linarith) (by linarith)
      linarith
  · linarith

theorem hold_within {L : Lib ℚ} (hL : LibOk L) {tr : TreeR ℚ} (hp : 0 ≤ tr.p) (hp1 : tr.p ≤ 1) (hd : 0 ≤ tr.disc)
    {k : ℕ} {a b c d : ℚ} (h1 : Within k a b) (h2 : Within k c d) : Within (k + 4) (hold tr a c) (holdR L tr b d) := by
  unfold hold holdR
  rw [hL.rd]
  have e1 := within_mono (within_sd (within_mul (within_refl hp) h1)) (show 0 + k + 1 ≤ k + 2 by omega)
  have e2 := within_mono (within_sd (within_mul (within_sd (within_refl (sub_nonneg.2 hp1))) h2))
    (show 0 + 1 + k + 1 ≤ k + 2 by omega)
  exact within_mono (within_sd (within_mul (within_refl hd) (within_sd (within_add e1 e2)))) (by omega)

theorem nodeVal_within {L : Lib ℚ} (hL : LibOk L) {tr : TreeR ℚ} (hp : 0 ≤ tr.p) (hp1 : tr.p ≤ 1) (hd : 0 ≤ tr.disc)
    {pay early : ℕ → ℕ → ℚ} (h1 : ∀ i j, 0 ≤ pay i j) (h2 : ∀ i j, 0 ≤ early i j) (m i j : ℕ) :
    Within (4 * m) (nodeVal (hold tr) pay early m i j) (nodeVal (holdR L tr) pay early m i j) := by
  induction m generalizing i j with
  | zero => exact within_refl (h1 i j)
  | succ m ih => exact within_max (hold_within hL hp hp1 hd (ih _ _) (ih _ _)) (h2 i j)

theorem early_nonneg' {L : Lib ℚ} {ot style : OptionType} {k : ℚ} {e : ℚ → ℚ}
    (h : earlyValueR L ot style k = some e) (s : ℚ) : 0 ≤ e s := by
  cases style <;> simp [earlyValueR] at h <;> subst h
  · exact payoffR_nonneg _ _ _ _
  · exact le_rfl

/-- C292: the price in doubles differs from the price that exact backward induction gives on the tree, with the
probability, discount and payoffs that the code computes, by at most `n * 2^-50` of it. -/
theorem C292_accuracy (L : Lib ℚ) (hL : LibOk L) (ot style : OptionType) (s0 k t r sigma q : ℚ) (fut : Bool) (n : ℕ)
    (hn : 4 * n ≤ 2 ^ 52) (hd : DriftOkR L t r sigma (if fut then r else q) n) (v : ℚ)
    (h : binomOptionPriceR L ot style s0 k t r sigma q fut n = .ok (some v)) :
    ∃ tr early, mkTreeR L t r sigma (if fut then r else q) n = some tr ∧ earlyValueR L ot style k = some early ∧
      |v - nodeVal (hold tr) (fun i j => payoffR L ot k (spotR L tr s0 i j)) (fun i j => early (spotR L tr s0 i j)) n 0 0| ≤
        (n : ℚ) / 2 ^ 50 *
          nodeVal (hold tr) (fun i j => payoffR L ot k (spotR L tr s0 i j)) (fun i j => early (spotR L tr s0 i j)) n 0 0 := by
  obtain ⟨m, tr, early, hnm, hm, -, ht, he, rfl⟩ := price_cases h
  obtain rfl : n = m := by exact_mod_cast hnm
  obtain ⟨hp, hp1⟩ := C292_probability L hL _ _ _ _ _ _ ht hd
  obtain ⟨-, -, hdisc, -⟩ := tree_pos hL ht
  refine ⟨tr, early, ht, he, ?_⟩
  have := within_close hn (nodeVal_within hL hp hp1 hdisc (pay := fun i j => payoffR L ot k (spotR L tr s0 i j))
    (early := fun i j => early (spotR L tr s0 i j)) (fun i j => payoffR_nonneg _ _ _ _) (fun i j => early_nonneg' he _)
    n 0 0)
  have e : ((4 * n : ℕ) : ℚ) / 2 ^ 52 = (n : ℚ) / 2 ^ 50 := by push_cast; ring
  rwa [e] at this

/-! ## A put is worth at most its strike -/

/-- The full claim: in doubles, without negative rates, a put is worth at most its strike. -/
def PutAtMostStrike : Prop :=
  ∀ (L : Lib ℚ), LibOk L → ∀ (style : OptionType) (s0 k t r sigma q : ℚ) (fut : Bool) (n : ℕ),
    DriftOkR L t r sigma (if fut then r else q) n → 0 ≤ s0 → 0 ≤ k → signedDouble k = k → 0 ≤ t → 0 ≤ r →
    ∀ v, binomOptionPriceR L .put style s0 k t r sigma q fut n = .ok (some v) → v ≤ k

/-- A library in which the exponential of one is two; only `exp 0` and `exp 1` matter below. -/
def twoLib : Lib ℚ where
  rd := signedDouble
  exp := fun x => if x < 0 then 1 / 2 else if x < 1 then 1 else 2
  sqrt := fun x => x
  pow := fun x j => signedDouble (x ^ j)

theorem twoLib_ok : LibOk twoLib where
  rd := rfl
  exp_zero := by simp [twoLib]
  exp_pos := fun x => by simp only [twoLib]; split_ifs <;> norm_num
  exp_mono := fun x y h => by
    simp only [twoLib]
    split_ifs <;> first | (exfalso; linarith) | norm_num
  pow_zero := fun x => by simp [twoLib, signedDouble_one]
  pow_nonneg := fun x j h => sd_nonneg (pow_nonneg h j)

/-- C292: the full claim is false.  With up move 2, rate zero and one step, a put with strike 15 on an underlying that
is nearly worthless costs more than 15: the probability of a down move is rounded up and the sum of the two terms too. -/
theorem C292_put_counterexample : ¬ PutAtMostStrike := by
  intro h
  have := h twoLib twoLib_ok .european (1 / 2 ^ 70) 15 1 0 1 0 false 1 (by unfold DriftOkR; decide +kernel) (by norm_num) (by norm_num)
    (by decide +kernel) (by norm_num) le_rfl (15 + 1 / 2 ^ 49) (by decide +kernel)
  norm_num at this

/-- C292, the part that holds: a put exceeds its strike by at most `n * 2^-50` of it.  (Missing: no excess at all.) -/
theorem C292_put_partial (L : Lib ℚ) (hL : LibOk L) (style : OptionType) (s0 k t r sigma q : ℚ) (fut : Bool) (n : ℕ)
    (hn : 4 * n ≤ 2 ^ 52) (hd : DriftOkR L t r sigma (if fut then r else q) n) (hs : 0 ≤ s0) (hk : 0 ≤ k)
    (hkd : signedDouble k = k) (ht0 : 0 ≤ t) (hr : 0 ≤ r) (v : ℚ)
    (h : binomOptionPriceR L .put style s0 k t r sigma q fut n = .ok (some v)) :
    v ≤ k * (1 + (n : ℚ) / 2 ^ 50) := by
  obtain ⟨m, tr, early, hnm, hm, -, ht, he, rfl⟩ := price_cases h
  obtain rfl : n = m := by exact_mod_cast hnm
  obtain ⟨hp, hp1⟩ := C292_probability L hL _ _ _ _ _ _ ht hd
  obtain ⟨hu, hdn, hdisc, hdisc1⟩ := tree_pos hL ht
  have hspot : ∀ i j, 0 ≤ spotR L tr s0 i j := fun i j => by
    unfold spotR
    rw [hL.rd]
    exact sd_nonneg (mul_nonneg (sd_nonneg (mul_nonneg hs (hL.pow_nonneg _ _ hu.le))) (hL.pow_nonneg _ _ hdn))
  have hpay : ∀ i j, payoffR L .put k (spotR L tr s0 i j) ≤ k := fun i j => by
    simp only [payoffR, exerciseR, Option.getD_some, hL.rd]
    refine max_le ?_ hk
    have := signedDouble_mono (show k - spotR L tr s0 i j ≤ k by linarith [hspot i j])
    rwa [hkd] at this
  have hearly : ∀ i j, early (spotR L tr s0 i j) ≤ k := fun i j => by
    cases style <;> simp [earlyValueR] at he <;> subst he
    · exact hpay i j
    · exact hk
  have hexact : ∀ m i j, nodeVal (hold tr) (fun i j => payoffR L .put k (spotR L tr s0 i j))
      (fun i j => early (spotR L tr s0 i j)) m i j ≤ k := by
    intro m
    induction m with
    | zero => exact hpay
    | succ m ih =>
      intro i j
      refine max_le ?_ (hearly i j)
      unfold hold
      have h1 := mul_le_mul_of_nonneg_left (ih (i + 1) (j + 1)) hp
      have h2 := mul_le_mul_of_nonneg_left (ih (i + 1) j) (sub_nonneg.2 hp1)
      have h3 := mul_le_mul_of_nonneg_left (add_le_add h1 h2) hdisc
      refine h3.trans ?_
      have := mul_le_mul_of_nonneg_right (hdisc1 ht0 hr) hk
      linarith
  have hw := within_close hn (nodeVal_within hL hp hp1 hdisc (pay := fun i j => payoffR L .put k (spotR L tr s0 i j))
    (early := fun i j => early (spotR L tr s0 i j)) (fun i j => payoffR_nonneg _ _ _ _) (fun i j => early_nonneg' he _)
    n 0 0)
  have e : ((4 * n : ℕ) : ℚ) / 2 ^ 52 = (n : ℚ) / 2 ^ 50 := by push_cast; ring
  rw [e] at hw
  have h1 := (abs_le.1 hw).2
  have h2 := mul_le_mul_of_nonneg_left (hexact n 0 0) (show (0 : ℚ) ≤ (n : ℚ) / 2 ^ 50 by positivity)
  linarith [hexact n 0 0]

/-- The hypotheses can be met: American and European puts on that tree with one step. -/
example : LibOk twoLib ∧ DriftOkR twoLib 1 0 1 0 1 ∧
    binomOptionPriceR twoLib .put .european 4 5 1 0 1 0 false 1 = .ok (some 2) ∧
    binomOptionPriceR twoLib .put .american 2 9 1 0 1 0 false 1 = .ok (some 7) :=
  ⟨twoLib_ok, by unfold DriftOkR; decide +kernel, by decide +kernel, by decide +kernel⟩

end FinML.Options
