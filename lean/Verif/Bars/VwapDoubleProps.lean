import Verif.Bars.VwapDoubleModel
import Verif.Bars.Props
import Verif.Bars.DoubleProps
import Verif.Filters.DoubleProps
import Verif.Alloc.NearProps

/-!
# Properties C286 and C287: bars in doubles
-/

namespace FinML.Bars

open FinML.Alloc FinML.Weights FinML.CV FinML.Filters

/-- `sm` adds doubles, rounding every partial sum, in any order and grouping. -/
structure Adds (sm : List ℚ → ℚ) : Prop where
  nil : sm [] = 0
  sum : ∀ l, l ≠ [] → (∀ x ∈ l, signedDouble x = x) → RSum signedDouble l (sm l)

theorem leftSum_rsum (l : List ℚ) (s : ℚ) (m : List ℚ) (h : RSum signedDouble m s) :
    RSum signedDouble (m ++ l) (l.foldl (fun s x => signedDouble (s + x)) s) := by
  induction l generalizing s m with
  | nil => simpa using h
  | cons x l ih =>
    have := ih _ _ (RSum.add h (RSum.one x))
    rw [List.foldl_cons]
    simpa using this

/-- C286. Adding from left to right is one such way. -/
theorem C286_sum : Adds (leftSum signedDouble) where
  nil := rfl
  sum l hl hd := by
    cases l with
    | nil => exact absurd rfl hl
    | cons x l =>
      have := leftSum_rsum l x [x] (RSum.one x)
      unfold leftSum
      rw [List.foldl_cons, zero_add, hd x (by simp)]
      simpa using this

/-! ## Counting roundings -/

theorem rsum_near {l : List ℚ} {s : ℚ} (h : RSum signedDouble l s) (h0 : ∀ x ∈ l, 0 ≤ x) :
    ∃ f, s = l.sum * f ∧ Near (l.length - 1) f ∧ 1 ≤ l.length := by
  induction h with
  | one x => exact ⟨1, by simp, near_one _, by simp⟩
  | perm hp _ ih =>
    obtain ⟨f, e, n, k⟩ := ih fun x hx => h0 x (hp.mem_iff.1 hx)
    exact ⟨f, by rw [← hp.sum_eq]; exact e, by rw [← hp.length_eq]; exact n, by rw [← hp.length_eq]; exact k⟩
  | @add l r s t _ _ ihl ihr =>
    have hl0 : ∀ x ∈ l, 0 ≤ x := fun x hx => h0 x (by simp [hx])
    have hr0 : ∀ x ∈ r, 0 ≤ x := fun x hx => h0 x (by simp [hx])
    obtain ⟨f, e, n, k⟩ := ihl hl0
    obtain ⟨g, e', n', k'⟩ := ihr hr0
    obtain ⟨c, e1, n1⟩ := near_add (near_mono n (show l.length - 1 ≤ l.length + r.length - 2 by omega))
      (near_mono n' (show r.length - 1 ≤ l.length + r.length - 2 by omega)) (List.sum_nonneg hl0) (List.sum_nonneg hr0)
    obtain ⟨d, e2, n2⟩ := sd_factor (s + t)
    refine ⟨c * d, ?_, ?_, by simp; omega⟩
    · rw [e2, e, e', e1, List.sum_append]
      ring
    · refine near_mono (near_mul n1 n2) ?_
      rw [List.length_append]
      omega

theorem adds_near {sm : List ℚ → ℚ} (hsm : Adds sm) (l : List ℚ) (h0 : ∀ x ∈ l, 0 ≤ x)
    (hd : ∀ x ∈ l, signedDouble x = x) : ∃ f, sm l = l.sum * f ∧ Near l.length f := by
  by_cases hl : l = []
  · subst hl
    exact ⟨1, by rw [hsm.nil]; simp, near_one _⟩
  · obtain ⟨f, e, n, -⟩ := rsum_near (hsm.sum l hl hd) h0
    exact ⟨f, e, near_mono n (by omega)⟩

theorem sum_near {A : Type} (l : List A) (x y : A → ℚ) (k : ℕ) (h0 : ∀ a ∈ l, 0 ≤ x a)
    (h : ∀ a ∈ l, ∃ f, y a = x a * f ∧ Near k f) : ∃ f, (l.map y).sum = (l.map x).sum * f ∧ Near k f := by
  induction l with
  | nil => exact ⟨1, by simp, near_one _⟩
  | cons a l ih =>
    obtain ⟨f, e, n⟩ := ih (fun b hb => h0 b (by simp [hb])) (fun b hb => h b (by simp [hb]))
    obtain ⟨g, e', n'⟩ := h a (by simp)
    obtain ⟨c, e1, n1⟩ := near_add n' n (h0 a (by simp))
      (show 0 ≤ (l.map x).sum from List.sum_nonneg (by
        intro z hz
        obtain ⟨b, hb, rfl⟩ := List.mem_map.1 hz
        exact h0 b (by simp [hb])))
    refine ⟨c, ?_, n1⟩
    simp only [List.map_cons, List.sum_cons]
    rw [e', e, e1]

theorem growth_le (k : ℕ) (hk : k ≤ 2 ^ 52) : growth k - 1 ≤ (k : ℚ) / 2 ^ 52 := by
  have h1 : 1 - (k : ℚ) / 2 ^ 53 ≤ (1 - 1 / 2 ^ 53 : ℚ) ^ k := by
    have := one_add_mul_le_pow (show (-2 : ℚ) ≤ -(1 / 2 ^ 53) by norm_num) k
    calc 1 - (k : ℚ) / 2 ^ 53 = 1 + (k : ℚ) * -(1 / 2 ^ 53) := by ring
      _ ≤ _ := this
      _ = _ := by ring
  have hk' : (k : ℚ) ≤ 2 ^ 52 := by exact_mod_cast hk
  have hk0 : (0 : ℚ) ≤ k := Nat.cast_nonneg k
  unfold growth
  rw [sub_le_iff_le_add, div_le_iff₀ (cpow_pos k)]
  have h2 : (1 : ℚ) ≤ ((k : ℚ) / 2 ^ 52 + 1) * (1 - (k : ℚ) / 2 ^ 53) := by
    have : ((k : ℚ) / 2 ^ 52 + 1) * (1 - (k : ℚ) / 2 ^ 53) - 1 = (k : ℚ) * (2 ^ 52 - k) / 2 ^ 105 := by ring
    have h3 : 0 ≤ (k : ℚ) * (2 ^ 52 - k) / 2 ^ 105 := by
      apply div_nonneg (mul_nonneg hk0 (by linarith)) (by norm_num)
    linarith
  exact h2.trans (mul_le_mul_of_nonneg_left h1 (by positivity))

theorem near_close {k : ℕ} (hk : k ≤ 2 ^ 52) {w e f : ℚ} (he : 0 ≤ e) (h : w = e * f) (n : Near k f) :
    |w - e| ≤ (k : ℚ) / 2 ^ 52 * e := by
  have h1 : |f - 1| ≤ (k : ℚ) / 2 ^ 52 := (near_abs n).trans (growth_le k hk)
  rw [h, show e * f - e = (f - 1) * e by ring, abs_mul, abs_of_nonneg he]
  exact mul_le_mul_of_nonneg_right h1 he

theorem statsR_of (rd : ℚ → ℚ) (sm : List ℚ → ℚ) (ticks : List (Tick ℚ)) (b : Bar ℚ)
    (h : computeBarStats ticks = .ok b) : computeBarStatsR rd sm ticks =
      .ok { b with volume := sm (ticks.map Tick.volume), vwap := computeVwapR rd sm ticks } := by
  unfold computeBarStats at h
  simp only [py_bind_eq_ok, py_pure] at h
  obtain ⟨x1, h1, x2, h2, x3, h3, x4, h4, h5⟩ := h
  unfold computeBarStatsR
  rw [h1, py_bind_ok, h2, py_bind_ok, h3, py_bind_ok, h4, py_bind_ok]
  cases h5
  rfl

theorem resampleR_of (rd : ℚ → ℚ) (sm : List ℚ → ℚ) (bars : List (Bar ℚ)) (b : Bar ℚ)
    (h : resampleBarStats bars = .ok b) : resampleBarStatsR rd sm bars =
      .ok { b with volume := sm (bars.map Bar.volume), vwap := resampleVwapR rd sm bars } := by
  unfold resampleBarStats at h
  simp only [py_bind_eq_ok, py_pure] at h
  obtain ⟨x1, h1, x2, h2, x3, h3, x4, h4, h5⟩ := h
  unfold resampleBarStatsR
  rw [h1, py_bind_ok, h2, py_bind_ok, h3, py_bind_ok, h4, py_bind_ok]
  cases h5
  rfl

/-! ## C286 -/

/-- Ticks with prices and volumes that are doubles, and not negative. -/
def DoubleTicks (ticks : List (Tick ℚ)) : Prop :=
  ∀ t ∈ ticks, 0 ≤ t.price ∧ 0 ≤ t.volume ∧ signedDouble t.price = t.price ∧ signedDouble t.volume = t.volume

/-- The full claim: the VWAP of a bar is between its low and its high. -/
def VwapInside : Prop :=
  ∀ sm : List ℚ → ℚ, Adds sm → ∀ (ticks : List (Tick ℚ)) (b : Bar ℚ) (w : ℚ), DoubleTicks ticks →
    computeBarStatsR signedDouble sm ticks = .ok b → b.vwap = some w → b.low ≤ w ∧ w ≤ b.high

/-- One trade of 3 at 0.1, and one at 0.35. -/
def trade1 : Tick ℚ := ⟨0, signedDouble (1 / 10), 3⟩

/-- One trade of 3 at 0.35. -/
def trade2 : Tick ℚ := ⟨0, signedDouble (35 / 100), 3⟩

/-- C286, counterexample: the bar of one trade of 3 at 0.1 has a VWAP above 0.1, its high, and that of one trade of 3
at 0.35 a VWAP below 0.35, its low. -/
theorem C286_inside_counterexample : ¬ VwapInside ∧
    (∃ w, computeVwapR signedDouble (leftSum signedDouble) [trade1] = some w ∧ trade1.price < w) ∧
    (∃ w, computeVwapR signedDouble (leftSum signedDouble) [trade2] = some w ∧ w < trade2.price) := by
  have h1 : ∃ w, computeVwapR signedDouble (leftSum signedDouble) [trade1] = some w ∧ trade1.price < w :=
    ⟨7205759403792795 / 72057594037927936, by decide +kernel, by decide +kernel⟩
  have h2 : ∃ w, computeVwapR signedDouble (leftSum signedDouble) [trade2] = some w ∧ w < trade2.price :=
    ⟨6305039478318693 / 18014398509481984, by decide +kernel, by decide +kernel⟩
  refine ⟨fun h => ?_, h1, h2⟩
  obtain ⟨w, e, hw⟩ := h1
  have := (h _ C286_sum [trade1] _ w (by
    intro t ht
    rw [List.mem_singleton] at ht
    subst ht
    decide +kernel) rfl e).2
  exact absurd (lt_of_lt_of_le hw this) (lt_irrefl _)

theorem vwap_near {sm : List ℚ → ℚ} (hsm : Adds sm) (ticks : List (Tick ℚ)) (hd : DoubleTicks ticks)
    (hv : 0 < volumeOf ticks) : ∃ f, computeVwapR signedDouble sm ticks = some (dollarsOf ticks / volumeOf ticks * f) ∧
      Near (2 * ticks.length + 2) f := by
  have p0 : ∀ t ∈ ticks, 0 ≤ t.price * t.volume := fun t ht => mul_nonneg (hd t ht).1 (hd t ht).2.1
  obtain ⟨f1, e1, n1⟩ := adds_near hsm (ticks.map fun t => signedDouble (t.price * t.volume))
    (by
      intro x hx
      obtain ⟨t, ht, rfl⟩ := List.mem_map.1 hx
      have := signedDouble_mono (p0 t ht)
      rwa [sd_zero'] at this)
    (by
      intro x hx
      obtain ⟨t, ht, rfl⟩ := List.mem_map.1 hx
      exact signedDouble_idem _)
  obtain ⟨f2, e2, n2⟩ := sum_near ticks (fun t => t.price * t.volume) (fun t => signedDouble (t.price * t.volume)) 1 p0
    (fun t _ => sd_factor _)
  obtain ⟨f3, e3, n3⟩ := adds_near hsm (ticks.map Tick.volume)
    (by
      intro x hx
      obtain ⟨t, ht, rfl⟩ := List.mem_map.1 hx
      exact (hd t ht).2.1)
    (by
      intro x hx
      obtain ⟨t, ht, rfl⟩ := List.mem_map.1 hx
      exact (hd t ht).2.2.2)
  rw [List.length_map] at n1 n3
  have p3 := near_pos n3
  have hv' : (ticks.map Tick.volume).sum = volumeOf ticks := rfl
  have hd' : (ticks.map fun t => t.price * t.volume).sum = dollarsOf ticks := rfl
  obtain ⟨f4, e4, n4⟩ := sd_factor (dollarsOf ticks * f2 * f1 / (volumeOf ticks * f3))
  refine ⟨f2 * f1 * (1 / f3) * f4, ?_, near_mono (near_mul (near_mul (near_mul n2 n1) (near_inv n3)) n4) (by omega)⟩
  unfold computeVwapR
  rw [e1, e2, e3, hv', hd']
  unfold fdiv
  rw [if_neg (mul_pos hv p3).ne', Option.map_some, e4]
  congr 1
  field_simp

/-- C286, what holds (missing: that the VWAP is not outside the range, see `VwapInside`): with any way of adding and up to
2^50 ticks the VWAP in doubles is within `(n + 1) / 2^51` of the exact one, in proportion; so it is outside the range of
the prices by no more than that part of the high. -/
theorem C286_close_partial (sm : List ℚ → ℚ) (hsm : Adds sm) (ticks : List (Tick ℚ)) (hd : DoubleTicks ticks)
    (hv : 0 < volumeOf ticks) (hn : ticks.length < 2 ^ 50) :
    ∃ b w e, computeBarStatsR signedDouble sm ticks = .ok b ∧ b.vwap = some w ∧ e * volumeOf ticks = dollarsOf ticks ∧
      |w - e| ≤ ((ticks.length : ℚ) + 1) / 2 ^ 51 * e ∧
      b.low - ((ticks.length : ℚ) + 1) / 2 ^ 51 * b.high ≤ w ∧ w ≤ b.high + ((ticks.length : ℚ) + 1) / 2 ^ 51 * b.high := by
  have hne : ticks ≠ [] := by
    rintro rfl
    exact absurd hv (by simp [volumeOf])
  obtain ⟨b0, hb0⟩ := computeBarStats_ok ticks hne
  obtain ⟨e, he, hlo, hhi, -⟩ := C01_bar_bounds ticks b0 hb0 (fun t ht => (hd t ht).2.1) hv
  have hs := (computeBarStats_iff ticks b0).1 hb0
  obtain ⟨e', he', hee⟩ := hs.vwap_some hv.ne'
  rw [he] at he'
  cases he'
  obtain ⟨f, hw, nf⟩ := vwap_near hsm ticks hd hv
  have hq : dollarsOf ticks / volumeOf ticks = e := by rw [← hee, mul_div_cancel_right₀ _ hv.ne']
  rw [hq] at hw
  have he0 : 0 ≤ e := by
    rw [← hq]
    apply div_nonneg _ hv.le
    exact List.sum_nonneg (by
      intro x hx
      obtain ⟨t, ht, rfl⟩ := List.mem_map.1 hx
      exact mul_nonneg (hd t ht).1 (hd t ht).2.1)
  have hc := near_close (show 2 * ticks.length + 2 ≤ 2 ^ 52 by omega) he0 rfl nf
  have e2 : ((2 * ticks.length + 2 : ℕ) : ℚ) / 2 ^ 52 = ((ticks.length : ℚ) + 1) / 2 ^ 51 := by
    push_cast
    ring
  rw [e2] at hc
  have hk := statsR_of signedDouble sm ticks b0 hb0
  refine ⟨_, _, e, hk, hw, hee, hc, ?_, ?_⟩
  · have : ((ticks.length : ℚ) + 1) / 2 ^ 51 * e ≤ ((ticks.length : ℚ) + 1) / 2 ^ 51 * b0.high :=
      mul_le_mul_of_nonneg_left hhi (by positivity)
    have := (abs_le.1 hc).1
    show b0.low - _ * b0.high ≤ _
    linarith
  · have : ((ticks.length : ℚ) + 1) / 2 ^ 51 * e ≤ ((ticks.length : ℚ) + 1) / 2 ^ 51 * b0.high :=
      mul_le_mul_of_nonneg_left hhi (by positivity)
    have := (abs_le.1 hc).2
    show _ ≤ b0.high + _ * b0.high
    linarith

/-! ### Prices and volumes on a binary grid -/

theorem grid_sum (e : ℤ) (l : List ℚ) (h : ∀ x ∈ l, ∃ m : ℕ, x = m * (2 : ℚ) ^ e) :
    ∃ m : ℕ, l.sum = m * (2 : ℚ) ^ e := by
  induction l with
  | nil => exact ⟨0, by simp⟩
  | cons x l ih =>
    obtain ⟨m, hm⟩ := ih fun y hy => h y (by simp [hy])
    obtain ⟨k, hk⟩ := h x (by simp)
    exact ⟨k + m, by rw [List.sum_cons, hm, hk]; push_cast; ring⟩

theorem rsum_exact (e : ℤ) {l : List ℚ} {s : ℚ} (h : RSum signedDouble l s)
    (hg : ∀ x ∈ l, ∃ m : ℕ, x = m * (2 : ℚ) ^ e) (hb : l.sum < 2 ^ 53 * (2 : ℚ) ^ e) : s = l.sum := by
  have hp : (0 : ℚ) < (2 : ℚ) ^ e := by positivity
  induction h with
  | one x => simp
  | perm hperm _ ih =>
    rw [← hperm.sum_eq]
    exact ih (fun x hx => hg x (hperm.mem_iff.1 hx)) (by rw [hperm.sum_eq]; exact hb)
  | @add l r s t _ _ ihl ihr =>
    have gl : ∀ x ∈ l, ∃ m : ℕ, x = m * (2 : ℚ) ^ e := fun x hx => hg x (by simp [hx])
    have gr : ∀ x ∈ r, ∃ m : ℕ, x = m * (2 : ℚ) ^ e := fun x hx => hg x (by simp [hx])
    obtain ⟨m, hm⟩ := grid_sum e l gl
    obtain ⟨k, hk⟩ := grid_sum e r gr
    rw [List.sum_append] at hb ⊢
    have m0 : (0 : ℚ) ≤ m * (2 : ℚ) ^ e := by positivity
    have k0 : (0 : ℚ) ≤ k * (2 : ℚ) ^ e := by positivity
    rw [ihl gl (by linarith), ihr gr (by linarith)]
    have hs : l.sum + r.sum = ((m + k : ℤ) : ℚ) * (2 : ℚ) ^ e := by rw [hm, hk]; push_cast; ring
    have hlt : ((m + k : ℤ) : ℚ) < 2 ^ 53 := by
      rw [hs] at hb
      exact lt_of_mul_lt_mul_right hb hp.le
    rw [hs]
    apply signedDouble_int
    rw [abs_of_nonneg (by positivity)]
    exact_mod_cast hlt

theorem adds_exact {sm : List ℚ → ℚ} (hsm : Adds sm) (e : ℤ) (l : List ℚ)
    (hg : ∀ x ∈ l, ∃ m : ℕ, x = m * (2 : ℚ) ^ e) (hb : l.sum < 2 ^ 53 * (2 : ℚ) ^ e) : sm l = l.sum := by
  by_cases hl : l = []
  · subst hl
    rw [hsm.nil]
    rfl
  · refine rsum_exact e (hsm.sum l hl ?_) hg hb
    intro x hx
    obtain ⟨m, rfl⟩ := hg x hx
    have hp : (0 : ℚ) < (2 : ℚ) ^ e := by positivity
    have : (m : ℚ) * (2 : ℚ) ^ e ≤ l.sum := by
      apply List.single_le_sum _ _ hx
      intro y hy
      obtain ⟨k, rfl⟩ := hg y hy
      positivity
    have h1 : (m : ℚ) < 2 ^ 53 := lt_of_mul_lt_mul_right (this.trans_lt hb) hp.le
    have h2 := signedDouble_int m e (by rw [abs_of_nonneg (by positivity)]; exact_mod_cast h1)
    exact_mod_cast h2

/-- C286, what holds on a grid: with prices that are whole multiples of one power of two and volumes that are whole
multiples of another, and the traded volume and money less than 2^53 of them, the volume is exact, and the VWAP is the
exact one rounded once and between low and high (missing: decimal prices). -/
theorem C286_grid_partial (sm : List ℚ → ℚ) (hsm : Adds sm) (e g : ℤ) (ticks : List (Tick ℚ))
    (hg : ∀ t ∈ ticks, ∃ m k : ℕ, m < 2 ^ 53 ∧ t.price = m * (2 : ℚ) ^ e ∧ t.volume = k * (2 : ℚ) ^ g)
    (hv0 : 0 < volumeOf ticks) (hv : volumeOf ticks < 2 ^ 53 * (2 : ℚ) ^ g)
    (hm : dollarsOf ticks < 2 ^ 53 * (2 : ℚ) ^ (e + g)) :
    ∃ b, computeBarStatsR signedDouble sm ticks = .ok b ∧ b.volume = volumeOf ticks ∧
      b.vwap = some (signedDouble (dollarsOf ticks / volumeOf ticks)) ∧
      b.low ≤ signedDouble (dollarsOf ticks / volumeOf ticks) ∧
      signedDouble (dollarsOf ticks / volumeOf ticks) ≤ b.high := by
  have hne : ticks ≠ [] := by
    rintro rfl
    exact absurd hv0 (by simp [volumeOf])
  have hp : ∀ z : ℤ, (0 : ℚ) < (2 : ℚ) ^ z := fun z => by positivity
  have vol0 : ∀ t ∈ ticks, 0 ≤ t.volume := by
    intro t ht
    obtain ⟨m, k, -, -, h⟩ := hg t ht
    rw [h]
    positivity
  have price : ∀ t ∈ ticks, 0 ≤ t.price ∧ signedDouble t.price = t.price := by
    intro t ht
    obtain ⟨m, k, hm, h, -⟩ := hg t ht
    rw [h]
    refine ⟨by positivity, ?_⟩
    have h2 := signedDouble_int m e (by rw [abs_of_nonneg (by positivity)]; exact_mod_cast hm)
    exact_mod_cast h2
  have prod : ∀ t ∈ ticks, ∃ m : ℕ, t.price * t.volume = m * (2 : ℚ) ^ (e + g) := by
    intro t ht
    obtain ⟨m, k, -, h, h'⟩ := hg t ht
    exact ⟨m * k, by rw [h, h', zpow_add₀ (by norm_num)]; push_cast; ring⟩
  have rprod : (ticks.map fun t => signedDouble (t.price * t.volume)) = ticks.map fun t => t.price * t.volume := by
    apply List.map_congr_left
    intro t ht
    obtain ⟨m, h⟩ := prod t ht
    have h1 : t.price * t.volume ≤ dollarsOf ticks := by
      apply List.single_le_sum _ _ (List.mem_map.2 ⟨t, ht, rfl⟩)
      intro y hy
      obtain ⟨u, hu, rfl⟩ := List.mem_map.1 hy
      exact mul_nonneg (price u hu).1 (vol0 u hu)
    rw [h] at h1 ⊢
    have h3 : (m : ℚ) < 2 ^ 53 := lt_of_mul_lt_mul_right (h1.trans_lt hm) (hp _).le
    have h2 := signedDouble_int m (e + g) (by rw [abs_of_nonneg (by positivity)]; exact_mod_cast h3)
    exact_mod_cast h2
  have s1 : sm (ticks.map Tick.volume) = volumeOf ticks := by
    apply adds_exact hsm g _ _ hv
    intro x hx
    obtain ⟨t, ht, rfl⟩ := List.mem_map.1 hx
    obtain ⟨m, k, -, -, h⟩ := hg t ht
    exact ⟨k, h⟩
  have s2 : sm (ticks.map fun t => signedDouble (t.price * t.volume)) = dollarsOf ticks := by
    rw [rprod]
    apply adds_exact hsm (e + g) _ _ hm
    intro x hx
    obtain ⟨t, ht, rfl⟩ := List.mem_map.1 hx
    exact prod t ht
  obtain ⟨b0, hb0⟩ := computeBarStats_ok ticks hne
  obtain ⟨w, hw, hlo, hhi, -⟩ := C01_bar_bounds ticks b0 hb0 vol0 hv0
  have hs := (computeBarStats_iff ticks b0).1 hb0
  obtain ⟨w', hw', hee⟩ := hs.vwap_some hv0.ne'
  rw [hw] at hw'
  cases hw'
  have hq : dollarsOf ticks / volumeOf ticks = w := by rw [← hee, mul_div_cancel_right₀ _ hv0.ne']
  refine ⟨_, statsR_of signedDouble sm ticks b0 hb0, s1, ?_, ?_, ?_⟩
  · show computeVwapR signedDouble sm ticks = _
    unfold computeVwapR fdiv
    rw [s1, s2, if_neg hv0.ne', Option.map_some]
  · show b0.low ≤ _
    obtain ⟨t, ht, h⟩ := hs.low.1
    have := signedDouble_mono hlo
    rw [← h, (price t ht).2, h] at this
    rwa [hq]
  · show _ ≤ b0.high
    obtain ⟨t, ht, h⟩ := hs.high.1
    have := signedDouble_mono hhi
    rw [← h, (price t ht).2, h] at this
    rwa [hq]

/-- Two trades at multiples of a quarter, in lots of 32. -/
example (sm : List ℚ → ℚ) (hsm : Adds sm) : ∃ b, computeBarStatsR signedDouble sm [⟨0, 41 / 4, 64⟩, ⟨1, 43 / 4, 32⟩] = .ok b ∧
    b.volume = 96 := by
  obtain ⟨b, h, h1, -⟩ := C286_grid_partial sm hsm (-2) 5 [⟨0, 41 / 4, 64⟩, ⟨1, 43 / 4, 32⟩] (by
    intro t ht
    simp only [List.mem_cons, List.not_mem_nil, or_false] at ht
    rcases ht with rfl | rfl
    · exact ⟨41, 2, by norm_num, by norm_num, by norm_num⟩
    · exact ⟨43, 1, by norm_num, by norm_num, by norm_num⟩) (by norm_num [volumeOf]) (by norm_num [volumeOf])
    (by norm_num [dollarsOf])
  exact ⟨b, h, by rw [h1]; norm_num [volumeOf]⟩

/-! ## C287 -/

/-- `bars` are the bars of the `pieces` as computed in doubles. -/
def BarsInDoubles (sm : List ℚ → ℚ) (pieces : List (List (Tick ℚ))) (bars : List (Bar ℚ)) : Prop :=
  List.Forall₂ (fun p b => computeBarStatsR signedDouble sm p = .ok b) pieces bars

/-- The full claim: resampling the bars of consecutive pieces gives the bar of all their ticks. -/
def ResampleSame : Prop :=
  ∀ sm : List ℚ → ℚ, Adds sm → ∀ (pieces : List (List (Tick ℚ))) (bars : List (Bar ℚ)), pieces ≠ [] →
    DoubleTicks pieces.flatten → BarsInDoubles sm pieces bars →
    resampleBarStatsR signedDouble sm bars = computeBarStatsR signedDouble sm pieces.flatten

/-- A bar of two trades and a bar of one trade. -/
def twoPieces : List (List (Tick ℚ)) :=
  [[⟨0, signedDouble (3 / 10), 2⟩, ⟨1, signedDouble (1 / 10), 3⟩], [⟨2, signedDouble (1 / 10), 3⟩]]

/-- C287, counterexample: 2 traded at 0.3 and 3 at 0.1 in a bar, 3 at 0.1 in the next.  The VWAP of all trades is
0.15000000000000002, that of the resampled bars 0.15. -/
theorem C287_resample_counterexample : ¬ ResampleSame := by
  intro h
  obtain ⟨b1, h1⟩ : ∃ b, computeBarStatsR signedDouble (leftSum signedDouble) (twoPieces.getD 0 []) = .ok b := ⟨_, rfl⟩
  obtain ⟨b2, h2⟩ : ∃ b, computeBarStatsR signedDouble (leftSum signedDouble) (twoPieces.getD 1 []) = .ok b := ⟨_, rfl⟩
  have h3 := h _ C286_sum twoPieces [b1, b2] (by simp [twoPieces]) (by
      intro t ht
      simp only [twoPieces, List.flatten_cons, List.flatten_nil, List.append_nil, List.cons_append, List.nil_append,
        List.mem_cons, List.not_mem_nil, or_false] at ht
      rcases ht with rfl | rfl | rfl <;> decide +kernel)
    (List.Forall₂.cons h1 (List.Forall₂.cons h2 List.Forall₂.nil))
  cases h1
  cases h2
  revert h3
  decide +kernel

/-- Two bars agree but for volume and VWAP. -/
def SamePrices (b c : Bar ℚ) : Prop :=
  b.time = c.time ∧ b.op = c.op ∧ b.high = c.high ∧ b.low = c.low ∧ b.close = c.close

theorem resample_same {bars bars' : List (Bar ℚ)} (h : List.Forall₂ SamePrices bars bars') {B : Bar ℚ}
    (hB : resampleBarStats bars = .ok B) : ∃ B', resampleBarStats bars' = .ok B' ∧ SamePrices B B' := by
  have hhigh : bars'.map Bar.high = bars.map Bar.high := by
    clear hB
    induction h with
    | nil => rfl
    | cons h _ ih => rw [List.map_cons, List.map_cons, h.2.2.1, ih]
  have hlow : bars'.map Bar.low = bars.map Bar.low := by
    clear hB hhigh
    induction h with
    | nil => rfl
    | cons h _ ih => rw [List.map_cons, List.map_cons, h.2.2.2.1, ih]
  have hget : ∀ (i : ℕ) (b : Bar ℚ), bars[i]? = some b → ∃ b', bars'[i]? = some b' ∧ SamePrices b b' := by
    clear hB hhigh hlow
    induction h with
    | nil => simp
    | @cons b b' l l' h _ ih =>
      intro i c hc
      cases i with
      | zero => exact ⟨b', rfl, by
        have : b = c := by simpa using hc
        rw [← this]
        exact h⟩
      | succ i => exact ih i c hc
  unfold resampleBarStats at hB
  simp only [py_bind_eq_ok, py_pure] at hB
  obtain ⟨x1, h1, x2, h2, x3, h3, x4, h4, h5⟩ := hB
  rw [pyGet_eq_ok_iff] at h1
  rw [pyLast_eq_ok_iff, List.getLast?_eq_getElem?] at h4
  obtain ⟨y1, k1, s1⟩ := hget _ _ h1
  obtain ⟨y4, k4, s4⟩ := hget _ _ h4
  refine ⟨{ time := y1.time, op := y1.op, high := x2, low := x3, close := y4.close,
            volume := (bars'.map Bar.volume).sum, vwap := resampleVwap bars' }, ?_, ?_⟩
  · unfold resampleBarStats
    rw [hhigh, hlow, (pyGet_eq_ok_iff _ _ _).2 k1, py_bind_ok, h2, py_bind_ok, h3, py_bind_ok,
      (pyLast_eq_ok_iff _ _).2 (by rw [List.getLast?_eq_getElem?, ← h.length_eq]; exact k4), py_bind_ok]
    rfl
  · cases h5
    exact ⟨s1.1, s1.2.1, rfl, rfl, s4.2.2.2.2⟩

theorem rsum_double {l : List ℚ} {s : ℚ} (h : RSum signedDouble l s) (hd : ∀ x ∈ l, signedDouble x = x) :
    signedDouble s = s := by
  induction h with
  | one x => exact hd x (by simp)
  | perm hp _ ih => exact ih fun x hx => hd x (hp.mem_iff.1 hx)
  | add _ _ _ _ => exact signedDouble_idem _

theorem piece_stats {sm : List ℚ → ℚ} (hsm : Adds sm) (p : List (Tick ℚ)) (hd : DoubleTicks p) {b : Bar ℚ}
    (hb : computeBarStatsR signedDouble sm p = .ok b) :
    (∃ b0, IsBarOf p b0 ∧ SamePrices b0 b) ∧ signedDouble b.volume = b.volume ∧ 0 ≤ b.volume ∧
      (∃ f, b.volume = volumeOf p * f ∧ Near p.length f) ∧
      ∃ f, barDollarsR signedDouble b = dollarsOf p * f ∧ Near (3 * p.length + 3) f := by
  have hne : p ≠ [] := by
    rintro rfl
    cases hb
  obtain ⟨b0, hb0⟩ := computeBarStats_ok p hne
  have hs := (computeBarStats_iff p b0).1 hb0
  rw [statsR_of signedDouble sm p b0 hb0] at hb
  cases hb
  have v0 : ∀ x ∈ p.map Tick.volume, 0 ≤ x := by
    intro x hx
    obtain ⟨t, ht, rfl⟩ := List.mem_map.1 hx
    exact (hd t ht).2.1
  have vd : ∀ x ∈ p.map Tick.volume, signedDouble x = x := by
    intro x hx
    obtain ⟨t, ht, rfl⟩ := List.mem_map.1 hx
    exact (hd t ht).2.2.2
  obtain ⟨f, e, n⟩ := adds_near hsm (p.map Tick.volume) v0 vd
  have hV : (p.map Tick.volume).sum = volumeOf p := rfl
  rw [List.length_map] at n
  rw [hV] at e
  have hV0 : 0 ≤ volumeOf p := List.sum_nonneg v0
  have f0 := near_pos n
  refine ⟨⟨b0, hs, rfl, rfl, rfl, rfl, rfl⟩, rsum_double (hsm.sum _ (by simpa using hne) vd) vd, ?_, ⟨f, e, n⟩, ?_⟩
  · show 0 ≤ sm _
    rw [e]
    exact mul_nonneg hV0 f0.le
  · rcases hV0.eq_or_lt with h0 | h0
    · refine ⟨1, ?_, near_one _⟩
      have : computeVwapR signedDouble sm p = none := by
        unfold computeVwapR fdiv
        rw [e, ← h0, zero_mul, if_pos rfl]
        rfl
      simp only [barDollarsR, this]
      rw [volumeOf_eq_zero p (fun t ht => (hd t ht).2.1) h0.symm, zero_mul]
    · obtain ⟨g, e1, n1⟩ := vwap_near hsm p hd h0
      obtain ⟨h, e2, n2⟩ := sd_factor (dollarsOf p / volumeOf p * g * (volumeOf p * f))
      refine ⟨g * f * h, ?_, near_mono (near_mul (near_mul n1 n) n2) (by omega)⟩
      simp only [barDollarsR, e1]
      rw [e, e2]
      field_simp

theorem pieces_stats {sm : List ℚ → ℚ} (hsm : Adds sm) (L : ℕ) {pieces : List (List (Tick ℚ))} {bars : List (Bar ℚ)}
    (h : BarsInDoubles sm pieces bars) (hd : DoubleTicks pieces.flatten) (hL : ∀ p ∈ pieces, p.length ≤ L) :
    (∃ bars0, List.Forall₂ IsBarOf pieces bars0 ∧ List.Forall₂ SamePrices bars0 bars) ∧
      (∀ b ∈ bars, signedDouble b.volume = b.volume ∧ 0 ≤ b.volume) ∧
      (∃ f, (bars.map Bar.volume).sum = volumeOf pieces.flatten * f ∧ Near L f) ∧
      (∃ f, (bars.map (barDollarsR signedDouble)).sum = dollarsOf pieces.flatten * f ∧ Near (3 * L + 3) f) ∧
      (∀ b ∈ bars, 0 ≤ barDollarsR signedDouble b) ∧ bars.length ≤ pieces.flatten.length := by
  induction h with
  | nil =>
    exact ⟨⟨[], List.Forall₂.nil, List.Forall₂.nil⟩, by simp, ⟨1, by simp [volumeOf], near_one _⟩,
      ⟨1, by simp [dollarsOf], near_one _⟩, by simp, by simp⟩
  | @cons p b ps bs h1 h2 ih =>
    have hdp : DoubleTicks p := fun t ht => hd t (by simp [ht])
    have hdps : DoubleTicks ps.flatten := fun t ht => hd t (by
      rw [List.flatten_cons, List.mem_append]
      exact Or.inr ht)
    obtain ⟨⟨bars0, i1, i2⟩, i3, ⟨f, e, n⟩, ⟨g, e', n'⟩, i4, i5⟩ := ih hdps fun q hq => hL q (by simp [hq])
    obtain ⟨⟨b0, j1, j2⟩, j3, j4, ⟨f1, e1, n1⟩, f2, e2, n2⟩ := piece_stats hsm p hdp h1
    have hlp := hL p (by simp)
    have pos : ∀ l : List (Tick ℚ), DoubleTicks l → 0 ≤ volumeOf l ∧ 0 ≤ dollarsOf l := by
      intro l hl
      constructor <;> apply List.sum_nonneg <;> intro x hx <;> obtain ⟨t, ht, rfl⟩ := List.mem_map.1 hx
      · exact (hl t ht).2.1
      · exact mul_nonneg (hl t ht).1 (hl t ht).2.1
    obtain ⟨a, a1, a2⟩ := near_add (near_mono n1 hlp) n (pos p hdp).1 (pos _ hdps).1
    obtain ⟨c, c1, c2⟩ := near_add (near_mono n2 (show 3 * p.length + 3 ≤ 3 * L + 3 by omega)) n'
      (pos p hdp).2 (pos _ hdps).2
    have hp1 : 1 ≤ p.length := by
      cases p with
      | nil => cases h1
      | cons _ _ => simp
    refine ⟨⟨b0 :: bars0, List.Forall₂.cons j1 i1, List.Forall₂.cons j2 i2⟩, ?_, ⟨a, ?_, a2⟩, ⟨c, ?_, c2⟩, ?_, ?_⟩
    · intro x hx
      rcases List.mem_cons.1 hx with rfl | hx
      · exact ⟨j3, j4⟩
      · exact i3 x hx
    · rw [List.map_cons, List.sum_cons, e1, e, a1, List.flatten_cons]
      congr 1
      simp [volumeOf]
    · rw [List.map_cons, List.sum_cons, e2, e', c1, List.flatten_cons, dollarsOf_append]
    · intro x hx
      rcases List.mem_cons.1 hx with rfl | hx
      · rw [e2]
        exact mul_nonneg (pos p hdp).2 (near_pos n2).le
      · exact i4 x hx
    · simp only [List.length_cons, List.flatten_cons, List.length_append]
      omega

/-- C287, what holds (missing: equality of volume and VWAP, see `ResampleSame`): time, open, high, low and close of the
resampled bar are those of the bar of all ticks; its volume is within `n / 2^51` of the traded volume and its VWAP within
`3 (n + 1) / 2^51` of the exact one, in proportion, for `n` ticks. -/
theorem C287_resample_partial (sm : List ℚ → ℚ) (hsm : Adds sm) (pieces : List (List (Tick ℚ))) (bars : List (Bar ℚ))
    (hd : DoubleTicks pieces.flatten) (hb : BarsInDoubles sm pieces bars) (hv : 0 < volumeOf pieces.flatten) (n : ℕ)
    (hn : pieces.flatten.length = n) (hn2 : n < 2 ^ 48) :
    ∃ B B' w e, resampleBarStatsR signedDouble sm bars = .ok B ∧
      computeBarStatsR signedDouble sm pieces.flatten = .ok B' ∧ SamePrices B B' ∧
      |B.volume - volumeOf pieces.flatten| ≤ (n : ℚ) / 2 ^ 51 * volumeOf pieces.flatten ∧ B.vwap = some w ∧
      e * volumeOf pieces.flatten = dollarsOf pieces.flatten ∧ |w - e| ≤ 3 * ((n : ℚ) + 1) / 2 ^ 51 * e := by
  have hL : ∀ p ∈ pieces, p.length ≤ n := by
    intro p hp
    rw [← hn]
    exact (List.sublist_flatten_of_mem hp).length_le
  obtain ⟨⟨bars0, i1, i2⟩, i3, ⟨f, e1, n1⟩, ⟨g, e2, n2⟩, i4, i5⟩ := pieces_stats hsm n hb hd hL
  rw [hn] at i5
  have hne : pieces ≠ [] := by
    rintro rfl
    exact absurd hv (by simp [volumeOf])
  obtain ⟨B0, hB0, hB1⟩ := resampleBarStats_spec pieces bars0 hne i1 (fun p hp t ht =>
    (hd t (List.mem_flatten.2 ⟨p, hp, ht⟩)).2.1)
  obtain ⟨B1, hB2, hB3⟩ := resample_same i2 hB0
  have hfl := (computeBarStats_iff _ _).2 hB1
  obtain ⟨f1, k1, m1⟩ := adds_near hsm (bars.map Bar.volume)
    (by
      intro x hx
      obtain ⟨b, hb, rfl⟩ := List.mem_map.1 hx
      exact (i3 b hb).2)
    (by
      intro x hx
      obtain ⟨b, hb, rfl⟩ := List.mem_map.1 hx
      exact (i3 b hb).1)
  obtain ⟨f2, k2, m2⟩ := adds_near hsm (bars.map (barDollarsR signedDouble))
    (by
      intro x hx
      obtain ⟨b, hb, rfl⟩ := List.mem_map.1 hx
      exact i4 b hb)
    (by
      intro x hx
      obtain ⟨b, hb, rfl⟩ := List.mem_map.1 hx
      unfold barDollarsR
      cases b.vwap with
      | none => exact sd_zero'
      | some p => exact signedDouble_idem _)
  rw [List.length_map] at m1 m2
  have hV : sm (bars.map Bar.volume) = volumeOf pieces.flatten * (f * f1) := by rw [k1, e1]; ring
  have nV := near_mono (near_mul n1 m1) (show n + bars.length ≤ 2 * n by omega)
  have hD : sm (bars.map (barDollarsR signedDouble)) = dollarsOf pieces.flatten * (g * f2) := by rw [k2, e2]; ring
  have nD := near_mono (near_mul n2 m2) (show 3 * n + 3 + bars.length ≤ 4 * n + 3 by omega)
  have pV := near_pos nV
  obtain ⟨f4, k4, m4⟩ := sd_factor (dollarsOf pieces.flatten * (g * f2) / (volumeOf pieces.flatten * (f * f1)))
  have nW := near_mono (near_mul (near_mul nD (near_inv nV)) m4) (show 4 * n + 3 + 2 * n + 1 ≤ 6 * (n + 1) by omega)
  have hw : resampleVwapR signedDouble sm bars =
      some (dollarsOf pieces.flatten / volumeOf pieces.flatten * (g * f2 * (1 / (f * f1)) * f4)) := by
    unfold resampleVwapR fdiv
    rw [hV, hD, if_neg (mul_pos hv pV).ne', Option.map_some, k4]
    congr 1
    field_simp
  have hD0 : 0 ≤ dollarsOf pieces.flatten := by
    apply List.sum_nonneg
    intro x hx
    obtain ⟨t, ht, rfl⟩ := List.mem_map.1 hx
    exact mul_nonneg (hd t ht).1 (hd t ht).2.1
  refine ⟨_, _, _, dollarsOf pieces.flatten / volumeOf pieces.flatten, resampleR_of signedDouble sm bars B1 hB2,
    statsR_of signedDouble sm _ B0 hfl, ⟨hB3.1.symm, hB3.2.1.symm, hB3.2.2.1.symm, hB3.2.2.2.1.symm, hB3.2.2.2.2.symm⟩,
    ?_, hw, div_mul_cancel₀ _ hv.ne', ?_⟩
  · have := near_close (show 2 * n ≤ 2 ^ 52 by omega) hv.le hV nV
    calc _ ≤ _ := this
      _ = _ := by push_cast; ring
  · have := near_close (show 6 * (n + 1) ≤ 2 ^ 52 by omega) (div_nonneg hD0 hv.le) rfl nW
    calc _ ≤ _ := this
      _ = _ := by push_cast; ring

/-- C287, what holds on a grid: when the volumes are whole multiples of a power of two, less than 2^53 of them in all,
the volume of the resampled bar is exactly the traded one, and that of the bar of all ticks (missing: VWAP). -/
theorem C287_volume_partial (sm : List ℚ → ℚ) (hsm : Adds sm) (g : ℤ) (pieces : List (List (Tick ℚ)))
    (bars : List (Bar ℚ)) (hb : BarsInDoubles sm pieces bars)
    (hg : ∀ t ∈ pieces.flatten, ∃ k : ℕ, t.volume = k * (2 : ℚ) ^ g)
    (hv : volumeOf pieces.flatten < 2 ^ 53 * (2 : ℚ) ^ g) (B B' : Bar ℚ)
    (hB : resampleBarStatsR signedDouble sm bars = .ok B)
    (hB' : computeBarStatsR signedDouble sm pieces.flatten = .ok B') :
    B.volume = volumeOf pieces.flatten ∧ B'.volume = volumeOf pieces.flatten := by
  have vol : ∀ {C : Bar ℚ} {l : List (Tick ℚ)}, computeBarStatsR signedDouble sm l = .ok C →
      C.volume = sm (l.map Tick.volume) := by
    intro C l h
    unfold computeBarStatsR at h
    simp only [py_bind_eq_ok, py_pure] at h
    obtain ⟨x1, h1, x2, h2, x3, h3, x4, h4, h5⟩ := h
    cases h5
    rfl
  have volR : B.volume = sm (bars.map Bar.volume) := by
    unfold resampleBarStatsR at hB
    simp only [py_bind_eq_ok, py_pure] at hB
    obtain ⟨x1, h1, x2, h2, x3, h3, x4, h4, h5⟩ := hB
    cases h5
    rfl
  have grid : ∀ l : List (Tick ℚ), (∀ t ∈ l, ∃ k : ℕ, t.volume = k * (2 : ℚ) ^ g) →
      ∀ x ∈ l.map Tick.volume, ∃ k : ℕ, x = k * (2 : ℚ) ^ g := by
    intro l h x hx
    obtain ⟨t, ht, rfl⟩ := List.mem_map.1 hx
    exact h t ht
  have key : (∀ x ∈ bars.map Bar.volume, ∃ k : ℕ, x = k * (2 : ℚ) ^ g) ∧
      (bars.map Bar.volume).sum = volumeOf pieces.flatten := by
    clear hB hB' volR
    induction hb with
    | nil => simp [volumeOf]
    | @cons p b ps bs h1 h2 ih =>
      have gp : ∀ t ∈ p, ∃ k : ℕ, t.volume = k * (2 : ℚ) ^ g := fun t ht => hg t (by simp [ht])
      have gps : ∀ t ∈ ps.flatten, ∃ k : ℕ, t.volume = k * (2 : ℚ) ^ g := fun t ht => hg t (by
        rw [List.flatten_cons, List.mem_append]
        exact Or.inr ht)
      obtain ⟨m, hm⟩ := grid_sum g _ (grid p gp)
      obtain ⟨k, hk⟩ := grid_sum g _ (grid _ gps)
      have e : volumeOf (p :: ps).flatten = volumeOf p + volumeOf ps.flatten := by simp [volumeOf]
      have m0 : 0 ≤ volumeOf p := by
        show 0 ≤ (p.map Tick.volume).sum
        rw [hm]
        positivity
      have k0 : 0 ≤ volumeOf ps.flatten := by
        show 0 ≤ (ps.flatten.map Tick.volume).sum
        rw [hk]
        positivity
      obtain ⟨i1, i2⟩ := ih gps (by linarith)
      have hbv : b.volume = volumeOf p := by
        rw [vol h1]
        exact adds_exact hsm g _ (grid p gp) (by
          show volumeOf p < _
          linarith)
      constructor
      · intro x hx
        rw [List.map_cons, List.mem_cons] at hx
        rcases hx with rfl | hx
        · exact ⟨m, by rw [hbv]; exact hm⟩
        · exact i1 x hx
      · rw [List.map_cons, List.sum_cons, i2, hbv, e]
  constructor
  · rw [volR, adds_exact hsm g _ key.1 (by rw [key.2]; exact hv), key.2]
  · rw [vol hB']
    exact adds_exact hsm g _ (grid _ hg) hv

/-- The hypotheses of `C287_resample_partial` are met by the two bars of the counterexample. -/
example : ∃ bars, BarsInDoubles (leftSum signedDouble) twoPieces bars ∧ 0 < volumeOf twoPieces.flatten ∧
    twoPieces.flatten.length = 3 :=
  ⟨_, List.Forall₂.cons rfl (List.Forall₂.cons rfl List.Forall₂.nil), by decide +kernel, rfl⟩

end FinML.Bars
