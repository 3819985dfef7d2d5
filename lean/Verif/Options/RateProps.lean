import Verif.Options.BsmProps
import Verif.Options.BinomProps
import Verif.Options.ScaleProps
import Verif.Options.ExpiryProps

/-! # Option prices, the interest rate and the yield (C258) -/

namespace FinML.Options

/-! ## Black-Scholes-Merton -/

theorem bs_mono {a a' b b' s : ℝ} (ha : 0 < a) (hb' : 0 < b') (hs : 0 < s) (haa : a ≤ a') (hbb : b' ≤ b)
    (hne : a < a' ∨ b' < b) : bs a b s < bs a' b' s ∧ bs a' b' s - a' + b' < bs a b s - a + b := by
  have h1 : bs a b s ≤ bs a' b s ∧ bs a' b s - a' ≤ bs a b s - a ∧
      (a < a' → bs a b s < bs a' b s ∧ bs a' b s - a' < bs a b s - a) := by
    rcases haa.eq_or_lt with rfl | h
    · exact ⟨le_refl _, le_refl _, fun h => absurd h (lt_irrefl _)⟩
    · have := bs_left ha (hb'.trans_le hbb) hs h
      exact ⟨by linarith, by linarith, fun _ => ⟨by linarith, by linarith⟩⟩
  have h2 : bs a' b s ≤ bs a' b' s ∧ bs a' b' s + b' ≤ bs a' b s + b ∧
      (b' < b → bs a' b s < bs a' b' s ∧ bs a' b' s + b' < bs a' b s + b) := by
    rcases hbb.eq_or_lt with rfl | h
    · exact ⟨le_refl _, le_refl _, fun h => absurd h (lt_irrefl _)⟩
    · have := bs_spread (ha.trans_le haa) hs hb' h
      exact ⟨by linarith, by linarith, fun _ => ⟨by linarith, by linarith⟩⟩
  rcases hne with h | h
  · have := h1.2.2 h
    exact ⟨by linarith [h2.1], by linarith [h2.2.1]⟩
  · have := h2.2.2 h
    exact ⟨by linarith [h1.1], by linarith [h1.2.1]⟩

theorem pv_anti {r r' : ℝ} (hr : r ≤ r') {divs : Option (List (ℝ × ℝ))}
    (hd : ∀ l, divs = some l → ∀ v ∈ l, 0 ≤ v.1 ∧ 0 ≤ v.2) : pv r' divs ≤ pv r divs := by
  cases divs with
  | none => exact le_refl _
  | some l =>
    simp only [pv]
    have hl := hd l rfl
    clear hd
    induction l with
    | nil => exact le_refl _
    | cons v l ih =>
      have hv := hl v List.mem_cons_self
      have h1 := ih fun w hw => hl w (List.mem_cons_of_mem _ hw)
      simp only [List.map_cons, List.sum_cons] at h1 ⊢
      have h2 : Real.exp (-(r' * v.2)) ≤ Real.exp (-(r * v.2)) := by
        rw [Real.exp_le_exp]
        have := mul_le_mul_of_nonneg_right hr hv.2
        linarith
      have := mul_le_mul_of_nonneg_left h2 hv.1
      linarith

/-- C258, the formula, not for futures: a higher rate or a lower yield raises the call and lowers the put. -/
theorem C258_bsm {s0 k r r' sigma t q q' c c' p p' : ℝ} {divs : Option (List (ℝ × ℝ))}
    (h0 : pv r divs < s0) (hk : 0 < k) (hs : 0 < sigma) (ht : 0 < t)
    (hd : ∀ l, divs = some l → ∀ v ∈ l, 0 ≤ v.1 ∧ 0 ≤ v.2)
    (hr : r ≤ r') (hq : q' ≤ q) (hne : r < r' ∨ q' < q)
    (hc : bsmOptionPrice .call s0 k r sigma t divs q false = .ok (some c))
    (hc' : bsmOptionPrice .call s0 k r' sigma t divs q' false = .ok (some c'))
    (hp : bsmOptionPrice .put s0 k r sigma t divs q false = .ok (some p))
    (hp' : bsmOptionPrice .put s0 k r' sigma t divs q' false = .ok (some p')) : c < c' ∧ p' < p := by
  have hpv := pv_anti hr hd
  have e1 := C108_parity hc hp
  have e2 := C108_parity hc' hp'
  obtain ⟨-, -, h1⟩ := call_cases hc
  obtain ⟨-, -, h2⟩ := call_cases hc'
  rw [bsmCall_eq (by linarith) hk hs ht] at h1
  rw [bsmCall_eq (by linarith) hk hs ht] at h2
  simp only [Bool.false_eq_true, if_false] at h1 h2 e1 e2
  have hE : ∀ {x y : ℝ}, x ≤ y → Real.exp (-y * t) ≤ Real.exp (-x * t) := fun {x y} h => by
    rw [Real.exp_le_exp]
    have := mul_le_mul_of_nonneg_right h ht.le
    linarith
  have hE' : ∀ {x y : ℝ}, x < y → Real.exp (-y * t) < Real.exp (-x * t) := fun {x y} h => by
    rw [Real.exp_lt_exp]
    have := mul_lt_mul_of_pos_right h ht
    linarith
  have hm := bs_mono (a := (s0 - pv r divs) * Real.exp (-q * t)) (a' := (s0 - pv r' divs) * Real.exp (-q' * t))
    (b := k * Real.exp (-r * t)) (b' := k * Real.exp (-r' * t)) (s := sigma * √t)
    (mul_pos (by linarith) (Real.exp_pos _)) (mul_pos hk (Real.exp_pos _)) (mul_pos hs (Real.sqrt_pos.2 ht))
    (mul_le_mul (by linarith) (hE hq) (Real.exp_pos _).le (by linarith))
    (mul_le_mul_of_nonneg_left (hE hr) hk.le) (by
      rcases hne with h | h
      · exact .inr (mul_lt_mul_of_pos_left (hE' h) hk)
      · left
        exact lt_of_lt_of_le (mul_lt_mul_of_pos_left (hE' h) (by linarith))
          (mul_le_mul_of_nonneg_right (by linarith) (Real.exp_pos _).le))
  rw [← Option.some.inj h1, ← Option.some.inj h2] at hm
  simp only [neg_mul] at hm
  exact ⟨hm.1, by linarith [hm.2]⟩

/-- C258, the formula for futures: a higher rate only discounts, so that call and put fall alike. -/
theorem C258_bsm_futures {ot : OptionType} {s0 k r r' sigma t q v v' : ℝ} (h0 : 0 < s0) (hk : 0 < k)
    (hs : 0 < sigma) (ht : 0 < t)
    (hv : bsmOptionPrice ot s0 k r sigma t none q true = .ok (some v))
    (hv' : bsmOptionPrice ot s0 k r' sigma t none q true = .ok (some v')) :
    v' = v * Real.exp (-((r' - r) * t)) := by
  have hc : ∀ x : ℝ, bsmCall s0 k x sigma t x =
      some (bs s0 k (sigma * √t) * Real.exp (-x * t)) := by
    intro x
    rw [bsmCall_eq h0 hk hs ht]
    congr 1
    unfold bs
    rw [mul_div_mul_right _ _ (Real.exp_pos (-x * t)).ne']
    ring
  have hE : Real.exp (-r' * t) = Real.exp (-r * t) * Real.exp (-((r' - r) * t)) := by
    rw [← Real.exp_add]; congr 1; ring
  cases ot with
  | call =>
    obtain ⟨-, -, h1⟩ := call_cases hv
    obtain ⟨-, -, h2⟩ := call_cases hv'
    simp only [if_true, pv, sub_zero, hc, Option.some.injEq] at h1 h2
    rw [h1, h2, hE]; ring
  | put =>
    obtain ⟨c, g1, e1⟩ := call_of_put hv
    obtain ⟨c', g2, e2⟩ := call_of_put hv'
    obtain ⟨-, -, h1⟩ := call_cases g1
    obtain ⟨-, -, h2⟩ := call_cases g2
    simp only [if_true, pv, sub_zero, hc, Option.some.injEq, ← neg_mul] at h1 h2 e1 e2
    rw [e1, e2, h1, h2, hE]; ring
  | american =>
    unfold bsmOptionPrice at hv
    rw [if_neg (by simp), if_neg (by simp [hk.ne'])] at hv
    exact absurd hv (by simp)
  | european =>
    unfold bsmOptionPrice at hv
    rw [if_neg (by simp), if_neg (by simp [hk.ne'])] at hv
    exact absurd hv (by simp)

/-! ## The binomial tree -/

/-- One step of the tree in terms of the yield and the discount. -/
theorem TreeOk.step {tr : Tree} {t r sigma q : ℝ} {n : ℕ} (h : TreeOk tr t r sigma q n) (a b : ℝ) :
    tr.disc * (tr.p * a + (1 - tr.p) * b) * (tr.u - tr.d) =
      Real.exp (-q * tr.dt) * (a - b) + tr.disc * (tr.u * b - tr.d * a) := by
  rw [← h.disc_mean]; ring

theorem TreeOk.d_lt {tr : Tree} {t r sigma q : ℝ} {n : ℕ} (h : TreeOk tr t r sigma q n) (hs : 0 ≤ sigma) :
    tr.d < tr.u := by
  have h1 : 1 ≤ tr.u := by
    rw [h.u_eq]; exact Real.one_le_exp (mul_nonneg hs (Real.sqrt_nonneg _))
  have h2 : tr.d ≤ 1 := by
    by_contra hc
    have := h.ud
    nlinarith [h.d_pos]
  exact lt_of_le_of_ne (h2.trans h1) fun e => h.ne (by rw [e, sub_self])

/-- A function that grows at least in proportion. -/
def Elastic (f : ℝ → ℝ) : Prop := ∀ a b : ℝ, 0 < a → a ≤ b → f a * b ≤ f b * a

theorem X_elastic {tr : Tree} {pay early : ℝ → ℝ} (hd : 0 ≤ tr.disc) (hp : 0 ≤ tr.p) (hp1 : tr.p ≤ 1)
    (hu : 0 < tr.u) (hdn : 0 < tr.d) (hpay : Elastic pay) (he : Elastic early) (m : ℕ) :
    Elastic (X tr pay early m) := by
  induction m with
  | zero => exact hpay
  | succ m ih =>
    intro a b ha hab
    have hb := ha.trans_le hab
    have key : ∀ z : ℝ, 0 < z → X tr pay early m (a * z) * b ≤ X tr pay early m (b * z) * a := by
      intro z hz
      have := ih (a * z) (b * z) (mul_pos ha hz) (mul_le_mul_of_nonneg_right hab hz.le)
      have h2 : X tr pay early m (a * z) * b * z ≤ X tr pay early m (b * z) * a * z := by
        rw [mul_assoc, mul_assoc]; exact this
      exact le_of_mul_le_mul_right h2 hz
    show max _ _ * b ≤ max _ _ * a
    rw [max_mul_of_nonneg _ _ hb.le, max_mul_of_nonneg _ _ ha.le]
    refine max_le_max ?_ (he a b ha hab)
    have := mul_le_mul_of_nonneg_left (avg_mono hp hp1 (key _ hu) (key _ hdn)) hd
    calc _ = tr.disc * (tr.p * (X tr pay early m (a * tr.u) * b) + (1 - tr.p) * (X tr pay early m (a * tr.d) * b)) := by
          ring
      _ ≤ _ := this
      _ = _ := by ring

theorem call_elastic {k : ℝ} (hk : 0 ≤ k) : Elastic (payoff .call k) := by
  intro a b ha hab
  simp only [payoff, exercise, Option.getD_some]
  rw [max_mul_of_nonneg _ _ (ha.trans_le hab).le, max_mul_of_nonneg _ _ ha.le, zero_mul, zero_mul]
  exact max_le_max (by nlinarith) (le_refl _)

theorem early_cases {ot style : OptionType} {k : ℝ} {e : ℝ → ℝ} (h : earlyValue ot style k = some e) :
    e = payoff ot k ∨ e = fun _ => 0 := by
  cases style <;> simp [earlyValue] at h <;> subst h
  · exact .inl rfl
  · exact .inr rfl

theorem call_mono (k : ℝ) : Monotone (payoff .call k) := fun a b h => by
  simp only [payoff, exercise, Option.getD_some]; exact max_le_max (by linarith) le_rfl

theorem put_anti (k : ℝ) : Antitone (payoff .put k) := fun a b h => by
  simp only [payoff, exercise, Option.getD_some]; exact max_le_max (by linarith) le_rfl

/-- C258, the tree, not for futures: a higher rate or a lower yield never lowers the call and never raises
the put, American or European. -/
theorem C258_tree {style : OptionType} {s0 k t r r' sigma q q' c c' p p' : ℝ} {n : ℕ}
    (hd : DriftOk t r sigma q n) (hd' : DriftOk t r' sigma q' n) (hs : 0 < s0) (hk : 0 ≤ k)
    (hr : r ≤ r') (hq : q' ≤ q)
    (hc : binomOptionPrice .call style s0 k t r sigma q false n = .ok (some c))
    (hc' : binomOptionPrice .call style s0 k t r' sigma q' false n = .ok (some c'))
    (hp : binomOptionPrice .put style s0 k t r sigma q false n = .ok (some p))
    (hp' : binomOptionPrice .put style s0 k t r' sigma q' false n = .ok (some p')) :
    c ≤ c' ∧ p' ≤ p := by
  obtain ⟨m, tr, hm, hm0, -, ok, ht, e1, he1, rfl⟩ := binom_cases hc
  obtain ⟨m', tr', hm', -, -, ok', ht', e2, he2, rfl⟩ := binom_cases hc'
  obtain ⟨m'', tr'', hm'', -, -, -, ht'', e3, he3, rfl⟩ := binom_cases hp
  obtain ⟨m''', tr''', hm''', -, -, -, ht''', e4, he4, rfl⟩ := binom_cases hp'
  obtain rfl : n = m := by exact_mod_cast hm
  obtain rfl : n = m' := by exact_mod_cast hm'
  obtain rfl : n = m'' := by exact_mod_cast hm''
  obtain rfl : n = m''' := by exact_mod_cast hm'''
  obtain rfl := Option.some.inj (ht.symm.trans ht'')
  obtain rfl := Option.some.inj (ht'.symm.trans ht''')
  obtain rfl := Option.some.inj (he1.symm.trans he2)
  obtain rfl := Option.some.inj (he3.symm.trans he4)
  simp only [yieldUsed, Bool.false_eq_true, if_false] at ok ok'
  have hsig : 0 ≤ sigma := le_trans (mul_nonneg (abs_nonneg _) (Real.sqrt_nonneg _)) hd
  obtain ⟨h0, h1⟩ := ok.probability hd
  obtain ⟨h0', h1'⟩ := ok'.probability hd'
  have hdt : tr'.dt = tr.dt := by rw [ok.dt_eq, ok'.dt_eq]
  have hu : tr'.u = tr.u := by rw [ok.u_eq, ok'.u_eq, hdt]
  have hdd : tr'.d = tr.d := by
    have a := ok.ud
    have b := ok'.ud
    rw [hu, ← a] at b
    exact mul_left_cancel₀ ok.u_pos.ne' b
  have hud := ok.d_lt hsig
  have hA : Real.exp (-q * tr.dt) ≤ Real.exp (-q' * tr.dt) := by
    rw [Real.exp_le_exp]
    have := mul_le_mul_of_nonneg_right hq ok.dt_nonneg
    linarith
  have hB : tr'.disc ≤ tr.disc := by
    rw [ok.disc_eq, ok'.disc_eq, hdt, Real.exp_le_exp]
    have := mul_le_mul_of_nonneg_right hr ok.dt_nonneg
    linarith
  -- one step with other rates
  have hstep : ∀ a b : ℝ, 0 ≤ (Real.exp (-q' * tr.dt) - Real.exp (-q * tr.dt)) * (a - b) +
        (tr'.disc - tr.disc) * (tr.u * b - tr.d * a) →
      tr.disc * (tr.p * a + (1 - tr.p) * b) ≤ tr'.disc * (tr'.p * a + (1 - tr'.p) * b) := by
    intro a b h
    have s1 := ok.step a b
    have s2 := ok'.step a b
    rw [hu, hdd, hdt] at s2
    refine le_of_mul_le_mul_right ?_ (sub_pos.2 hud)
    rw [s1, s2]
    linarith
  have hstep' : ∀ a b : ℝ, (Real.exp (-q' * tr.dt) - Real.exp (-q * tr.dt)) * (a - b) +
        (tr'.disc - tr.disc) * (tr.u * b - tr.d * a) ≤ 0 →
      tr'.disc * (tr'.p * a + (1 - tr'.p) * b) ≤ tr.disc * (tr.p * a + (1 - tr.p) * b) := by
    intro a b h
    have s1 := ok.step a b
    have s2 := ok'.step a b
    rw [hu, hdd, hdt] at s2
    refine le_of_mul_le_mul_right ?_ (sub_pos.2 hud)
    rw [s1, s2]
    linarith
  constructor
  · have hem : Monotone e1 := by
      rcases early_cases he1 with rfl | rfl
      · exact call_mono k
      · exact monotone_const
    have hee : Elastic e1 := by
      rcases early_cases he1 with rfl | rfl
      · exact call_elastic hk
      · intro a b _ _; simp
    have key : ∀ (i : ℕ) (s : ℝ), 0 < s →
        X tr (payoff .call k) e1 i s ≤ X tr' (payoff .call k) e1 i s := by
      intro i
      induction i with
      | zero => intro s _; exact le_refl _
      | succ i ih =>
        intro s hs
        refine max_le_max ?_ (le_refl _)
        have a1 := ih (s * tr.u) (mul_pos hs ok.u_pos)
        have a2 := ih (s * tr.d) (mul_pos hs ok.d_pos)
        refine (mul_le_mul_of_nonneg_left (avg_mono h0 h1 a1 a2) ok.disc_pos.le).trans ?_
        rw [hu, hdd]
        apply hstep
        have hle : s * tr.d ≤ s * tr.u := mul_le_mul_of_nonneg_left hud.le hs.le
        have m1 := X_monotone ok'.disc_pos.le h0' h1' ok'.u_pos.le ok'.d_pos.le (call_mono k) hem i hle
        have m2 := X_elastic ok'.disc_pos.le h0' h1' ok'.u_pos ok'.d_pos (call_elastic hk) hee i (s * tr.d)
          (s * tr.u) (mul_pos hs ok.d_pos) hle
        have m3 : tr.u * X tr' (payoff .call k) e1 i (s * tr.d) - tr.d * X tr' (payoff .call k) e1 i (s * tr.u) ≤ 0 := by
          by_contra hc
          have := mul_pos hs (not_le.1 hc)
          nlinarith
        exact add_nonneg (mul_nonneg (sub_nonneg.2 hA) (sub_nonneg.2 m1))
          (mul_nonneg_of_nonpos_of_nonpos (sub_nonpos.2 hB) m3)
    exact key n s0 hs
  · have hem : Antitone e3 := by
      rcases early_cases he3 with rfl | rfl
      · exact put_anti k
      · exact antitone_const
    have key : ∀ (i : ℕ) (s : ℝ), 0 < s →
        X tr' (payoff .put k) e3 i s ≤ X tr (payoff .put k) e3 i s := by
      intro i
      induction i with
      | zero => intro s _; exact le_refl _
      | succ i ih =>
        intro s hs
        refine max_le_max ?_ (le_refl _)
        have a1 := ih (s * tr.u) (mul_pos hs ok.u_pos)
        have a2 := ih (s * tr.d) (mul_pos hs ok.d_pos)
        rw [← hu] at a1
        rw [← hdd] at a2
        refine (mul_le_mul_of_nonneg_left (avg_mono h0' h1' a1 a2) ok'.disc_pos.le).trans ?_
        rw [hu, hdd]
        apply hstep'
        have hle : s * tr.d ≤ s * tr.u := mul_le_mul_of_nonneg_left hud.le hs.le
        have m1 := X_antitone ok.disc_pos.le h0 h1 ok.u_pos.le ok.d_pos.le (put_anti k) hem i hle
        have m0 := X_nonneg tr (payoff .put k) e3 (payoff_nonneg _ k) (early_nonneg he3) i (s * tr.u)
        have m3 : 0 ≤ tr.u * X tr (payoff .put k) e3 i (s * tr.d) - tr.d * X tr (payoff .put k) e3 i (s * tr.u) := by
          have := mul_le_mul hud.le m1 m0 ok.u_pos.le
          linarith
        exact add_nonpos (mul_nonpos_of_nonneg_of_nonpos (sub_nonneg.2 hA) (sub_nonpos.2 m1))
          (mul_nonpos_of_nonpos_of_nonneg (sub_nonpos.2 hB) m3)
    exact key n s0 hs

/-- C258, the tree for futures: a higher rate never raises a price, and the European price is that of the
lower rate discounted. -/
theorem C258_tree_futures {ot style : OptionType} {s0 k t r r' sigma q v v' : ℝ} {n : ℕ} (hs : 0 ≤ sigma)
    (hr : r ≤ r') (hv : binomOptionPrice ot style s0 k t r sigma q true n = .ok (some v))
    (hv' : binomOptionPrice ot style s0 k t r' sigma q true n = .ok (some v')) :
    v' ≤ v ∧ (style = .european → v' = v * Real.exp (-((r' - r) * t))) := by
  obtain ⟨m, tr, hm, hm0, -, ok, ht, e1, he1, rfl⟩ := binom_cases hv
  obtain ⟨m', tr', hm', -, -, ok', ht', e2, he2, rfl⟩ := binom_cases hv'
  obtain rfl : n = m := by exact_mod_cast hm
  obtain rfl : n = m' := by exact_mod_cast hm'
  obtain rfl := Option.some.inj (he1.symm.trans he2)
  simp only [yieldUsed, if_true] at ok ok'
  have hdt : tr'.dt = tr.dt := by rw [ok.dt_eq, ok'.dt_eq]
  have hu : tr'.u = tr.u := by rw [ok.u_eq, ok'.u_eq, hdt]
  have hdd : tr'.d = tr.d := by
    have a := ok.ud
    have b := ok'.ud
    rw [hu, ← a] at b
    exact mul_left_cancel₀ ok.u_pos.ne' b
  have hp : tr'.p = tr.p := by
    have a := ok.mean
    have b := ok'.mean
    rw [sub_self, zero_mul] at a b
    rw [hu, hdd, ← a] at b
    refine mul_right_cancel₀ ok.ne ?_
    linarith
  have hdrift : DriftOk t r sigma r n := by
    unfold DriftOk
    rw [sub_self, abs_zero, zero_mul]
    exact hs
  obtain ⟨h0, h1⟩ := ok.probability hdrift
  have hB : tr'.disc ≤ tr.disc := by
    rw [ok.disc_eq, ok'.disc_eq, hdt, Real.exp_le_exp]
    have := mul_le_mul_of_nonneg_right hr ok.dt_nonneg
    linarith
  have hnn : ∀ i s, 0 ≤ X tr' (payoff ot k) e1 i s := fun i s =>
    X_nonneg tr' _ _ (payoff_nonneg ot k) (early_nonneg he1) i s
  constructor
  · have key : ∀ (i : ℕ) (s : ℝ), X tr' (payoff ot k) e1 i s ≤ X tr (payoff ot k) e1 i s := by
      intro i
      induction i with
      | zero => intro s; exact le_refl _
      | succ i ih =>
        intro s
        refine max_le_max ?_ (le_refl _)
        rw [hu, hdd, hp]
        have a := avg_mono h0 h1 (ih (s * tr.u)) (ih (s * tr.d))
        exact mul_le_mul hB a (add_nonneg (mul_nonneg h0 (hnn _ _)) (mul_nonneg (by linarith) (hnn _ _)))
          ok.disc_pos.le
    exact key n s0
  · rintro rfl
    simp only [earlyValue, Option.some.injEq] at he1
    subst he1
    have hdr : ∀ i s, X tr (payoff ot k) (fun _ => 0) i s = tr.disc ^ i * binAvg tr i (payoff ot k) s :=
      fun i s => X_european ok.disc_pos.le h0 h1 (payoff_nonneg ot k) i s
    have hdr' : ∀ i s, X tr' (payoff ot k) (fun _ => 0) i s = tr'.disc ^ i * binAvg tr' i (payoff ot k) s :=
      fun i s => X_european ok'.disc_pos.le (hp ▸ h0) (hp ▸ h1) (payoff_nonneg ot k) i s
    rw [hdr, hdr', ok.disc_pow hm0, ok'.disc_pow hm0]
    have hb : binAvg tr' n (payoff ot k) s0 = binAvg tr n (payoff ot k) s0 := by
      unfold binAvg
      rw [hu, hdd, hp]
    rw [hb]
    have hE : Real.exp (-r' * t) = Real.exp (-r * t) * Real.exp (-((r' - r) * t)) := by
      rw [← Real.exp_add]; congr 1; ring
    rw [hE]; ring

/-- The hypotheses of C258 can be met: rates of 2% and 4%, volatility 20%. -/
example : DriftOk 1 (1 / 50) (1 / 5) 0 1 ∧ DriftOk 1 (1 / 25) (1 / 5) 0 1 ∧
    ∃ v, binomOptionPrice .put .american 100 90 1 (1 / 25) (1 / 5) 0 false (1 : ℕ) = .ok (some v) := by
  refine ⟨by simp [DriftOk]; norm_num [abs_of_pos], by simp [DriftOk]; norm_num [abs_of_pos], ?_⟩
  rw [C103_defined]
  norm_num

end FinML.Options
