import Verif.Labels.WiderProps

/-! # Better prices and labels (C257) -/

namespace FinML.Labels

set_option linter.unusedSectionVars false

variable {K : Type} [Field K] [LinearOrder K] [IsStrictOrderedRing K]

/-- A price at least as good for a trade of the given side: higher for a long, lower for a short one. -/
def PriceOk (side : ℤ) (a b : Option K) : Prop := ∃ p p', a = some p ∧ b = some p' ∧ (side : K) * p ≤ side * p'

/-- The second table has the times and opens of the first one and nowhere worse highs, lows and closes. -/
def BetterTable (side : ℤ) (prices prices' : List (Row K)) : Prop :=
  List.Forall₂ (fun r r' => r'.time = r.time ∧ r'.op = r.op ∧ PriceOk side r.high r'.high ∧
    PriceOk side r.low r'.low ∧ PriceOk side r.close r'.close) prices prices'

theorem BetterTable.mem {side : ℤ} {prices prices' : List (Row K)} (h : BetterTable side prices prices') :
    (∀ r ∈ prices, ∃ r' ∈ prices', r'.time = r.time ∧ r'.op = r.op ∧ PriceOk side r.high r'.high ∧
      PriceOk side r.low r'.low ∧ PriceOk side r.close r'.close) ∧
    (∀ r' ∈ prices', ∃ r ∈ prices, r'.time = r.time ∧ r'.op = r.op ∧ PriceOk side r.high r'.high ∧
      PriceOk side r.low r'.low ∧ PriceOk side r.close r'.close) ∧
    prices'.map Row.time = prices.map Row.time := by
  induction h with
  | nil => exact ⟨by simp, by simp, rfl⟩
  | cons h1 _ ih =>
    refine ⟨fun r hr => ?_, fun r hr => ?_, by rw [List.map_cons, List.map_cons, h1.1, ih.2.2]⟩
    · rcases List.mem_cons.1 hr with rfl | hr
      · exact ⟨_, List.mem_cons_self, h1⟩
      · obtain ⟨r', hr', h2⟩ := ih.1 r hr
        exact ⟨r', List.mem_cons_of_mem _ hr', h2⟩
    · rcases List.mem_cons.1 hr with rfl | hr
      · exact ⟨_, List.mem_cons_self, h1⟩
      · obtain ⟨r', hr', h2⟩ := ih.2.1 r hr
        exact ⟨r', List.mem_cons_of_mem _ hr', h2⟩

theorem tradeRet_mono {side : ℤ} {s0 p p' : K} (hs : 0 < s0) (h : (side : K) * p ≤ side * p') :
    tradeRet side s0 p ≤ tradeRet side s0 p' := by
  unfold tradeRet
  rw [mul_sub, mul_sub, ← mul_div_assoc, ← mul_div_assoc]
  have := div_le_div_of_nonneg_right h hs.le
  linarith

theorem hitsPT_better {prices prices' : List (Row K)} {m : K} {e : Event K} {side : ℤ} {s0 : K} {x t : ℤ}
    (hb : BetterTable side prices prices') (hs : 0 < s0) (h : HitsPT prices m e side s0 x t) :
    HitsPT prices' m e side s0 x t := by
  obtain ⟨h1, h2, h3, r, hr, h4, p, y, h5, h6, h7⟩ := h
  obtain ⟨r', hr', ht, -, hh, hl, -⟩ := hb.mem.1 r hr
  have : PriceOk side (bestPrice side r) (bestPrice side r') := by
    unfold bestPrice; split <;> assumption
  obtain ⟨q, q', hq, hq', hle⟩ := this
  rw [h5, Option.some.injEq] at hq
  subst hq
  exact ⟨h1, h2, h3, r', hr', ht.trans h4, q', y, hq', h6, h7.trans_le (tradeRet_mono hs hle)⟩

theorem hitsSL_better {prices prices' : List (Row K)} {m : K} {e : Event K} {side : ℤ} {s0 : K} {x t : ℤ}
    (hb : BetterTable side prices prices') (hs : 0 < s0) (h : HitsSL prices' m e side s0 x t) :
    HitsSL prices m e side s0 x t := by
  obtain ⟨h1, h2, h3, r', hr', h4, p, y, h5, h6, h7⟩ := h
  obtain ⟨r, hr, ht, -, hh, hl, -⟩ := hb.mem.2.1 r' hr'
  have : PriceOk side (worstPrice side r) (worstPrice side r') := by
    unfold worstPrice; split <;> assumption
  obtain ⟨q, q', hq, hq', hle⟩ := this
  rw [h5, Option.some.injEq] at hq'
  subst hq'
  exact ⟨h1, h2, h3, r, hr, ht ▸ h4, q, y, hq, h6, (tradeRet_mono hs hle).trans_lt h7⟩

/-- How an event can end, with the sign of its return. -/
theorem end_cases {prices : List (Row K)} (hs : SortedTable prices) {pt sl : K} {e : Event K}
    (htar : ∀ y, e.target = some y → 0 ≤ y) {side : ℤ} {s0 : K} {x : ℤ} (ht : Tradable prices e side s0 x)
    {o : Outcome K} (ho : evalEvent prices pt sl e x = .ok o) :
    (HitsSL prices sl e side s0 x o.endTime ∧ (∀ t, HitsPT prices pt e side s0 x t → o.endTime ≤ t) ∧
      (∀ t, HitsSL prices sl e side s0 x t → o.endTime ≤ t) ∧ ∃ y, o.ret = some y ∧ y < 0) ∨
    (HitsPT prices pt e side s0 x o.endTime ∧ ¬ HitsSL prices sl e side s0 x o.endTime ∧
      (∀ t, HitsPT prices pt e side s0 x t → o.endTime ≤ t) ∧
      (∀ t, HitsSL prices sl e side s0 x t → o.endTime ≤ t) ∧ ∃ y, o.ret = some y ∧ 0 < y) ∨
    ((∀ t, ¬ HitsPT prices pt e side s0 x t ∧ ¬ HitsSL prices sl e side s0 x t) ∧ o.endTime = x ∧
      ∃ r ∈ prices, r.time = x ∧ o.ret = r.close.map fun c => c / s0 - 1) := by
  obtain ⟨o', h1, h2, h3, h4, h5⟩ := evalEvent_spec prices pt sl e side s0 x hs ht
  rw [ho] at h1
  cases h1
  by_cases hh : ∃ t, HitsPT prices pt e side s0 x t ∨ HitsSL prices sl e side s0 x t
  · obtain ⟨t, hhit⟩ := hh
    have hl := h2.end_hit t hhit
    have hP : ∀ t, HitsPT prices pt e side s0 x t → o.endTime ≤ t := fun t h => hl.2 (.inl h)
    have hS : ∀ t, HitsSL prices sl e side s0 x t → o.endTime ≤ t := fun t h => hl.2 (.inr h)
    have huniq : ∀ r ∈ prices, ∀ r' ∈ prices, r.time = r'.time → r = r' := fun r hr r' hr' h =>
      List.inj_on_of_nodup_map (hs.imp fun h => h.ne) hr hr' h
    by_cases hsl : HitsSL prices sl e side s0 x o.endTime
    · left
      refine ⟨hsl, hP, hS, ?_⟩
      obtain ⟨r, hr, hrt, p, hp, hret⟩ := h3 hsl
      obtain ⟨-, -, g3, r', hr', hrt', p', y, hp', hy, hlt⟩ := hsl
      have := huniq r hr r' hr' (hrt.trans hrt'.symm)
      subst this
      rw [hp, Option.some.injEq] at hp'
      subst hp'
      exact ⟨_, hret, hlt.trans_le (neg_nonpos.2 (mul_nonneg g3.le (htar y hy)))⟩
    · have hpt : HitsPT prices pt e side s0 x o.endTime := hl.1.resolve_right hsl
      right; left
      refine ⟨hpt, hsl, hP, hS, ?_⟩
      obtain ⟨r, hr, hrt, p, hp, hret⟩ := h4 hsl hpt
      obtain ⟨-, -, g3, r', hr', hrt', p', y, hp', hy, hlt⟩ := hpt
      have := huniq r hr r' hr' (hrt.trans hrt'.symm)
      subst this
      rw [hp, Option.some.injEq] at hp'
      subst hp'
      exact ⟨_, hret, (mul_nonneg g3.le (htar y hy)).trans_lt hlt⟩
  · push Not at hh
    right; right
    exact ⟨hh, h2.end_expiry hh, h5 hh⟩

/-- The label of one row. -/
theorem label_eq (ex : Option ℤ) (hasSide cancel : Bool) (y : K) (t : ℤ) (l : K)
    (h : (getEventLabels [⟨ex, some t, some y⟩] hasSide cancel).map Prod.snd = [some l]) :
    l = if (cancel && expired (some t) ex) = true then 0 else if 0 < y then 1 else
      if y < 0 ∧ hasSide = false then -1 else 0 := by
  simp only [getEventLabels, List.filter_cons, Option.isSome_some, if_true, List.filter_nil, List.map_cons,
    List.map_nil, List.cons.injEq, and_true, rowLabel, nonPositive, npSign, Option.map_some] at h
  by_cases hc : (cancel && expired (some t) ex) = true
  · rw [if_pos hc, Option.some.injEq] at h
    rw [if_pos hc, h]
  · rw [if_neg hc] at h ⊢
    rcases lt_trichotomy y 0 with h0 | h0 | h0
    · cases hasSide <;> simp [h0, h0.le, h0.not_gt] at h ⊢ <;> exact h.symm
    · subst h0
      cases hasSide <;> simp at h ⊢ <;> exact h.symm
    · cases hasSide <;> simp [h0, h0.not_ge] at h ⊢ <;> exact h.symm

/-- The full claim: whatever the side, prices that are nowhere worse for the trade never lower the label
of the event. -/
def BetterNeverWorse (K : Type) [Field K] [LinearOrder K] [IsStrictOrderedRing K] : Prop :=
  ∀ (prices prices' : List (Row K)) (pt sl : K) (e : Event K) (side : ℤ) (s0 : K) (x : ℤ) (o o' : Outcome K)
    (hasSide cancel : Bool) (l l' : K), SortedTable prices → BetterTable side prices prices' → 0 < s0 →
    (∀ y, e.target = some y → 0 ≤ y) → (∀ y, e.expiry = some y → y = x) → Tradable prices e side s0 x →
    evalEvent prices pt sl e x = .ok o → evalEvent prices' pt sl e x = .ok o' →
    (getEventLabels [⟨e.expiry, some o.endTime, o.ret⟩] hasSide cancel).map Prod.snd = [some l] →
    (getEventLabels [⟨e.expiry, some o'.endTime, o'.ret⟩] hasSide cancel).map Prod.snd = [some l'] → l ≤ l'

/-- C257.  The full claim fails: a short trade that meets no barrier is labelled by the rise of the price, so
that a lower close at the expiry lowers its label from 1 to -1. -/
theorem C257_short_counterexample : ¬ BetterNeverWorse ℚ := by
  intro h
  have := h [⟨0, some 100, some 101, some 99, some 100⟩, ⟨1, some 100, some 102, some 98, some 101⟩]
    [⟨0, some 100, some 101, some 99, some 100⟩, ⟨1, some 100, some 102, some 98, some 99⟩] 1 1
    ⟨0, some 1, some (1 / 2), some (-1)⟩ (-1) 100 1
    ⟨none, none, 1, some (1 / 100)⟩ ⟨none, none, 1, some (-1 / 100)⟩ false false 1 (-1) (by unfold SortedTable; decide +kernel)
    (.cons ⟨rfl, rfl, ⟨_, _, rfl, rfl, le_refl _⟩, ⟨_, _, rfl, rfl, le_refl _⟩, ⟨_, _, rfl, rfl, le_refl _⟩⟩
      (.cons ⟨rfl, rfl, ⟨_, _, rfl, rfl, le_refl _⟩, ⟨_, _, rfl, rfl, le_refl _⟩,
        ⟨101, 99, rfl, rfl, by norm_num⟩⟩ .nil)) (by norm_num)
    (by rintro y hy; cases hy; norm_num) (by rintro y hy; cases hy; rfl)
    ⟨rfl, .inr rfl, ⟨_, List.mem_cons_self, rfl, rfl⟩, by norm_num,
      ⟨_, List.mem_cons_of_mem _ List.mem_cons_self, rfl⟩⟩
    (by decide +kernel) (by decide +kernel) (by decide +kernel) (by decide +kernel)
  norm_num at this

/-- C257, part.  Prices that are nowhere worse for the trade never lower the label, of a long trade, and of a
short one that meets a barrier on one of the two paths.  Missing: short trades that expire without meeting a
barrier on either path. -/
theorem C257_better_partial (prices prices' : List (Row K)) (pt sl : K) (e : Event K) (side : ℤ) (s0 : K) (x : ℤ)
    (o o' : Outcome K) (hasSide cancel : Bool) (l l' : K) (hs : SortedTable prices)
    (hb : BetterTable side prices prices') (hs0 : 0 < s0) (htar : ∀ y, e.target = some y → 0 ≤ y)
    (ht : Tradable prices e side s0 x)
    (ho : evalEvent prices pt sl e x = .ok o) (ho' : evalEvent prices' pt sl e x = .ok o')
    (hl : (getEventLabels [⟨e.expiry, some o.endTime, o.ret⟩] hasSide cancel).map Prod.snd = [some l])
    (hl' : (getEventLabels [⟨e.expiry, some o'.endTime, o'.ret⟩] hasSide cancel).map Prod.snd = [some l'])
    (hlong : side = 1 ∨ (∃ t, HitsPT prices pt e side s0 x t ∨ HitsSL prices sl e side s0 x t) ∨
      ∃ t, HitsPT prices' pt e side s0 x t ∨ HitsSL prices' sl e side s0 x t) : l ≤ l' := by
  have hs' : SortedTable prices' := by unfold SortedTable; rw [hb.mem.2.2]; exact hs
  have ht' : Tradable prices' e side s0 x := by
    obtain ⟨h1, h2, ⟨r, hr, h3, h4⟩, h5, r2, hr2, h6⟩ := ht
    obtain ⟨r', hr', g1, g2, -⟩ := hb.mem.1 r hr
    obtain ⟨r2', hr2', g3, -⟩ := hb.mem.1 r2 hr2
    exact ⟨h1, h2, ⟨r', hr', g1.trans h3, g2.trans h4⟩, h5, r2', hr2', g3.trans h6⟩
  have hsgn := label_eq (K := K) e.expiry hasSide cancel
  have hexp : ∀ {t t' : ℤ}, t ≤ t' → expired (some t) e.expiry = true → expired (some t') e.expiry = true := by
    intro t t' htt h
    cases he : e.expiry with
    | none => rw [he] at h; simp [expired] at h
    | some y =>
      rw [he] at h
      simp only [expired, decide_eq_true_eq] at h ⊢
      omega
  have hle1 : ∀ (y : K) (t : ℤ) (l : K),
      (getEventLabels [⟨e.expiry, some t, some y⟩] hasSide cancel).map Prod.snd = [some l] → l ≤ 1 := by
    intro y t l h
    rw [hsgn y t l h]
    split_ifs <;> norm_num
  have hneg : ∀ (y : K) (t : ℤ) (l : K), y < 0 →
      (getEventLabels [⟨e.expiry, some t, some y⟩] hasSide cancel).map Prod.snd = [some l] → l ≤ 0 := by
    intro y t l h0 h
    rw [hsgn y t l h, if_neg h0.not_gt]
    split_ifs <;> norm_num
  have hmin : ∀ (y : K) (t : ℤ) (l : K),
      (getEventLabels [⟨e.expiry, some t, some y⟩] hasSide cancel).map Prod.snd = [some l] →
      (if hasSide = false then (-1 : K) else 0) ≤ l := by
    intro y t l h
    rw [hsgn y t l h]
    by_cases hf : hasSide = false
    · rw [if_pos hf]
      split_ifs <;> norm_num
    · rw [if_neg hf, if_neg (fun h : y < 0 ∧ hasSide = false => hf h.2)]
      split_ifs <;> norm_num
  rcases end_cases hs' htar ht' ho' with ⟨a1, a2, a3, y', hy', hy0'⟩ | ⟨a1, a2, a3, a4, y', hy', hy0'⟩ |
    ⟨a1, a2, r', hr', hrt', hret'⟩
  · -- the better trade is stopped
    rw [hy'] at hl'
    have hbad := hitsSL_better hb hs0 a1
    rcases end_cases hs htar ht ho with ⟨b1, b2, b3, y, hy, hy0⟩ | ⟨b1, b2, b3, b4, y, hy, hy0⟩ | ⟨b1, -⟩
    · rw [hy] at hl
      rw [hsgn _ _ _ hl, hsgn _ _ _ hl', if_neg hy0.not_gt, if_neg hy0'.not_gt]
      have := b3 _ hbad
      have himp : (cancel && expired (some o.endTime) e.expiry) = true →
          (cancel && expired (some o'.endTime) e.expiry) = true := by
        rw [Bool.and_eq_true, Bool.and_eq_true]
        exact fun h => ⟨h.1, hexp this h.2⟩
      by_cases hc : (cancel && expired (some o.endTime) e.expiry) = true
      · rw [if_pos hc, if_pos (himp hc)]
      · rw [if_neg hc]
        by_cases hf : hasSide = false
        · rw [if_pos (show y < 0 ∧ hasSide = false from ⟨hy0, hf⟩),
            if_pos (show y' < 0 ∧ hasSide = false from ⟨hy0', hf⟩)]
          split_ifs <;> norm_num
        · rw [if_neg (fun h : y < 0 ∧ hasSide = false => hf h.2),
            if_neg (fun h : y' < 0 ∧ hasSide = false => hf h.2)]
          split_ifs <;> norm_num
    · have h1 := a2 _ (hitsPT_better hb hs0 b1)
      have h2 := b4 _ hbad
      rw [le_antisymm h2 h1] at b2
      exact absurd hbad b2
    · exact absurd hbad (b1 _).2
  · -- the better trade takes its profit
    rw [hy'] at hl'
    have e' := hsgn _ _ _ hl'
    rw [if_pos hy0'] at e'
    rcases end_cases hs htar ht ho with ⟨b1, b2, b3, y, hy, hy0⟩ | ⟨b1, b2, b3, b4, y, hy, hy0⟩ |
      ⟨b1, b2, r, hr, hrt, hret⟩
    · rw [hy] at hl
      refine (hneg _ _ _ hy0 hl).trans ?_
      rw [e']; split_ifs <;> norm_num
    · rw [hy] at hl
      have e1 := hsgn _ _ _ hl
      rw [if_pos hy0] at e1
      have := a3 _ (hitsPT_better hb hs0 b1)
      rw [e', e1]
      have himp : (cancel && expired (some o'.endTime) e.expiry) = true →
          (cancel && expired (some o.endTime) e.expiry) = true := by
        rw [Bool.and_eq_true, Bool.and_eq_true]
        exact fun h => ⟨h.1, hexp this h.2⟩
      split_ifs with q1 q2 q3
      · exact le_refl _
      · norm_num
      · exact absurd (himp q3) q1
      · exact le_refl _
    · obtain ⟨-, -, -, -, -, -, c, c', hc, hc', -⟩ := hb.mem.1 r hr
      rw [hret, hc, Option.map_some] at hl
      by_cases hcan : (cancel && expired (some o'.endTime) e.expiry) = true
      · have hcan' : (cancel && expired (some o.endTime) e.expiry) = true := by
          rw [Bool.and_eq_true] at hcan ⊢
          exact ⟨hcan.1, hexp (b2 ▸ a1.2.1) hcan.2⟩
        rw [hsgn _ _ _ hl, if_pos hcan', e', if_pos hcan]
      · rw [e', if_neg hcan]
        exact hle1 _ _ _ hl
  · -- the better trade expires
    obtain ⟨r, hr, g1, -, -, -, c, c', hc, hc', hcc⟩ := hb.mem.2.1 r' hr'
    rw [hret', hc', Option.map_some] at hl'
    rcases end_cases hs htar ht ho with ⟨b1, b2, b3, y, hy, hy0⟩ | ⟨b1, -⟩ | ⟨b1, b2, r2, hr2, hrt2, hret⟩
    · rw [hy] at hl
      by_cases hcan : (cancel && expired (some o'.endTime) e.expiry) = true
      · rw [hsgn _ _ _ hl', if_pos hcan]
        exact hneg _ _ _ hy0 hl
      · have hcan' : ¬ (cancel && expired (some o.endTime) e.expiry) = true := by
          intro h
          rw [Bool.and_eq_true] at h
          apply hcan
          rw [Bool.and_eq_true]
          exact ⟨h.1, hexp (a2 ▸ b1.2.1) h.2⟩
        refine le_trans (le_of_eq ?_) (hmin _ _ _ hl')
        rw [hsgn _ _ _ hl, if_neg hcan', if_neg hy0.not_gt]
        simp [hy0]
    · exact absurd (hitsPT_better hb hs0 b1) (a1 _).1
    · have hside : side = 1 := by
        rcases hlong with h | ⟨t, h⟩ | ⟨t, h⟩
        · exact h
        · rcases h with h | h
          · exact absurd h (b1 t).1
          · exact absurd h (b1 t).2
        · rcases h with h | h
          · exact absurd h (a1 t).1
          · exact absurd h (a1 t).2
      subst hside
      have : r2 = r := List.inj_on_of_nodup_map (hs.imp fun h => h.ne) hr2 hr (hrt2.trans (g1 ▸ hrt').symm)
      subst this
      rw [hret, hc, Option.map_some] at hl
      have hle : c / s0 - 1 ≤ c' / s0 - 1 := by
        rw [Int.cast_one, one_mul, one_mul] at hcc
        have := div_le_div_of_nonneg_right hcc hs0.le
        linarith
      rw [hsgn _ _ _ hl, hsgn _ _ _ hl', a2, b2]
      by_cases hc : (cancel && expired (some x) e.expiry) = true
      · rw [if_pos hc, if_pos hc]
      · rw [if_neg hc, if_neg hc]
        by_cases h1 : 0 < c / s0 - 1
        · rw [if_pos h1, if_pos (h1.trans_le hle)]
        · rw [if_neg h1]
          by_cases h2 : 0 < c' / s0 - 1
          · rw [if_pos h2]
            split_ifs <;> norm_num
          · rw [if_neg h2]
            by_cases h3 : c' / s0 - 1 < 0 ∧ hasSide = false
            · rw [if_pos h3, if_pos ⟨hle.trans_lt h3.1, h3.2⟩]
            · rw [if_neg h3]
              split_ifs <;> norm_num

/-- A long trade with a profit at the end, and a better table that takes the profit one bar earlier. -/
example : (evalEvent exPrices 1 1 exEvent 3).map Outcome.endTime = .ok 2 ∧
    ∃ prices', BetterTable 1 exPrices prices' ∧ prices' ≠ exPrices := by
  refine ⟨by decide +kernel, exPrices.map fun r => { r with high := r.high.map (· + 5) }, ?_, by decide +kernel⟩
  have : ∀ l : List (Row ℚ), (∀ r ∈ l, r.high.isSome ∧ r.low.isSome ∧ r.close.isSome) →
      BetterTable 1 l (l.map fun r => { r with high := r.high.map (· + 5) }) := by
    intro l hl
    induction l with
    | nil => exact .nil
    | cons r l ih =>
      refine .cons ?_ (ih fun r hr => hl r (List.mem_cons_of_mem _ hr))
      obtain ⟨h1, h2, h3⟩ := hl r List.mem_cons_self
      obtain ⟨h, h1⟩ := Option.isSome_iff_exists.1 h1
      obtain ⟨lo, h2⟩ := Option.isSome_iff_exists.1 h2
      obtain ⟨c, h3⟩ := Option.isSome_iff_exists.1 h3
      exact ⟨rfl, rfl, ⟨h, h + 5, h1, by simp [h1], by push_cast; linarith⟩, ⟨lo, lo, h2, h2, le_refl _⟩,
        ⟨c, c, h3, h3, le_refl _⟩⟩
  exact this _ (by decide +kernel)

end FinML.Labels
