import Verif.Labels.Props

/-! # Long and short labels of one event under symmetric barriers (C231) -/

namespace FinML.Labels

set_option linter.unusedSectionVars false

variable {K : Type} [Field K] [LinearOrder K] [IsStrictOrderedRing K]

/-- The event traded on the given side. -/
def Event.onSide (e : Event K) (side : ℤ) : Event K := { e with side := some side }

/-- The label of one outcome. -/
def labelOf (expiry : ℤ) (o : Outcome K) (hasSide cancel : Bool) : List (Option K) :=
  (getEventLabels [⟨some expiry, some o.endTime, o.ret⟩] hasSide cancel).map Prod.snd

/-- C231, full claim: with equal multipliers an event ends at the same time on either side, and a short trade
is labelled a success exactly if the event without side is labelled -1. -/
def ShortMatchesSign : Prop := ∀ (prices : List (Row ℚ)) (m : ℚ) (e : Event ℚ) (s0 : ℚ) (x : ℤ)
  (o o' : Outcome ℚ), SortedTable prices → Tradable prices (e.onSide 1) 1 s0 x →
  evalEvent prices m m (e.onSide 1) x = .ok o → evalEvent prices m m (e.onSide (-1)) x = .ok o' →
  o'.endTime = o.endTime ∧
  (labelOf x o' true false = [some 1] ↔ labelOf x o false false = [some (-1)])

/-- Prices fall from 10 to 8 and no barrier is near. -/
def fallPrices : List (Row ℚ) :=
  [⟨0, some 10, some 10, some 9, some 9⟩, ⟨1, some 9, some 9, some 8, some 8⟩]

/-- Prices jump to 12 and to 8 within one bar. -/
def jumpPrices : List (Row ℚ) :=
  [⟨0, some 10, some 10, some 10, some 10⟩, ⟨1, some 10, some 12, some 8, some 10⟩]

/-- C231, counterexamples: a fall that reaches no barrier is labelled -1, and the short trade a failure; so is
the short trade when both barriers are crossed on one bar. -/
theorem C231_short_counterexample : ¬ ShortMatchesSign ∧
    ∃ o o', evalEvent jumpPrices 1 1 (Event.onSide ⟨0, some 1, some (1 / 10), none⟩ 1) 1 = .ok o ∧
      evalEvent jumpPrices 1 1 (Event.onSide ⟨0, some 1, some (1 / 10), none⟩ (-1)) 1 = .ok o' ∧
      labelOf 1 o false false = [some (-1)] ∧ labelOf 1 o' true false = [some 0] := by
  constructor
  · intro h
    have h1 := (h fallPrices 1 ⟨0, some 1, some 1, none⟩ 10 1 ⟨none, none, 1, some (8 / 10 - 1)⟩
      ⟨none, none, 1, some (8 / 10 - 1)⟩ (by unfold SortedTable; decide)
      ⟨rfl, Or.inl rfl, ⟨_, List.mem_cons_self, rfl, rfl⟩, by norm_num,
        ⟨_, List.mem_cons_of_mem _ List.mem_cons_self, rfl⟩⟩ (by decide +kernel) (by decide +kernel)).2.2
      (by decide +kernel)
    revert h1
    decide +kernel
  · exact ⟨⟨some 1, some 1, 1, some (8 / 10 - 1)⟩, ⟨some 1, some 1, 1, some (-(12 / 10 - 1))⟩,
      by decide +kernel, by decide +kernel, by decide +kernel, by decide +kernel⟩

theorem hits_mirror (prices : List (Row K)) (m : K) (e : Event K) (s0 : K) (x t : ℤ) :
    (HitsPT prices m (e.onSide (-1)) (-1) s0 x t ↔ HitsSL prices m (e.onSide 1) 1 s0 x t) ∧
    (HitsSL prices m (e.onSide (-1)) (-1) s0 x t ↔ HitsPT prices m (e.onSide 1) 1 s0 x t) := by
  have h1 : ∀ p y : K, m * y < tradeRet (-1) s0 p ↔ tradeRet 1 s0 p < -(m * y) := by
    intro p y
    unfold tradeRet
    push_cast
    constructor <;> intro h <;> linarith
  have h2 : ∀ p y : K, tradeRet (-1) s0 p < -(m * y) ↔ m * y < tradeRet 1 s0 p := by
    intro p y
    unfold tradeRet
    push_cast
    constructor <;> intro h <;> linarith
  have hb : ∀ r : Row K, bestPrice (-1) r = worstPrice 1 r ∧ worstPrice (-1) r = bestPrice 1 r := by
    intro r
    simp [bestPrice, worstPrice]
  unfold HitsPT HitsSL
  simp only [h1, h2, (hb _).1, (hb _).2, Event.onSide, and_self]

theorem ext_isLeast {a b : Option ℤ} {P Q : ℤ → Prop} (hPQ : ∀ t, P t ↔ Q t)
    (ha : ∀ t, a = some t ↔ IsLeast {t | P t} t) (hb : ∀ t, b = some t ↔ IsLeast {t | Q t} t) : a = b := by
  have : {t | P t} = {t | Q t} := Set.ext hPQ
  rw [this] at ha
  apply Option.ext
  intro t
  rw [ha t, hb t]

theorem row_unique {prices : List (Row K)} (hs : SortedTable prices) {r r' : Row K} (hr : r ∈ prices)
    (hr' : r' ∈ prices) (h : r.time = r'.time) : r = r' := by
  obtain ⟨i, hi, rfl⟩ := List.mem_iff_getElem.1 hr
  obtain ⟨j, hj, rfl⟩ := List.mem_iff_getElem.1 hr'
  have hnd : (prices.map Row.time).Nodup := hs.imp fun h => h.ne
  have : i = j := (List.Nodup.getElem_inj_iff hnd (i := i) (hi := by simpa using hi) (j := j)
      (hj := by simpa using hj)).1 (by rw [List.getElem_map, List.getElem_map, h])
  subst this
  rfl

theorem Tradable.mirror {prices : List (Row K)} {e : Event K} {s0 : K} {x : ℤ}
    (ht : Tradable prices (e.onSide 1) 1 s0 x) : Tradable prices (e.onSide (-1)) (-1) s0 x :=
  ⟨rfl, Or.inr rfl, ht.start, ht.s0_ne, ht.expiry_mem⟩

/-- C231, what holds: with equal multipliers the two sides end at the same time with the barriers exchanged.
If the last bar crosses one barrier only, the returns are opposite, so that the short label is 1 exactly if
the label without side is -1; with non-negative targets one of the two trades is a success.  If no barrier is
crossed both report the same return, if the last bar crosses both barriers both report a loss (missing:
opposite returns in these cases). -/
theorem C231_short_partial (prices : List (Row K)) (hs : SortedTable prices) (m : K) (e : Event K)
    (htar : ∀ y, e.target = some y → 0 ≤ y) (s0 : K) (x : ℤ) (ht : Tradable prices (e.onSide 1) 1 s0 x) :
    ∃ o o', evalEvent prices m m (e.onSide 1) x = .ok o ∧ evalEvent prices m m (e.onSide (-1)) x = .ok o' ∧
      o'.endTime = o.endTime ∧ o'.ptTime = o.slTime ∧ o'.slTime = o.ptTime ∧
      (o.ptTime = none → o.slTime = none → o'.ret = o.ret) ∧
      ((∃ y, o.ptTime = some y ∨ o.slTime = some y) → o.ptTime ≠ o.slTime →
        ∃ v, v ≠ 0 ∧ o.ret = some v ∧ o'.ret = some (-v) ∧
          (labelOf x o' true false = [some 1] ↔ labelOf x o false false = [some (-1)])) ∧
      (∀ y, o.ptTime = some y → o.slTime = some y →
        ∃ v v', v < 0 ∧ v' < 0 ∧ o.ret = some v ∧ o'.ret = some v') := by
  obtain ⟨o, ho, hB, hsl, hpt, hex⟩ := evalEvent_spec prices m m (e.onSide 1) 1 s0 x hs ht
  obtain ⟨o', ho', hB', hsl', hpt', hex'⟩ := evalEvent_spec prices m m (e.onSide (-1)) (-1) s0 x hs ht.mirror
  have hmir := fun t => hits_mirror prices m e s0 x t
  have hp : o'.ptTime = o.slTime := ext_isLeast (fun t => (hmir t).1) hB'.pt_first hB.sl_first
  have hq : o'.slTime = o.ptTime := ext_isLeast (fun t => (hmir t).2) hB'.sl_first hB.pt_first
  have hiff : ∀ t, (HitsPT prices m (e.onSide (-1)) (-1) s0 x t ∨ HitsSL prices m (e.onSide (-1)) (-1) s0 x t) ↔
      (HitsPT prices m (e.onSide 1) 1 s0 x t ∨ HitsSL prices m (e.onSide 1) 1 s0 x t) := by
    intro t
    rw [(hmir t).1, (hmir t).2, or_comm]
  have hend : o'.endTime = o.endTime := by
    by_cases hany : ∃ t, HitsPT prices m (e.onSide 1) 1 s0 x t ∨ HitsSL prices m (e.onSide 1) 1 s0 x t
    · obtain ⟨t, h⟩ := hany
      have h1 := hB.end_hit t h
      have h2 := hB'.end_hit t ((hiff t).2 h)
      have : {t | HitsPT prices m (e.onSide (-1)) (-1) s0 x t ∨ HitsSL prices m (e.onSide (-1)) (-1) s0 x t} =
        {t | HitsPT prices m (e.onSide 1) 1 s0 x t ∨ HitsSL prices m (e.onSide 1) 1 s0 x t} := Set.ext hiff
      rw [this] at h2
      exact h2.unique h1
    · have hno : ∀ t, ¬ (HitsPT prices m (e.onSide 1) 1 s0 x t ∨ HitsSL prices m (e.onSide 1) 1 s0 x t) :=
        fun t h => hany ⟨t, h⟩
      rw [hB.end_expiry fun t => not_or.1 (hno t), hB'.end_expiry fun t => not_or.1 fun h => hno t ((hiff t).1 h)]
  -- the time of the end is that of the earlier barrier
  have htimes : ∀ y, (o.ptTime = some y ∨ o.slTime = some y) →
      (HitsPT prices m (e.onSide 1) 1 s0 x o.endTime ∨ HitsSL prices m (e.onSide 1) 1 s0 x o.endTime) ∧
      (HitsPT prices m (e.onSide 1) 1 s0 x o.endTime → o.ptTime = some o.endTime) ∧
      (HitsSL prices m (e.onSide 1) 1 s0 x o.endTime → o.slTime = some o.endTime) := by
    intro y hy
    have hhit : HitsPT prices m (e.onSide 1) 1 s0 x y ∨ HitsSL prices m (e.onSide 1) 1 s0 x y := by
      rcases hy with hy | hy
      · exact Or.inl ((hB.pt_first y).1 hy).1
      · exact Or.inr ((hB.sl_first y).1 hy).1
    have hl := hB.end_hit y hhit
    refine ⟨hl.1, ?_, ?_⟩
    · intro h
      exact (hB.pt_first _).2 ⟨h, fun t ht => hl.2 (Or.inl ht)⟩
    · intro h
      exact (hB.sl_first _).2 ⟨h, fun t ht => hl.2 (Or.inr ht)⟩
  have hneg : ∀ t, HitsSL prices m (e.onSide 1) 1 s0 x t → ∀ r ∈ prices, r.time = t → ∀ p,
      worstPrice 1 r = some p → tradeRet 1 s0 p < 0 := by
    rintro t ⟨-, -, h3, r', hr', hrt', p', y, hp', hy, hlt⟩ r hr hrt p hpr
    obtain rfl := row_unique hs hr hr' (hrt.trans hrt'.symm)
    rw [hpr] at hp'
    obtain rfl := Option.some.inj hp'
    have := mul_nonneg h3.le (htar y hy)
    linarith
  have hposr : ∀ t, HitsPT prices m (e.onSide 1) 1 s0 x t → ∀ r ∈ prices, r.time = t → ∀ p,
      bestPrice 1 r = some p → 0 < tradeRet 1 s0 p := by
    rintro t ⟨-, -, h3, r', hr', hrt', p', y, hp', hy, hlt⟩ r hr hrt p hpr
    obtain rfl := row_unique hs hr hr' (hrt.trans hrt'.symm)
    rw [hpr] at hp'
    obtain rfl := Option.some.inj hp'
    have := mul_nonneg h3.le (htar y hy)
    linarith
  have hflip : ∀ p : K, tradeRet (-1) s0 p = - tradeRet 1 s0 p := by
    intro p; unfold tradeRet; push_cast; ring
  have hlab : ∀ v : K, o.ret = some v → o'.ret = some (-v) → v ≠ 0 →
      (labelOf x o' true false = [some 1] ↔ labelOf x o false false = [some (-1)]) := by
    intro v h1 h2 hv
    unfold labelOf getEventLabels rowLabel
    rw [h1, h2]
    simp only [List.filter_cons, Option.isSome_some, if_true, List.filter_nil, List.map_cons, List.map_nil,
      Bool.false_and, Bool.true_and, nonPositive, npSign, Option.map_some, decide_eq_true_eq]
    rcases lt_or_gt_of_ne hv with h | h
    · simp [h, not_lt.2 h.le]
    · simp [h, h.le]
      norm_num
  refine ⟨o, o', ho, ho', hend, hp, hq, ?_, ?_, ?_⟩
  · intro h1 h2
    have hno : ∀ t, ¬ HitsPT prices m (e.onSide 1) 1 s0 x t ∧ ¬ HitsSL prices m (e.onSide 1) 1 s0 x t :=
      fun t => ⟨hB.pt_none.1 h1 t, hB.sl_none.1 h2 t⟩
    obtain ⟨r, hr, hrt, hret⟩ := hex hno
    obtain ⟨r', hr', hrt', hret'⟩ := hex' fun t => ⟨fun h => (hno t).2 ((hmir t).1.1 h),
      fun h => (hno t).1 ((hmir t).2.1 h)⟩
    obtain rfl := row_unique hs hr hr' (hrt.trans hrt'.symm)
    rw [hret, hret']
  · rintro ⟨y, hy⟩ hne
    obtain ⟨hor, hP, hS⟩ := htimes y hy
    rcases hor with h | h
    · have hns : ¬ HitsSL prices m (e.onSide 1) 1 s0 x o.endTime := fun hc => hne ((hP h).trans (hS hc).symm)
      obtain ⟨r, hr, hrt, p, hbp, hret⟩ := hpt hns h
      obtain ⟨r', hr', hrt', p', hbp', hret'⟩ := hsl' (by rw [hend]; exact (hmir _).2.2 h)
      rw [hend] at hrt'
      obtain rfl := row_unique hs hr hr' (hrt.trans hrt'.symm)
      have hpp : p' = p := by
        simp only [worstPrice, bestPrice, if_true, show ((-1 : ℤ) = 1) = False by simp, if_false] at hbp hbp'
        rw [hbp] at hbp'
        exact (Option.some.inj hbp').symm
      rw [hpp, hflip] at hret'
      have hv := hposr _ h r hr hrt p hbp
      exact ⟨_, hv.ne', hret, hret', hlab _ hret hret' hv.ne'⟩
    · have hns : ¬ HitsPT prices m (e.onSide 1) 1 s0 x o.endTime := fun hc => hne ((hP hc).trans (hS h).symm)
      obtain ⟨r, hr, hrt, p, hbp, hret⟩ := hsl h
      obtain ⟨r', hr', hrt', p', hbp', hret'⟩ := hpt' (by rw [hend]; exact fun hc => hns ((hmir _).2.1 hc))
        (by rw [hend]; exact (hmir _).1.2 h)
      rw [hend] at hrt'
      obtain rfl := row_unique hs hr hr' (hrt.trans hrt'.symm)
      have hpp : p' = p := by
        simp only [worstPrice, bestPrice, if_true, show ((-1 : ℤ) = 1) = False by simp, if_false] at hbp hbp'
        rw [hbp] at hbp'
        exact (Option.some.inj hbp').symm
      rw [hpp, hflip] at hret'
      have hv := hneg _ h r hr hrt p hbp
      exact ⟨_, hv.ne, hret, hret', hlab _ hret hret' hv.ne⟩
  · intro y hy1 hy2
    obtain ⟨hor, hP, hS⟩ := htimes y (Or.inl hy1)
    have hy : o.endTime = y := by
      rcases hor with h | h
      · have := hP h; rw [hy1] at this; exact (Option.some.inj this).symm
      · have := hS h; rw [hy2] at this; exact (Option.some.inj this).symm
    have h1 := ((hB.pt_first y).1 hy1).1
    have h2 := ((hB.sl_first y).1 hy2).1
    change HitsPT _ _ _ _ _ _ _ at h1
    change HitsSL _ _ _ _ _ _ _ at h2
    rw [← hy] at h1 h2
    obtain ⟨r, hr, hrt, p, hbp, hret⟩ := hsl h2
    obtain ⟨r', hr', hrt', p', hbp', hret'⟩ := hsl' (by rw [hend]; exact (hmir _).2.2 h1)
    rw [hend] at hrt'
    have hv := hneg _ h2 r hr hrt p hbp
    have hbp'' : bestPrice 1 r' = some p' := by
      simpa [worstPrice, bestPrice] using hbp'
    have hv' := hposr _ h1 r' hr' hrt' p' hbp''
    rw [hflip] at hret'
    exact ⟨_, _, hv, by linarith, hret, hret'⟩

/-- The trades of `exPrices` with barriers of one target: both end at time 2, long with a profit. -/
example : (evalEvent exPrices 1 1 (exEvent.onSide 1) 3).map (fun o => (o.endTime, o.ret)) =
      .ok (2, some (1 / 5)) ∧
    (evalEvent exPrices 1 1 (exEvent.onSide (-1)) 3).map (fun o => (o.endTime, o.ret)) =
      .ok (2, some (-(1 / 5))) := by
  decide +kernel

end FinML.Labels
