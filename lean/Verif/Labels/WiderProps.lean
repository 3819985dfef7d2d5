import Verif.Labels.Props

/-! # Wider barriers and later expiries (C228) -/

namespace FinML.Labels

set_option linter.unusedSectionVars false

variable {K : Type} [Field K] [LinearOrder K] [IsStrictOrderedRing K]

/-- The multiplier `m'` makes a barrier at least as wide as `m`; 0 stands for no barrier. -/
def Wider (m m' : K) : Prop := m' = 0 ∨ 0 < m ∧ m ≤ m'

theorem hitsPT_wider {prices : List (Row K)} {m m' : K} {e : Event K} {side : ℤ} {s0 : K} {x x' t : ℤ}
    (hw : Wider m m') (htar : ∀ y, e.target = some y → 0 ≤ y) (hx : t ≤ x)
    (h : HitsPT prices m' e side s0 x' t) : HitsPT prices m e side s0 x t := by
  obtain ⟨h1, -, h3, r, hr, h4, p, y, h5, h6, h7⟩ := h
  rcases hw with rfl | ⟨h8, h9⟩
  · exact absurd h3 (lt_irrefl _)
  · exact ⟨h1, hx, h8, r, hr, h4, p, y, h5, h6, lt_of_le_of_lt (mul_le_mul_of_nonneg_right h9 (htar y h6)) h7⟩

theorem hitsSL_wider {prices : List (Row K)} {m m' : K} {e : Event K} {side : ℤ} {s0 : K} {x x' t : ℤ}
    (hw : Wider m m') (htar : ∀ y, e.target = some y → 0 ≤ y) (hx : t ≤ x)
    (h : HitsSL prices m' e side s0 x' t) : HitsSL prices m e side s0 x t := by
  obtain ⟨h1, -, h3, r, hr, h4, p, y, h5, h6, h7⟩ := h
  rcases hw with rfl | ⟨h8, h9⟩
  · exact absurd h3 (lt_irrefl _)
  · have := mul_le_mul_of_nonneg_right h9 (htar y h6)
    exact ⟨h1, hx, h8, r, hr, h4, p, y, h5, h6, by linarith⟩

theorem hitsPT_later {prices : List (Row K)} {m : K} {e : Event K} {side : ℤ} {s0 : K} {x x' t : ℤ}
    (hx : x ≤ x') (h : HitsPT prices m e side s0 x t) : HitsPT prices m e side s0 x' t :=
  ⟨h.1, h.2.1.trans hx, h.2.2⟩

theorem hitsSL_later {prices : List (Row K)} {m : K} {e : Event K} {side : ℤ} {s0 : K} {x x' t : ℤ}
    (hx : x ≤ x') (h : HitsSL prices m e side s0 x t) : HitsSL prices m e side s0 x' t :=
  ⟨h.1, h.2.1.trans hx, h.2.2⟩

theorem end_le {prices : List (Row K)} {pt sl : K} {e : Event K} {side : ℤ} {s0 : K} {x : ℤ} {o : Outcome K}
    (h : EndsAtFirstBarrier prices pt sl e side s0 x o) : o.endTime ≤ x := by
  by_cases hh : ∃ t, HitsPT prices pt e side s0 x t ∨ HitsSL prices sl e side s0 x t
  · obtain ⟨t, ht⟩ := hh
    rcases (h.end_hit t ht).1 with h1 | h1
    · exact h1.2.1
    · exact h1.2.1
  · push Not at hh
    exact (h.end_expiry hh).le

/-- C228.  With wider barriers (or none) and a later expiry an event ends at the same time or later. -/
theorem C228_wider (prices : List (Row K)) (hs : SortedTable prices) (pt sl pt' sl' : K) (hpt : Wider pt pt')
    (hsl : Wider sl sl') (e : Event K) (htar : ∀ y, e.target = some y → 0 ≤ y) (side : ℤ) (s0 : K) (x x' : ℤ)
    (hx : x ≤ x') (ht : Tradable prices e side s0 x) (ht' : Tradable prices e side s0 x') :
    ∃ o o', evalEvent prices pt sl e x = .ok o ∧ evalEvent prices pt' sl' e x' = .ok o' ∧
      o.endTime ≤ o'.endTime := by
  obtain ⟨o, h1, h2, -⟩ := evalEvent_spec prices pt sl e side s0 x hs ht
  obtain ⟨o', h3, h4, -⟩ := evalEvent_spec prices pt' sl' e side s0 x' hs ht'
  refine ⟨o, o', h1, h3, ?_⟩
  by_cases hh : ∃ t, HitsPT prices pt' e side s0 x' t ∨ HitsSL prices sl' e side s0 x' t
  · obtain ⟨t, hhit⟩ := hh
    by_contra hlt
    have hle : o'.endTime ≤ x := (not_le.1 hlt).le.trans (end_le h2)
    have hit : HitsPT prices pt e side s0 x o'.endTime ∨ HitsSL prices sl e side s0 x o'.endTime := by
      rcases (h4.end_hit t hhit).1 with h | h
      · exact .inl (hitsPT_wider hpt htar hle h)
      · exact .inr (hitsSL_wider hsl htar hle h)
    exact hlt ((h2.end_hit _ hit).2 hit)
  · push Not at hh
    rw [h4.end_expiry hh]
    exact (end_le h2).trans hx

/-- C228.  An event that took its profit does the same, with the same return, if only the stop loss is
wider or the expiry later. -/
theorem C228_profit (prices : List (Row K)) (hs : SortedTable prices) (pt sl sl' : K) (hsl : Wider sl sl')
    (e : Event K) (htar : ∀ y, e.target = some y → 0 ≤ y) (side : ℤ) (s0 : K) (x x' : ℤ) (hx : x ≤ x')
    (ht : Tradable prices e side s0 x) (ht' : Tradable prices e side s0 x') (o : Outcome K)
    (ho : evalEvent prices pt sl e x = .ok o) (hpt : HitsPT prices pt e side s0 x o.endTime)
    (hns : ¬ HitsSL prices sl e side s0 x o.endTime) :
    ∃ o', evalEvent prices pt sl' e x' = .ok o' ∧ o'.endTime = o.endTime ∧ o'.ret = o.ret := by
  obtain ⟨o0, h1, h2, -⟩ := evalEvent_spec prices pt sl e side s0 x hs ht
  rw [ho] at h1
  cases h1
  obtain ⟨o', h3, h4, -⟩ := evalEvent_spec prices pt sl' e side s0 x' hs ht'
  have hend : o'.endTime = o.endTime := by
    have hhit' : HitsPT prices pt e side s0 x' o.endTime ∨ HitsSL prices sl' e side s0 x' o.endTime :=
      .inl (hitsPT_later hx hpt)
    have hle := (h4.end_hit _ hhit').2 hhit'
    refine le_antisymm hle ?_
    have hle' : o'.endTime ≤ x := hle.trans hpt.2.1
    rcases (h4.end_hit _ hhit').1 with h | h
    · exact (h2.end_hit _ (.inl hpt)).2 (.inl ⟨h.1, hle', h.2.2⟩)
    · exact (h2.end_hit _ (.inl hpt)).2 (.inr (hitsSL_wider hsl htar hle' h))
  refine ⟨o', h3, hend, ?_⟩
  obtain ⟨a, ha, -, ha2, -⟩ := C23_return_partial prices pt sl e side s0 x hs ht
  obtain ⟨b, hb, -, hb2, -⟩ := C23_return_partial prices pt sl' e side s0 x' hs ht'
  rw [ho] at ha
  rw [h3] at hb
  cases ha
  cases hb
  obtain ⟨r, hr, hrt, p, y, hp, -, hret, -⟩ := ha2 hns hpt
  obtain ⟨r', hr', hrt', p', y', hp', -, hret', -⟩ := hb2
    (by rw [hend]; exact fun h => hns (hitsSL_wider hsl htar hpt.2.1 h)) (by rw [hend]; exact hitsPT_later hx hpt)
  have hrr : r' = r := by
    obtain ⟨i, hi, rfl⟩ := List.mem_iff_getElem.1 hr
    obtain ⟨j, hj, rfl⟩ := List.mem_iff_getElem.1 hr'
    have hnd : (prices.map Row.time).Nodup := hs.imp fun h => h.ne
    have : j = i := by
      have := (List.Nodup.getElem_inj_iff hnd (i := j) (hi := by simpa using hj) (j := i)
        (hj := by simpa using hi)).1 (by rw [List.getElem_map, List.getElem_map, hrt', hrt, hend])
      exact this
    subst this
    rfl
  rw [hrr, hp] at hp'
  cases hp'
  rw [hret, hret']

/-- The long trade of `exPrices` with barriers of one and of two targets: it ends at time 2 with a profit,
and at time 3 with a loss. -/
example : (evalEvent exPrices 1 1 exEvent 3).map Outcome.endTime = .ok 2 ∧
    (evalEvent exPrices 2 2 exEvent 3).map Outcome.endTime = .ok 3 := by
  decide +kernel

end FinML.Labels
