import Verif.Labels.WiderProps

/-! # Triple barriers with missing prices (C357) -/

namespace FinML.Labels

set_option linter.unusedSectionVars false

variable {K : Type} [Field K] [LinearOrder K] [IsStrictOrderedRing K]

/-- C357, the full claim: an event whose opening price is missing gets no label. -/
def NoPriceNoLabel (K : Type) [Field K] [LinearOrder K] [IsStrictOrderedRing K] : Prop :=
  ∀ (prices : List (Row K)) (pt sl : K) (e : Event K) (x : ℤ) (o : Outcome K) (hasSide cancel : Bool), SortedTable prices →
    (∃ r ∈ prices, r.time = e.start ∧ r.op = none) → e.expiry = some x → evalEvent prices pt sl e x = .ok o →
    rowLabel ⟨e.expiry, some o.endTime, o.ret⟩ hasSide cancel = none

/-- C357.  If no barrier is touched, `cancel_expired_event` gives it the label 0. -/
theorem C357_counterexample : ¬ NoPriceNoLabel ℚ := by
  intro h
  have := h [⟨0, none, some 1, some 1, some 1⟩, ⟨1, some 1, some 2, some 1, some 2⟩] 1 1 ⟨0, some 1, some (1 / 10), some 1⟩ 1
    ⟨none, none, 1, none⟩ true true (by unfold SortedTable; decide) (by simp) rfl (by decide +kernel)
  revert this
  decide +kernel

/-- C357.  Without an opening price no barrier is touched, and the return is NaN. -/
theorem C357_no_start (prices : List (Row K)) (hs : SortedTable prices) (pt sl : K) (e : Event K) (x side : ℤ)
    (hstart : ∃ r ∈ prices, r.time = e.start ∧ r.op = none) (hside : e.side = some side) (hok : side = 1 ∨ side = -1)
    (hx : ∃ r ∈ prices, r.time = x) : evalEvent prices pt sl e x = .ok ⟨none, none, x, none⟩ := by
  obtain ⟨r, hr, h1, h2⟩ := hstart
  obtain ⟨c, hc, rfl⟩ := hx
  have hp : ∀ l : List (Row K), ((ptPath l none side).filter fun p => gtNan p.2 (ptLimit pt e)) = [] := by
    intro l
    rw [List.filter_eq_nil_iff]
    intro p hp
    obtain ⟨q, -, rfl⟩ := List.mem_map.1 hp
    simp [retOf, negNan, gtNan]
  have hl : ∀ l : List (Row K), ((slPath l none side).filter fun p => ltNan p.2 (slLimit sl e)) = [] := by
    intro l
    rw [List.filter_eq_nil_iff]
    intro p hp
    obtain ⟨q, -, rfl⟩ := List.mem_map.1 hp
    simp [retOf, negNan, ltNan]
  unfold evalEvent
  rw [← h1, rowAt_ok prices hs r hr, py_bind_ok]
  have hside' : ¬ ¬ (side = -1 ∨ side = 1) := not_not.2 hok.symm
  simp only [hside, py_bind_ok, if_neg hside', h2, reduceCtorEq, if_false, py_pure, hp, hl, List.map_nil, minTime,
    rowAt_ok prices hs c hc, retOf, Option.bind_none]

/-- C357.  Such an event has the label NaN unless expired events are cancelled (missing from the full claim); then it is 0. -/
theorem C357_label_partial (x : ℤ) (hasSide : Bool) :
    rowLabel (⟨some x, some x, none⟩ : Labelled K) hasSide false = none ∧
    rowLabel (⟨some x, some x, none⟩ : Labelled K) hasSide true = some 0 ∧
    rowLabel (⟨none, some x, none⟩ : Labelled K) hasSide true = none := by
  simp [rowLabel, expired, nonPositive, npSign]

/-- A table with more known prices. -/
def FillsRows (fill prices : List (Row K)) : Prop :=
  List.Forall₂ (fun f r => f.time = r.time ∧ (∀ x, r.op = some x → f.op = some x) ∧ (∀ x, r.high = some x → f.high = some x) ∧
    (∀ x, r.low = some x → f.low = some x) ∧ ∀ x, r.close = some x → f.close = some x) fill prices

theorem filled_mem {fill prices : List (Row K)} (h : FillsRows fill prices) (r : Row K) (hr : r ∈ prices) :
    ∃ f ∈ fill, f.time = r.time ∧ (∀ x, r.op = some x → f.op = some x) ∧ (∀ x, r.high = some x → f.high = some x) ∧
      (∀ x, r.low = some x → f.low = some x) ∧ ∀ x, r.close = some x → f.close = some x := by
  induction h with
  | nil => cases hr
  | @cons f q fs qs hf _ ih =>
    rcases List.mem_cons.1 hr with rfl | hr
    · exact ⟨f, by simp, hf⟩
    · obtain ⟨g, hg, hg'⟩ := ih hr
      exact ⟨g, List.mem_cons_of_mem _ hg, hg'⟩

theorem filled_times {fill prices : List (Row K)} (h : FillsRows fill prices) : fill.map Row.time = prices.map Row.time := by
  induction h with
  | nil => rfl
  | cons hf _ ih => rw [List.map_cons, List.map_cons, hf.1, ih]

theorem filled_sorted {fill prices : List (Row K)} (h : FillsRows fill prices) (hs : SortedTable prices) : SortedTable fill := by
  unfold SortedTable at *
  rwa [filled_times h]

theorem filled_tradable {fill prices : List (Row K)} (h : FillsRows fill prices) {e : Event K} {side : ℤ} {s0 : K} {x : ℤ}
    (ht : Tradable prices e side s0 x) : Tradable fill e side s0 x := by
  refine ⟨ht.side_eq, ht.side_ok, ?_, ht.s0_ne, ?_⟩
  · obtain ⟨r, hr, h1, h2⟩ := ht.start
    obtain ⟨f, hf, g1, g2, -⟩ := filled_mem h r hr
    exact ⟨f, hf, g1.trans h1, g2 _ h2⟩
  · obtain ⟨r, hr, h1⟩ := ht.expiry_mem
    obtain ⟨f, hf, g1, -⟩ := filled_mem h r hr
    exact ⟨f, hf, g1.trans h1⟩

theorem filled_hitsPT {fill prices : List (Row K)} (h : FillsRows fill prices) {m : K} {e : Event K} {side : ℤ} {s0 : K} {x t : ℤ}
    (hh : HitsPT prices m e side s0 x t) : HitsPT fill m e side s0 x t := by
  obtain ⟨h1, h2, h3, r, hr, h4, p, y, h5, h6, h7⟩ := hh
  obtain ⟨f, hf, g1, -, g2, g3, -⟩ := filled_mem h r hr
  refine ⟨h1, h2, h3, f, hf, g1.trans h4, p, y, ?_, h6, h7⟩
  unfold bestPrice at h5 ⊢
  split_ifs at h5 ⊢
  exacts [g2 _ h5, g3 _ h5]

theorem filled_worst {r f : Row K} {side : ℤ} {p : K} (g2 : ∀ x, r.high = some x → f.high = some x)
    (g3 : ∀ x, r.low = some x → f.low = some x) (h : worstPrice side r = some p) : worstPrice side f = some p := by
  unfold worstPrice at h ⊢
  split_ifs at h ⊢
  exacts [g3 _ h, g2 _ h]

theorem filled_hitsSL {fill prices : List (Row K)} (h : FillsRows fill prices) {m : K} {e : Event K} {side : ℤ} {s0 : K} {x t : ℤ}
    (hh : HitsSL prices m e side s0 x t) : HitsSL fill m e side s0 x t := by
  obtain ⟨h1, h2, h3, r, hr, h4, p, y, h5, h6, h7⟩ := hh
  obtain ⟨f, hf, g1, -, g2, g3, -⟩ := filled_mem h r hr
  exact ⟨h1, h2, h3, f, hf, g1.trans h4, p, y, filled_worst g2 g3 h5, h6, h7⟩

/-- C357.  Missing prices never end an event too early: whatever the prices in the gaps, it ends at the same time or before, and if
it was stopped out at a known price and still ends then, it has the same return. -/
theorem C357_late (fill prices : List (Row K)) (hf : FillsRows fill prices) (hs : SortedTable prices) (pt sl : K) (e : Event K)
    (side : ℤ) (s0 : K) (x : ℤ) (ht : Tradable prices e side s0 x) :
    ∃ o o', evalEvent prices pt sl e x = .ok o ∧ evalEvent fill pt sl e x = .ok o' ∧ o'.endTime ≤ o.endTime ∧
      (HitsSL prices sl e side s0 x o.endTime → o'.endTime = o.endTime → o'.ret = o.ret) := by
  obtain ⟨o, h1, h2, h2', -⟩ := evalEvent_spec prices pt sl e side s0 x hs ht
  obtain ⟨o', h3, h4, h4', -⟩ := evalEvent_spec fill pt sl e side s0 x (filled_sorted hf hs) (filled_tradable hf ht)
  refine ⟨o, o', h1, h3, ?_, ?_⟩
  · by_cases hh : ∃ t, HitsPT prices pt e side s0 x t ∨ HitsSL prices sl e side s0 x t
    · obtain ⟨t, hhit⟩ := hh
      have hit : HitsPT fill pt e side s0 x o.endTime ∨ HitsSL fill sl e side s0 x o.endTime := by
        rcases (h2.end_hit t hhit).1 with h | h
        · exact .inl (filled_hitsPT hf h)
        · exact .inr (filled_hitsSL hf h)
      exact (h4.end_hit _ hit).2 hit
    · push Not at hh
      rw [h2.end_expiry hh]
      exact end_le h4
  · intro hsl he
    obtain ⟨r, hr, hrt, p, hp, hret⟩ := h2' hsl
    obtain ⟨f, hfm, hft, q, hq, hret'⟩ := h4' (he ▸ filled_hitsSL hf hsl)
    obtain ⟨g, hg, g1, -, g2, g3, -⟩ := filled_mem hf r hr
    have hgf : some g = some f := by
      rw [← find_time fill (filled_sorted hf hs) g hg, ← find_time fill (filled_sorted hf hs) f hfm, g1, hrt, hft, he]
    cases hgf
    have := filled_worst g2 g3 hp
    rw [this] at hq
    cases hq
    rw [hret, hret']

/-- Bars with a jump in the second one, and the same with the high of that bar missing. -/
def jumpBars (h : Option ℚ) : List (Row ℚ) :=
  [⟨0, some 10, some 10, some 10, some 10⟩, ⟨1, some 10, h, some 10, some 10⟩, ⟨2, some 10, some 10, some 9, some 9⟩]

example : FillsRows (jumpBars (some 12)) (jumpBars none) ∧
    evalEvent (jumpBars (some 12)) 1 1 ⟨0, some 2, some (1 / 20), some 1⟩ 2 = .ok ⟨some 1, some 2, 1, some (1 / 5)⟩ ∧
    evalEvent (jumpBars none) 1 1 ⟨0, some 2, some (1 / 20), some 1⟩ 2 = .ok ⟨none, some 2, 2, some (-1 / 10)⟩ := by
  refine ⟨?_, by decide +kernel, by decide +kernel⟩
  simp [FillsRows, jumpBars]

end FinML.Labels
