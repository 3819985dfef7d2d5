import Verif.Labels.Lemmas
import Verif.Py.GroupBy

/-! # Lemmas about the filled price table and the event table -/

set_option linter.unusedSectionVars false

namespace FinML.Labels

variable {K : Type} [Field K] [LinearOrder K] [IsStrictOrderedRing K]

theorem bfill_time (prices : List (Row K)) (t : ℤ) : (bfill prices t).time = t := by
  unfold bfill
  cases prices.find? fun r => t ≤ r.time <;> rfl

theorem priceIndices_lt (prices : List (Row K)) (starts : List ℤ) (ex : Series (Option ℤ)) :
    (priceIndices prices starts ex).Pairwise (· < ·) := groupKeys_lt _

theorem mem_priceIndices (prices : List (Row K)) (starts : List ℤ) (ex : Series (Option ℤ)) (t : ℤ) :
    t ∈ priceIndices prices starts ex ↔
      t ∈ prices.map Row.time ∨ t ∈ starts ∨ ∃ s, (s, some t) ∈ ex := by
  have := mem_groupKeys (prices.map Row.time ++ starts ++ ex.filterMap Prod.snd) t
  unfold priceIndices
  unfold groupKeys at this
  rw [this, List.mem_append, List.mem_append, List.mem_filterMap, or_assoc]
  simp only [Prod.exists, exists_eq_right]

theorem map_bfill_time (prices : List (Row K)) (ts : List ℤ) :
    (ts.map (bfill prices)).map Row.time = ts := by
  rw [List.map_map]
  conv_rhs => rw [← List.map_id ts]
  apply List.map_congr_left
  intro t _
  exact bfill_time prices t

theorem find_first (prices : List (Row K)) (hs : SortedTable prices) (t : ℤ) (q : Row K)
    (h : prices.find? (fun r => t ≤ r.time) = some q) :
    q ∈ prices ∧ t ≤ q.time ∧ ∀ q' ∈ prices, t ≤ q'.time → q.time ≤ q'.time := by
  induction prices with
  | nil => simp at h
  | cons a l ih =>
    unfold SortedTable at hs
    rw [List.map_cons, List.pairwise_cons] at hs
    by_cases ha : t ≤ a.time
    · rw [List.find?_cons_of_pos (by simpa using ha)] at h
      cases h
      refine ⟨by simp, ha, ?_⟩
      intro q' hq' _
      rcases List.mem_cons.1 hq' with rfl | hm
      · exact le_refl _
      · exact (hs.1 _ (List.mem_map.2 ⟨q', hm, rfl⟩)).le
    · rw [List.find?_cons_of_neg (by simpa using ha)] at h
      obtain ⟨h1, h2, h3⟩ := ih hs.2 h
      refine ⟨by simp [h1], h2, ?_⟩
      intro q' hq' hle
      rcases List.mem_cons.1 hq' with rfl | hm
      · exact absurd hle ha
      · exact h3 q' hm hle

theorem filled (prices : List (Row K)) (hs : SortedTable prices) (ts : List ℤ)
    (ht : ts.Pairwise (· < ·)) : IsFilled prices (ts.map (bfill prices)) ts := by
  refine ⟨?_, ?_, ?_⟩
  · unfold SortedTable; rw [map_bfill_time]; exact ht
  · intro t
    constructor
    · rintro ⟨r, hr, rfl⟩
      obtain ⟨u, hu, rfl⟩ := List.mem_map.1 hr
      rw [bfill_time]; exact hu
    · intro h
      exact ⟨_, List.mem_map.2 ⟨t, h, rfl⟩, bfill_time prices t⟩
  · intro r hr
    obtain ⟨t, ht', rfl⟩ := List.mem_map.1 hr
    unfold bfill
    cases h : prices.find? fun r => t ≤ r.time with
    | none =>
      right
      rw [List.find?_eq_none] at h
      refine ⟨fun q hq => ?_, rfl, rfl, rfl, rfl⟩
      have := h q hq
      simpa using this
    | some q =>
      left
      obtain ⟨h1, h2, h3⟩ := find_first prices hs t q h
      exact ⟨q, h1, h2, h3, rfl, rfl, rfl, rfl⟩

/-- The table of events built by `getEventReturns`. -/
def mkEvents (targets2 : Series (Option K)) (expiries1 : Series (Option ℤ)) (sides1 : Series ℤ) :
    List (Event K) :=
  ((expiries1.map Prod.fst) ++
    ((targets2.map Prod.fst).filter fun t => ¬ t ∈ expiries1.map Prod.fst)).map fun t =>
    { start := t
      expiry := ((expiries1.find? fun p => p.1 = t).bind Prod.snd)
      target := ((targets2.find? fun p => p.1 = t).bind Prod.snd)
      side := ((sides1.find? fun p => p.1 = t).map Prod.snd) }

/-- Lookup of the targets at the starts. -/
def lookupTargets (starts : List ℤ) (targets : Series (Option K)) : Py (Series (Option K)) :=
  starts.mapM fun t => do
    let x ← atLabel targets t
    return (t, x)

/-- Sides of the kept events. -/
def lookupSides (targets2 : Series (Option K)) (sides : Option (Series ℤ)) : Py (Series ℤ) :=
  match sides with
  | none => .ok (targets2.map fun p => (p.1, (1 : ℤ)))
  | some s => targets2.mapM fun p => do
    let x ← atLabel s p.1
    return (p.1, x)

/-- Stop-loss multiplier actually used. -/
def effSl (ptMul slMul : K) (sides : Option (Series ℤ)) : K := if sides.isNone then ptMul else slMul

/-- The kept targets. -/
def keepTargets (minTarget : K) (targets1 : Series (Option K)) : Series (Option K) :=
  targets1.filter fun p => gtNan p.2 (some minTarget)

theorem getEventReturns_eq (prices : List (Row K)) (starts : List ℤ) (targets : Series (Option K))
    (ptMul slMul : K) (expiries : Option (Series (Option ℤ))) (minTarget : K)
    (sides : Option (Series ℤ)) (hs : SortedTable prices) (hn : starts.Nodup) :
    getEventReturns prices starts targets ptMul slMul expiries minTarget sides =
      (do
        let targets1 ← lookupTargets starts targets
        let sides1 ← lookupSides (keepTargets minTarget targets1) sides
        tripleBarrier ((priceIndices prices starts
            (expiries.getD (starts.map fun t => (t, none)))).map (bfill prices))
          (mkEvents (keepTargets minTarget targets1)
            (expiries.getD (starts.map fun t => (t, none))) sides1)
          ptMul (effSl ptMul slMul sides)) := by
  unfold getEventReturns
  rw [if_neg (by
    rintro (h | h)
    · exact h hs
    · exact h hn)]
  cases sides <;> rfl

theorem getEventReturns_ok (prices : List (Row K)) (starts : List ℤ) (targets : Series (Option K))
    (ptMul slMul : K) (expiries : Option (Series (Option ℤ))) (minTarget : K)
    (sides : Option (Series ℤ)) (outs : List (Event K × Outcome K))
    (h : getEventReturns prices starts targets ptMul slMul expiries minTarget sides = .ok outs) :
    SortedTable prices ∧ starts.Nodup ∧ ∃ targets1 sides1,
      lookupTargets starts targets = .ok targets1 ∧
      lookupSides (keepTargets minTarget targets1) sides = .ok sides1 ∧
      tripleBarrier ((priceIndices prices starts
            (expiries.getD (starts.map fun t => (t, none)))).map (bfill prices))
          (mkEvents (keepTargets minTarget targets1)
            (expiries.getD (starts.map fun t => (t, none))) sides1)
          ptMul (effSl ptMul slMul sides) = .ok outs := by
  by_cases hc : SortedTable prices ∧ starts.Nodup
  · refine ⟨hc.1, hc.2, ?_⟩
    rw [getEventReturns_eq _ _ _ _ _ _ _ _ hc.1 hc.2, py_bind_eq_ok] at h
    obtain ⟨t1, h1, h⟩ := h
    rw [py_bind_eq_ok] at h
    obtain ⟨s1, h2, h⟩ := h
    exact ⟨t1, s1, h1, h2, h⟩
  · exfalso
    unfold getEventReturns at h
    rw [if_pos (by
      rw [← not_and_or]; exact hc)] at h
    cases h

theorem tripleBarrier_ok (prices : List (Row K)) (events : List (Event K)) (ptMul slMul : K)
    (outs : List (Event K × Outcome K)) (h : tripleBarrier prices events ptMul slMul = .ok outs) :
    0 ≤ ptMul ∧ 0 ≤ slMul ∧ ∃ last, lastTime prices = .ok last ∧
      outs.map Prod.fst = events ∧
      ∀ eo ∈ outs, evalEvent prices ptMul slMul eo.1 (eo.1.expiry.getD last) = .ok eo.2 := by
  unfold tripleBarrier at h
  by_cases h1 : ptMul < 0
  · rw [if_pos h1] at h; cases h
  by_cases h2 : slMul < 0
  · rw [if_neg h1, if_pos h2] at h; cases h
  rw [if_neg h1, if_neg h2] at h
  simp only [py_pure] at h
  rw [py_bind_eq_ok] at h
  obtain ⟨last, hl, h⟩ := h
  refine ⟨not_lt.1 h1, not_lt.1 h2, last, hl, ?_⟩
  rw [mapM_eq_ok_iff] at h
  have key : ∀ (es : List (Event K)) (os : List (Event K × Outcome K)),
      List.Forall₂ (fun e b => (do
        let o ← evalEvent prices ptMul slMul e (e.expiry.getD last)
        Except.ok (e, o)) = Except.ok b) es os →
      os.map Prod.fst = es ∧
        ∀ eo ∈ os, evalEvent prices ptMul slMul eo.1 (eo.1.expiry.getD last) = .ok eo.2 := by
    intro es os hf
    induction hf with
    | nil => exact ⟨rfl, by simp⟩
    | cons hab _ ih =>
      rw [py_bind_eq_ok] at hab
      obtain ⟨o, ho, hb⟩ := hab
      cases hb
      refine ⟨by rw [List.map_cons, ih.1], ?_⟩
      intro eo hm
      rcases List.mem_cons.1 hm with rfl | hm
      · exact ho
      · exact ih.2 eo hm
  exact key events outs h

theorem tripleBarrier_of_ok (prices : List (Row K)) (events : List (Event K)) (ptMul slMul : K)
    (hp : 0 ≤ ptMul) (hsl : 0 ≤ slMul) (last : ℤ) (hl : lastTime prices = .ok last)
    (f : Event K → Outcome K)
    (h : ∀ e ∈ events, evalEvent prices ptMul slMul e (e.expiry.getD last) = .ok (f e)) :
    tripleBarrier prices events ptMul slMul = .ok (events.map fun e => (e, f e)) := by
  unfold tripleBarrier
  rw [if_neg (not_lt.2 hp), if_neg (not_lt.2 hsl)]
  simp only [py_pure]
  rw [hl, py_bind_ok]
  apply mapM_ok_of_forall
  intro e he
  rw [h e he]
  rfl

theorem evalEvent_side (prices : List (Row K)) (ptMul slMul : K) (e : Event K) (expiry : ℤ)
    (o : Outcome K) (h : evalEvent prices ptMul slMul e expiry = .ok o) :
    ∃ side, e.side = some side ∧ (side = 1 ∨ side = -1) := by
  unfold evalEvent at h
  rw [py_bind_eq_ok] at h
  obtain ⟨r, _, h⟩ := h
  cases hside : e.side with
  | none => simp only [hside] at h; cases h
  | some side =>
    simp only [hside] at h
    rw [py_bind_ok] at h
    by_cases hs : side = -1 ∨ side = 1
    · exact ⟨side, rfl, hs.symm⟩
    · rw [if_pos hs] at h; cases h

theorem atLabel_eq_ok {α : Type} (l : List (ℤ × α)) (t : ℤ) (x : α) (h : atLabel l t = .ok x) :
    (t, x) ∈ l ∧ l.find? (fun p => p.1 = t) = some (t, x) := by
  unfold atLabel at h
  cases hf : l.find? (fun p => p.1 = t) with
  | none => rw [hf] at h; cases h
  | some p =>
    rw [hf] at h
    cases h
    have h1 : p.1 = t := by simpa using List.find?_some hf
    have h2 := List.mem_of_find?_eq_some hf
    obtain ⟨a, b⟩ := p
    cases h1
    exact ⟨h2, rfl⟩

theorem lookupTargets_ok (starts : List ℤ) (targets targets1 : Series (Option K))
    (h : lookupTargets starts targets = .ok targets1) :
    targets1.map Prod.fst = starts ∧ ∀ p ∈ targets1, atLabel targets p.1 = .ok p.2 := by
  unfold lookupTargets at h
  rw [mapM_eq_ok_iff] at h
  induction h with
  | nil => exact ⟨rfl, by simp⟩
  | cons hab _ ih =>
    rw [py_bind_eq_ok] at hab
    obtain ⟨x, hx, hb⟩ := hab
    cases hb
    refine ⟨by rw [List.map_cons, ih.1], ?_⟩
    intro p hp
    rcases List.mem_cons.1 hp with rfl | hp
    · exact hx
    · exact ih.2 p hp

theorem lookupSides_keys (targets2 : Series (Option K)) (sides : Option (Series ℤ))
    (sides1 : Series ℤ) (h : lookupSides targets2 sides = .ok sides1) :
    sides1.map Prod.fst = targets2.map Prod.fst := by
  unfold lookupSides at h
  cases sides with
  | none =>
    cases h
    rw [List.map_map]; rfl
  | some s =>
    simp only at h
    rw [mapM_eq_ok_iff] at h
    induction h with
    | nil => rfl
    | cons hab _ ih =>
      rw [py_bind_eq_ok] at hab
      obtain ⟨x, _, hb⟩ := hab
      cases hb
      rw [List.map_cons, List.map_cons, ih]

theorem mem_keepTargets (minTarget : K) (t1 : Series (Option K)) (p : ℤ × Option K) :
    p ∈ keepTargets minTarget t1 ↔ p ∈ t1 ∧ ∃ x, p.2 = some x ∧ minTarget < x := by
  unfold keepTargets
  rw [List.mem_filter]
  cases hp : p.2 with
  | none => simp [gtNan]
  | some x => simp [gtNan]

end FinML.Labels
