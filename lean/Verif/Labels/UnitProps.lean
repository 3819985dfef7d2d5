import Verif.Labels.Props
import Verif.Py.Lemmas

/-!
# C174: barrier returns and labels have no currency and no clock
-/

namespace FinML.Labels

set_option linter.unusedSectionVars false

variable {K : Type} [Field K] [LinearOrder K] [IsStrictOrderedRing K]

/-- A price row in another currency and on another clock. -/
def Row.conv (a : K) (φ : ℤ → ℤ) (r : Row K) : Row K :=
  ⟨φ r.time, r.op.map (a * ·), r.high.map (a * ·), r.low.map (a * ·), r.close.map (a * ·)⟩

/-- An event on another clock; targets are returns, without a currency. -/
def Event.conv (φ : ℤ → ℤ) (e : Event K) : Event K := ⟨φ e.start, e.expiry.map φ, e.target, e.side⟩

/-- An outcome on another clock. -/
def Outcome.conv (φ : ℤ → ℤ) (o : Outcome K) : Outcome K :=
  ⟨o.ptTime.map φ, o.slTime.map φ, φ o.endTime, o.ret⟩

/-- A labelled series on another clock. -/
def conv {α : Type} (φ : ℤ → ℤ) (s : List (ℤ × α)) : List (ℤ × α) := s.map fun p => (φ p.1, p.2)

variable {a : K} {φ : ℤ → ℤ}

theorem mapM_conv {α β α' β' : Type} (g : α → α') (h : β → β') (f : α → Py β) (f' : α' → Py β') (l : List α)
    (e : ∀ x ∈ l, f' (g x) = (f x).map h) : (l.map g).mapM f' = (l.mapM f).map (List.map h) := by
  induction l with
  | nil => rfl
  | cons x l ih =>
    rw [List.map_cons, List.mapM_cons, List.mapM_cons, e x List.mem_cons_self,
      ih fun y hy => e y (List.mem_cons_of_mem _ hy)]
    cases f x with
    | error => rfl
    | ok y => cases l.mapM f <;> rfl

theorem find_map {α β : Type} (g : α → β) (p : β → Bool) (q : α → Bool) (h : ∀ x, p (g x) = q x) (l : List α) :
    (l.map g).find? p = (l.find? q).map g := by
  induction l with
  | nil => rfl
  | cons x l ih => simp only [List.map_cons, List.find?_cons, h, ih]; cases q x <;> rfl

theorem filter_conv {α β : Type} (g : α → β) (p : β → Bool) (q : α → Bool) (h : ∀ x, p (g x) = q x) (l : List α) :
    (l.map g).filter p = (l.filter q).map g := by
  rw [List.filter_map]
  congr 2
  funext x
  exact h x

theorem rowAt_conv (h : StrictMono φ) (prices : List (Row K)) (t : ℤ) :
    rowAt (prices.map (Row.conv a φ)) (φ t) = (rowAt prices t).map (Row.conv a φ) := by
  unfold rowAt
  rw [find_map (Row.conv a φ) _ (fun r : Row K => decide (r.time = t))
    (fun r => by simp [Row.conv, h.injective.eq_iff])]
  cases prices.find? fun r => decide (r.time = t) <;> rfl

theorem atLabel_conv {α : Type} (h : StrictMono φ) (s : List (ℤ × α)) (t : ℤ) :
    atLabel (conv φ s) (φ t) = atLabel s t := by
  unfold atLabel conv
  rw [find_map _ _ (fun r : ℤ × α => decide (r.1 = t)) (fun r => by simp [h.injective.eq_iff])]
  cases s.find? fun r => decide (r.1 = t) <;> rfl

theorem minTime_conv (h : StrictMono φ) (l : List ℤ) : minTime (l.map φ) = (minTime l).map φ := by
  cases l with
  | nil => rfl
  | cons x xs =>
    simp only [minTime, List.map_cons, Option.map_some]
    congr 1
    induction xs generalizing x with
    | nil => rfl
    | cons y ys ih =>
      simp only [List.map_cons, List.foldl_cons, ← h.monotone.map_min]
      exact ih _

theorem retOf_conv (ha : a ≠ 0) (s p : Option K) : retOf (s.map (a * ·)) (p.map (a * ·)) = retOf s p := by
  cases s <;> cases p <;> simp [retOf, mul_div_mul_left _ _ ha]

theorem ptPath_conv (ha : a ≠ 0) (path : List (Row K)) (s : Option K) (side : ℤ) :
    ptPath (path.map (Row.conv a φ)) (s.map (a * ·)) side = conv φ (ptPath path s side) := by
  simp only [ptPath, conv, List.map_map]
  apply List.map_congr_left
  intro r _
  simp only [Function.comp, Row.conv, retOf_conv ha]

theorem slPath_conv (ha : a ≠ 0) (path : List (Row K)) (s : Option K) (side : ℤ) :
    slPath (path.map (Row.conv a φ)) (s.map (a * ·)) side = conv φ (slPath path s side) := by
  simp only [slPath, conv, List.map_map]
  apply List.map_congr_left
  intro r _
  simp only [Function.comp, Row.conv, retOf_conv ha]

theorem hits_conv (h : StrictMono φ) (p : Option K → Bool) (s : List (ℤ × Option K)) :
    minTime (((conv φ s).filter fun x => p x.2).map Prod.fst) =
      (minTime ((s.filter fun x => p x.2).map Prod.fst)).map φ := by
  rw [← minTime_conv h]
  unfold conv
  rw [filter_conv (fun x : ℤ × Option K => (φ x.1, x.2)) (fun x => p x.2) (fun x => p x.2) (fun _ => rfl),
    List.map_map, List.map_map]
  rfl

theorem evalEvent_conv (ha : a ≠ 0) (h : StrictMono φ) (prices : List (Row K)) (ptMul slMul : K) (e : Event K)
    (expiry : ℤ) :
    evalEvent (prices.map (Row.conv a φ)) ptMul slMul (e.conv φ) (φ expiry) =
      (evalEvent prices ptMul slMul e expiry).map (Outcome.conv φ) := by
  unfold evalEvent
  have e1 : (e.conv φ).start = φ e.start := rfl
  have e2 : (e.conv φ).side = e.side := rfl
  have e3 : ptLimit ptMul (e.conv φ) = ptLimit ptMul e := rfl
  have e4 : slLimit slMul (e.conv φ) = slLimit slMul e := rfl
  rw [e1, e2, e3, e4, rowAt_conv h]
  cases rowAt prices e.start with
  | error x => rfl
  | ok sr =>
    have e5 : ((prices.map (Row.conv a φ)).filter fun r => φ e.start ≤ r.time ∧ r.time ≤ φ expiry) =
        (prices.filter fun r => e.start ≤ r.time ∧ r.time ≤ expiry).map (Row.conv a φ) :=
      filter_conv _ _ _ (fun r => by simp [Row.conv, h.le_iff_le]) _
    have e6 : (sr.conv a φ).op = sr.op.map (a * ·) := rfl
    have e7 : (sr.op.map (a * ·) = some 0) ↔ sr.op = some 0 := by
      cases sr.op <;> simp [ha]
    simp only [Except.map, py_bind_ok, e5, e6, e7, ptPath_conv ha, slPath_conv ha]
    cases e.side with
    | none => rfl
    | some side =>
      simp only
      by_cases hs : ¬ (side = -1 ∨ side = 1)
      · simp only [if_pos hs]; rfl
      simp only [if_neg hs]
      by_cases h0 : sr.op = some 0
      · simp only [if_pos h0]; rfl
      simp only [if_neg h0]
      generalize ptPath _ sr.op side = pt
      generalize slPath _ sr.op side = sl
      rw [hits_conv h (fun x => gtNan x (ptLimit ptMul e)), hits_conv h (fun x => ltNan x (slLimit slMul e))]
      cases minTime ((pt.filter fun x => gtNan x.2 (ptLimit ptMul e)).map Prod.fst) with
      | none =>
        cases minTime ((sl.filter fun x => ltNan x.2 (slLimit slMul e)).map Prod.fst) with
        | none =>
          simp only [Option.map_none, rowAt_conv h]
          cases rowAt prices expiry with
          | error x => rfl
          | ok c =>
            change Except.ok _ = Except.ok _
            simp [Row.conv, Outcome.conv, retOf_conv ha]
        | some s =>
          simp only [Option.map_none, Option.map_some, atLabel_conv h]
          cases atLabel sl s <;> rfl
      | some p =>
        cases minTime ((sl.filter fun x => ltNan x.2 (slLimit slMul e)).map Prod.fst) with
        | none =>
          simp only [Option.map_none, Option.map_some, atLabel_conv h]
          cases atLabel pt p <;> rfl
        | some s =>
          simp only [Option.map_some, atLabel_conv h, h.lt_iff_lt]
          split_ifs
          · cases atLabel pt p <;> rfl
          · cases atLabel sl s <;> rfl

theorem lastTime_conv (prices : List (Row K)) :
    lastTime (prices.map (Row.conv a φ)) = (lastTime prices).map φ := by
  unfold lastTime pyLast
  rw [List.getLast?_map]
  cases prices.getLast? <;> rfl

theorem tripleBarrier_conv (ha : a ≠ 0) (h : StrictMono φ) (prices : List (Row K)) (events : List (Event K))
    (ptMul slMul : K) :
    tripleBarrier (prices.map (Row.conv a φ)) (events.map (Event.conv φ)) ptMul slMul =
      (tripleBarrier prices events ptMul slMul).map (List.map fun p => (p.1.conv φ, p.2.conv φ)) := by
  unfold tripleBarrier
  by_cases h1 : ptMul < 0
  · simp only [if_pos h1]; rfl
  simp only [if_neg h1]
  by_cases h2 : slMul < 0
  · simp only [if_pos h2]; rfl
  simp only [if_neg h2, lastTime_conv]
  cases lastTime prices with
  | error x => rfl
  | ok last =>
    apply mapM_conv
    intro e _
    have : (e.conv φ).expiry.getD (φ last) = φ (e.expiry.getD last) := by
      unfold Event.conv
      cases e.expiry <;> rfl
    rw [this, evalEvent_conv ha h]
    cases evalEvent prices ptMul slMul e (e.expiry.getD last) <;> rfl

theorem bfill_conv (h : StrictMono φ) (prices : List (Row K)) (t : ℤ) :
    bfill (prices.map (Row.conv a φ)) (φ t) = (bfill prices t).conv a φ := by
  unfold bfill
  rw [find_map (Row.conv a φ) _ (fun r : Row K => decide (t ≤ r.time))
    (fun r => by simp [Row.conv, h.le_iff_le])]
  cases prices.find? fun r => decide (t ≤ r.time) <;> rfl

theorem priceIndices_conv (h : StrictMono φ) (prices : List (Row K)) (starts : List ℤ)
    (ex : Series (Option ℤ)) :
    priceIndices (prices.map (Row.conv a φ)) (starts.map φ) (ex.map fun p => (φ p.1, p.2.map φ)) =
      (priceIndices prices starts ex).map φ := by
  unfold priceIndices
  have e1 : (prices.map (Row.conv a φ)).map Row.time = (prices.map Row.time).map φ := by
    rw [List.map_map, List.map_map]; rfl
  have e2 : (ex.map fun p => (φ p.1, p.2.map φ)).filterMap Prod.snd = (ex.filterMap Prod.snd).map φ := by
    rw [List.filterMap_map, List.map_filterMap]; rfl
  rw [e1, e2, ← List.map_append, ← List.map_append, List.dedup_map_of_injective h.injective]
  exact (List.map_insertionSort (· ≤ ·) (· ≤ ·) φ _ (fun _ _ _ _ => h.le_iff_le.symm)).symm

/-- C174 (returns): in another currency and on another clock, the barrier returns are the same, and so are the
errors; the barrier times are those of the new clock. -/
theorem C174_returns (ha : a ≠ 0) (h : StrictMono φ) (prices : List (Row K)) (starts : List ℤ)
    (targets : Series (Option K)) (ptMul slMul : K) (expiries : Option (Series (Option ℤ))) (minTarget : K)
    (sides : Option (Series ℤ)) :
    getEventReturns (prices.map (Row.conv a φ)) (starts.map φ) (conv φ targets) ptMul slMul
        (expiries.map (List.map fun p => (φ p.1, p.2.map φ))) minTarget (sides.map (conv φ)) =
      (getEventReturns prices starts targets ptMul slMul expiries minTarget sides).map
        (List.map fun p => (p.1.conv φ, p.2.conv φ)) := by
  unfold getEventReturns
  have g1 : ((prices.map (Row.conv a φ)).map Row.time).Pairwise (· < ·) ↔
      (prices.map Row.time).Pairwise (· < ·) := by
    rw [List.map_map, List.pairwise_map, List.pairwise_map]
    simp [Row.conv, h.lt_iff_lt]
  have g2 : (starts.map φ).Nodup ↔ starts.Nodup := List.nodup_map_iff h.injective
  simp only [g1, g2]
  by_cases hg : ¬ (prices.map Row.time).Pairwise (· < ·) ∨ ¬ starts.Nodup
  · simp only [if_pos hg]; rfl
  simp only [if_neg hg]
  rw [mapM_conv φ (fun p : ℤ × Option K => (φ p.1, p.2))
    (fun t => do let x ← atLabel targets t; return (t, x)) _ starts
    (fun t _ => by rw [atLabel_conv h]; cases atLabel targets t <;> rfl)]
  cases starts.mapM (fun t => do let x ← atLabel targets t; return (t, x) : ℤ → Py (ℤ × Option K)) with
  | error x => rfl
  | ok targets1 =>
    simp only [Except.map, py_bind_ok]
    have e1 : (targets1.map fun p : ℤ × Option K => (φ p.1, p.2)).filter
        (fun p => gtNan p.2 (some minTarget)) =
        conv φ (targets1.filter fun p => gtNan p.2 (some minTarget)) :=
      filter_conv _ _ _ (fun _ => rfl) _
    rw [e1]
    generalize targets1.filter (fun p => gtNan p.2 (some minTarget)) = targets2
    have e2 : (expiries.map (List.map fun p : ℤ × Option ℤ => (φ p.1, p.2.map φ))).getD
        ((starts.map φ).map fun t => (t, none)) =
        (expiries.getD (starts.map fun t => (t, none))).map fun p => (φ p.1, p.2.map φ) := by
      cases expiries with
      | none => simp
      | some x => rfl
    rw [e2]
    generalize expiries.getD (starts.map fun t => (t, none)) = ex
    rw [priceIndices_conv h, List.map_map]
    have e3 : (priceIndices prices starts ex).map (bfill (prices.map (Row.conv a φ)) ∘ φ) =
        ((priceIndices prices starts ex).map (bfill prices)).map (Row.conv a φ) := by
      rw [List.map_map]
      apply List.map_congr_left
      intro t _
      exact bfill_conv h prices t
    rw [e3]
    generalize (priceIndices prices starts ex).map (bfill prices) = prices1
    have key : ∀ (sides1 : Series ℤ) (m : K),
        tripleBarrier (prices1.map (Row.conv a φ))
          ((((ex.map fun p => (φ p.1, p.2.map φ)).map Prod.fst) ++
            (((conv φ targets2).map Prod.fst).filter fun t =>
              ¬ t ∈ (ex.map fun p => (φ p.1, p.2.map φ)).map Prod.fst)).map fun t =>
            { start := t
              expiry := (((ex.map fun p => (φ p.1, p.2.map φ)).find? fun p => p.1 = t).bind Prod.snd)
              target := (((conv φ targets2).find? fun p => p.1 = t).bind Prod.snd)
              side := (((conv φ sides1).find? fun p => p.1 = t).map Prod.snd) }) ptMul m =
        (tripleBarrier prices1 (((ex.map Prod.fst) ++
          ((targets2.map Prod.fst).filter fun t => ¬ t ∈ ex.map Prod.fst)).map fun t =>
            { start := t
              expiry := ((ex.find? fun p => p.1 = t).bind Prod.snd)
              target := ((targets2.find? fun p => p.1 = t).bind Prod.snd)
              side := ((sides1.find? fun p => p.1 = t).map Prod.snd) }) ptMul m).map
          (List.map fun p => (p.1.conv φ, p.2.conv φ)) := by
      intro sides1 m
      rw [← tripleBarrier_conv ha h]
      congr 1
      have f1 : (ex.map fun p => (φ p.1, p.2.map φ)).map Prod.fst = (ex.map Prod.fst).map φ := by
        rw [List.map_map, List.map_map]; rfl
      have f2 : (conv φ targets2).map Prod.fst = (targets2.map Prod.fst).map φ := by
        unfold conv
        rw [List.map_map, List.map_map]; rfl
      have f3 : (((targets2.map Prod.fst).map φ).filter fun t => ¬ t ∈ (ex.map Prod.fst).map φ) =
          ((targets2.map Prod.fst).filter fun t => ¬ t ∈ ex.map Prod.fst).map φ :=
        filter_conv _ _ _ (fun t => by simp [h.injective.eq_iff]) _
      rw [f1, f2, f3, ← List.map_append, List.map_map, List.map_map]
      apply List.map_congr_left
      intro t _
      simp only [Function.comp, Event.conv, Event.mk.injEq, true_and]
      refine ⟨?_, ?_, ?_⟩
      · rw [find_map _ _ (fun p : ℤ × Option ℤ => decide (p.1 = t)) (fun r => by simp [h.injective.eq_iff])]
        cases ex.find? fun p => decide (p.1 = t) <;> rfl
      · unfold conv
        rw [find_map _ _ (fun p : ℤ × Option K => decide (p.1 = t)) (fun r => by simp [h.injective.eq_iff])]
        cases targets2.find? fun p => decide (p.1 = t) <;> rfl
      · unfold conv
        rw [find_map _ _ (fun p : ℤ × ℤ => decide (p.1 = t)) (fun r => by simp [h.injective.eq_iff])]
        cases sides1.find? fun p => decide (p.1 = t) <;> rfl
    cases sides with
    | none =>
      simp only [Option.map_none, Option.isNone_none, if_true]
      have e4 : (conv φ targets2).map (fun p : ℤ × Option K => (p.1, (1 : ℤ))) =
          conv φ (targets2.map fun p : ℤ × Option K => (p.1, (1 : ℤ))) := by
        simp [conv, Function.comp_def]
      rw [e4]
      exact key _ ptMul
    | some s =>
      simp only [Option.map_some, Option.isNone_some, Bool.false_eq_true, if_false]
      have e4 : ((conv φ targets2).mapM fun p => do let x ← atLabel (conv φ s) p.1; return (p.1, x)) =
          (targets2.mapM fun p : ℤ × Option K => do let x ← atLabel s p.1; return (p.1, x)).map (conv φ) :=
        mapM_conv _ _ _ _ _ (fun t _ => by rw [atLabel_conv h]; cases atLabel s t.1 <;> rfl)
      rw [e4]
      cases (targets2.mapM fun p : ℤ × Option K => do let x ← atLabel s p.1; return (p.1, x) : Py (Series ℤ)) with
      | error x => rfl
      | ok sides1 => exact key sides1 slMul

/-- C174 (labels): the labels of the converted rows are those of the rows. -/
theorem C174_labels (h : StrictMono φ) (rows : List (Labelled K)) (hasSide cancelExpired : Bool) :
    getEventLabels (rows.map fun r => ⟨r.expiry.map φ, r.endTime.map φ, r.ret⟩) hasSide cancelExpired =
      (getEventLabels rows hasSide cancelExpired).map fun p : Labelled K × Option K =>
        ((⟨p.1.expiry.map φ, p.1.endTime.map φ, p.1.ret⟩ : Labelled K), p.2) := by
  unfold getEventLabels
  rw [filter_conv _ _ (fun r : Labelled K => r.endTime.isSome) (fun r => by simp), List.map_map, List.map_map]
  apply List.map_congr_left
  rintro ⟨x, e, r⟩ _
  cases x <;> cases e <;> simp [rowLabel, expired, h.le_iff_le]

/-- The hypotheses, and an event with a hit barrier, in cents and seconds. -/
example : (100 : ℚ) ≠ 0 ∧ StrictMono (fun t : ℤ => 60 * t) ∧
    getEventReturns ([⟨1, some 10, some 11, some 9, some 10⟩, ⟨2, some 10, some 13, some 10, some 12⟩,
      ⟨3, some 12, some 12, some 8, some 9⟩].map (Row.conv (100 : ℚ) fun t => 60 * t)) [60]
      [(60, some (1 / 5))] 1 1 none 0 none =
      .ok [(⟨60, none, some (1 / 5), some 1⟩, ⟨some 120, none, 120, some (3 / 10)⟩)] := by
  refine ⟨by norm_num, fun a b h => ?_, by decide +kernel⟩
  show 60 * a < 60 * b
  omega

end FinML.Labels
