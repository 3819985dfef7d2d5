import Verif.Labels.WindowGapModel
import Verif.Py.Lemmas
import Mathlib.Tactic.Linarith
import Mathlib.Tactic.NormNum

/-! # Returns of fixed-window events with missing prices (C359) -/

namespace FinML.Labels

/-- Positive prices that agree with `bars` where these are known. -/
def FillsPBars (fill : List PBar) (bars : List PBarM) : Prop :=
  List.Forall₂ (fun f b => f.time = b.time ∧ (0 < f.op ∧ 0 < f.close) ∧ (∀ x, b.op = some x → f.op = x) ∧
    ∀ x, b.close = some x → f.close = x) fill bars

/-- C359, the full claim: every return reported with missing prices is the return for some prices in their place. -/
def ReturnsOfSomeFill : Prop :=
  ∀ (bars : List PBarM) (window gap : ℤ) (drop align : Bool) (ws : List (Win × Option ℝ)),
    fixedWindowReturnsM bars window gap drop align = .ok ws → ∀ w r, (w, some r) ∈ ws →
    ∃ fill ws', FillsPBars fill bars ∧ fixedWindowReturns fill window gap drop align = .ok ws' ∧ (w, r) ∈ ws'

/-- Three bars, the second without prices. -/
def fwGap : List PBarM := [⟨0, some 1, some 1⟩, ⟨1, none, none⟩, ⟨2, some 4, some 4⟩]

theorem fwGap_windows : fixedWindows [0, 1, 2] 2 0 true true = .ok [⟨0, 0, 2⟩] := by decide

theorem fwGap_returns : fixedWindowReturnsM fwGap 2 0 true true = .ok [(⟨0, 0, 2⟩, some 0)] := by
  unfold fixedWindowReturnsM
  rw [show fwGap.map PBarM.time = [0, 1, 2] from rfl, fwGap_windows, py_bind_ok, if_neg (by
    rintro (h | h)
    · cases h
    · apply h
      intro b hb
      simp only [fwGap, List.mem_cons, List.not_mem_nil, or_false] at hb
      rcases hb with rfl | rfl | rfl <;> simp), mapM_cons_py]
  simp [fwGap, retRowsM, retInPeriodM, openCloseM, py_bind_ok, py_pure]

/-- C359.  A price that goes from 1 to 4 over a bar without prices is reported with the return 0 instead of log 4. -/
theorem C359_counterexample : ¬ ReturnsOfSomeFill := by
  intro h
  obtain ⟨fill, ws', hf, he, hm⟩ := h fwGap 2 0 true true _ fwGap_returns ⟨0, 0, 2⟩ 0 (by simp)
  unfold FillsPBars fwGap at hf
  match fill, hf with
  | [⟨t0, o0, c0⟩, ⟨t1, o1, c1⟩, ⟨t2, o2, c2⟩], hf =>
    simp only [List.forall₂_cons, List.forall₂_nil_left_iff, Option.some.injEq, forall_eq', and_true, reduceCtorEq,
      false_implies, implies_true] at hf
    obtain ⟨⟨rfl, -, rfl, rfl⟩, ⟨rfl, hp⟩, ⟨rfl, -, rfl, rfl⟩⟩ := hf
    unfold fixedWindowReturns at he
    rw [show ([⟨0, 1, 1⟩, ⟨1, o1, c1⟩, ⟨2, 4, 4⟩] : List PBar).map PBar.time = [0, 1, 2] from rfl, fwGap_windows, py_bind_ok,
      if_neg (by
        rintro (h | h)
        · cases h
        · apply h
          intro b hb
          simp only [List.mem_cons, List.not_mem_nil, or_false] at hb
          rcases hb with rfl | rfl | rfl
          · norm_num
          · exact hp
          · norm_num), mapM_cons_py] at he
    simp [retRows, retInPeriod, py_bind_ok, py_pure] at he
    subst he
    simp only [List.mem_singleton, Prod.mk.injEq, true_and] at hm
    have h4 : (0 : ℝ) < Real.log 4 := Real.log_pos (by norm_num)
    linarith

theorem retRowsM_get (prev : Option ℝ) (bars : List PBarM) :
    (retRowsM prev bars).length = bars.length ∧
    ∀ (i : ℕ) (b : PBarM), bars[i]? = some b →
      ∃ q, (if i = 0 then q = prev else ∃ c, bars[i - 1]? = some c ∧ q = c.close) ∧
        (retRowsM prev bars)[i]? =
          some ⟨b.time, b.close.bind fun y => q.map fun p => Real.log y - Real.log p, openCloseM b⟩ := by
  induction bars generalizing prev with
  | nil => simp [retRowsM]
  | cons a bars ih =>
    refine ⟨by rw [retRowsM, List.length_cons, (ih a.close).1, List.length_cons], ?_⟩
    intro i b hb
    cases i with
    | zero =>
      simp only [List.getElem?_cons_zero, Option.some.injEq] at hb
      subst hb
      exact ⟨prev, by simp, rfl⟩
    | succ i =>
      obtain ⟨q, h1, h2⟩ := (ih a.close).2 i b (by simpa using hb)
      refine ⟨q, ?_, by simpa [retRowsM] using h2⟩
      rw [if_neg (by omega)]
      cases i with
      | zero =>
        rw [if_pos rfl] at h1
        exact ⟨a, rfl, h1⟩
      | succ i =>
        rw [if_neg (by omega)] at h1
        simpa using h1

/-- The bar with its prices known. -/
def PBar.toM (b : PBar) : PBarM := ⟨b.time, some b.op, some b.close⟩

/-- The row with its open-to-close return known. -/
def RetRow.toM (r : RetRow) : RetRowM := ⟨r.time, r.c, some r.oc⟩

theorem retRowsM_toM (prev : Option ℝ) (bars : List PBar) :
    retRowsM prev (bars.map PBar.toM) = (retRows (prev.map Real.log) bars).map RetRow.toM := by
  induction bars generalizing prev with
  | nil => rfl
  | cons b bars ih =>
    simp only [List.map_cons, retRowsM, retRows]
    rw [show (PBar.toM b).close = some b.close from rfl, ih]
    cases prev <;> rfl

theorem retInPeriodM_toM (rows : List RetRow) (start stop : ℤ) :
    retInPeriodM (rows.map RetRow.toM) start stop = (retInPeriod rows start stop).map some := by
  unfold retInPeriodM retInPeriod
  rw [List.filter_map]
  have : ((fun r : RetRowM => decide (start ≤ r.time ∧ r.time ≤ stop)) ∘ RetRow.toM) =
      fun r : RetRow => decide (start ≤ r.time ∧ r.time ≤ stop) := rfl
  rw [this]
  cases rows.filter fun r => decide (start ≤ r.time ∧ r.time ≤ stop) with
  | nil => rfl
  | cons r rs =>
    have hc : (List.map RetRow.toM (r :: rs)).filterMap RetRowM.c = (r :: rs).filterMap RetRow.c := by
      rw [List.filterMap_map]
      rfl
    change Except.ok (some (((List.map RetRow.toM (r :: rs)).filterMap RetRowM.c).sum + r.oc)) = _
    rw [hc]
    rfl

theorem mapM_window {α β γ : Type} (f : α → Py β) (g : α → Py γ) (h : γ → β) (l : List α)
    (hfg : ∀ a, f a = (g a).map h) : l.mapM f = (l.mapM g).map (List.map h) := by
  induction l with
  | nil => rfl
  | cons a l ih =>
    rw [mapM_cons_py, mapM_cons_py, hfg, ih]
    cases g a with
    | error e => rfl
    | ok v => cases l.mapM g <;> rfl

/-- C359.  With all prices known the returns are those of C29. -/
theorem C359_complete (bars : List PBar) (window gap : ℤ) (drop align : Bool) :
    fixedWindowReturnsM (bars.map PBar.toM) window gap drop align =
      (fixedWindowReturns bars window gap drop align).map fun l => l.map fun w => (w.1, some w.2) := by
  have hp : (∀ b ∈ bars.map PBar.toM, (∀ x, b.op = some x → 0 < x) ∧ ∀ x, b.close = some x → 0 < x) ↔
      ∀ b ∈ bars, 0 < b.op ∧ 0 < b.close := by
    simp [PBar.toM]
  unfold fixedWindowReturnsM fixedWindowReturns
  rw [show (bars.map PBar.toM).map PBarM.time = bars.map PBar.time by rw [List.map_map]; rfl]
  cases fixedWindows (bars.map PBar.time) window gap drop align with
  | error e => rfl
  | ok ws =>
    simp only [py_bind_ok, hp]
    split
    · rfl
    · apply mapM_window
      intro w
      rw [retRowsM_toM, retInPeriodM_toM]
      cases h : retInPeriod (retRows none bars) w.start w.stop with
      | error e => rw [show Option.map Real.log none = none from rfl, h]; rfl
      | ok v => rw [show Option.map Real.log none = none from rfl, h]; rfl

theorem filter_rows {P : ℤ → Prop} [DecidablePred P] (l : List RetRowM) (m : List RetRow)
    (h : List.Forall₂ (fun a b => a.time = b.time ∧ (P a.time → a.c = b.c)) l m) :
    (l.filter fun r => P r.time).filterMap RetRowM.c = (m.filter fun r => P r.time).filterMap RetRow.c := by
  induction h with
  | nil => rfl
  | @cons a b l m hab _ ih =>
    rw [List.filter_cons, List.filter_cons, ← hab.1]
    by_cases hc : P a.time
    · simp only [hc, decide_true, if_true, List.filterMap_cons, hab.2 hc, ih]
    · simp only [hc, decide_false, Bool.false_eq_true, if_false, ih]

theorem fillsP_at {fill : List PBar} {bars : List PBarM} (h : FillsPBars fill bars) (i : ℕ) (b : PBarM)
    (hb : bars[i]? = some b) : ∃ f, fill[i]? = some f ∧ f.time = b.time ∧ ∀ x, b.close = some x → f.close = x := by
  induction h generalizing i with
  | nil => simp at hb
  | @cons f c fs cs hf _ ih =>
    cases i with
    | zero =>
      simp only [List.getElem?_cons_zero, Option.some.injEq] at hb
      subst hb
      exact ⟨f, rfl, hf.1, hf.2.2.2⟩
    | succ i => simpa using ih i (by simpa using hb)

theorem retRowsM_oc (prev : Option ℝ) (bars : List PBarM) :
    (retRowsM prev bars).map (fun r => (r.time, r.oc)) = bars.map fun b => (b.time, openCloseM b) := by
  induction bars generalizing prev with
  | nil => rfl
  | cons b bars ih => rw [retRowsM, List.map_cons, List.map_cons, ih]

theorem filter_head {P : ℤ → Prop} [DecidablePred P] (rows : List RetRowM) (bars : List PBarM)
    (h : rows.map (fun r => (r.time, r.oc)) = bars.map fun b => (b.time, openCloseM b)) :
    (rows.filter fun r => P r.time).head?.map RetRowM.oc = (bars.filter fun b => P b.time).head?.map openCloseM := by
  induction rows generalizing bars with
  | nil => cases bars with
    | nil => rfl
    | cons b bs => simp at h
  | cons r rows ih => cases bars with
    | nil => simp at h
    | cons b bs =>
      simp only [List.map_cons, List.cons.injEq, Prod.mk.injEq] at h
      rw [List.filter_cons, List.filter_cons, ← h.1.1]
      by_cases hc : P r.time
      · simp only [hc, decide_true, if_true, List.head?_cons, Option.map_some, h.1.2]
      · simp only [hc, decide_false, Bool.false_eq_true, if_false]
        exact ih bs h.2

theorem filter_fill {P : ℤ → Prop} [DecidablePred P] (fill : List PBar) (bars : List PBarM) (h : FillsPBars fill bars) :
    FillsPBars (fill.filter fun b => P b.time) (bars.filter fun b => P b.time) := by
  induction h with
  | nil => exact .nil
  | @cons f c fs cs hf _ ih =>
    rw [List.filter_cons, List.filter_cons, hf.1]
    by_cases hc : P c.time
    · simp only [hc, decide_true, if_true]
      exact .cons hf ih
    · simp only [hc, decide_false, Bool.false_eq_true, if_false]
      exact ih

theorem retInPeriodM_congr (l m : List RetRowM) (start stop : ℤ)
    (h1 : (l.filter fun r => start ≤ r.time ∧ r.time ≤ stop).filterMap RetRowM.c =
      (m.filter fun r => start ≤ r.time ∧ r.time ≤ stop).filterMap RetRowM.c)
    (h2 : (l.filter fun r => start ≤ r.time ∧ r.time ≤ stop).head?.map RetRowM.oc =
      (m.filter fun r => start ≤ r.time ∧ r.time ≤ stop).head?.map RetRowM.oc) :
    retInPeriodM l start stop = retInPeriodM m start stop := by
  unfold retInPeriodM
  generalize (l.filter fun r => decide (start ≤ r.time ∧ r.time ≤ stop)) = X at h1 h2 ⊢
  generalize (m.filter fun r => decide (start ≤ r.time ∧ r.time ≤ stop)) = Y at h1 h2 ⊢
  cases X with
  | nil => cases Y with
    | nil => rfl
    | cons y ys => simp at h2
  | cons x xs => cases Y with
    | nil => simp at h2
    | cons y ys =>
      simp only [List.head?_cons, Option.map_some, Option.some.injEq] at h2
      simp only [h1, h2]

/-- C359.  The return of an event is that for any prices in the gaps if its first bar has an opening price and no close from the
bar before it to its end is missing (missing from the full claim: events over gaps). -/
theorem C359_inside_partial (fill : List PBar) (bars : List PBarM) (hf : FillsPBars fill bars) (start stop : ℤ)
    (ho : ∀ b, (bars.filter fun b => start ≤ b.time ∧ b.time ≤ stop).head? = some b → b.op ≠ none)
    (hk : ∀ (i : ℕ) b, bars[i]? = some b → start ≤ b.time → b.time ≤ stop →
      b.close ≠ none ∧ ∀ c, 1 ≤ i → bars[i - 1]? = some c → c.close ≠ none) :
    retInPeriodM (retRowsM none bars) start stop = (retInPeriod (retRows none fill) start stop).map some := by
  have hr : retRowsM none (fill.map PBar.toM) = (retRows none fill).map RetRow.toM := retRowsM_toM none fill
  have hlen : (retRows none fill).length = fill.length := by
    rw [← List.length_map (f := RetRow.toM), ← hr, (retRowsM_get _ _).1, List.length_map]
  have hA : ((retRowsM none bars).filter fun r => start ≤ r.time ∧ r.time ≤ stop).filterMap RetRowM.c =
      ((retRows none fill).filter fun r => start ≤ r.time ∧ r.time ≤ stop).filterMap RetRow.c := by
    apply filter_rows (P := fun t => start ≤ t ∧ t ≤ stop)
    rw [List.forall₂_iff_get]
    refine ⟨by rw [(retRowsM_get _ _).1, hlen, hf.length_eq], ?_⟩
    intro i h1 h2
    have hi : i < bars.length := by rw [(retRowsM_get _ _).1] at h1; exact h1
    have hb : bars[i]? = some bars[i] := List.getElem?_eq_getElem hi
    obtain ⟨f, hfi, hft, hfv⟩ := fillsP_at hf i _ hb
    have hfi' : (fill.map PBar.toM)[i]? = some f.toM := by rw [List.getElem?_map, hfi]; rfl
    obtain ⟨q, hq, e1⟩ := (retRowsM_get none bars).2 i _ hb
    obtain ⟨q', hq', e2⟩ := (retRowsM_get none (fill.map PBar.toM)).2 i _ hfi'
    rw [hr, List.getElem?_map, List.getElem?_eq_getElem h2, Option.map_some, Option.some.injEq] at e2
    have g1 : (retRowsM none bars).get ⟨i, h1⟩ = _ := Option.some_inj.1 ((List.getElem?_eq_getElem h1).symm.trans e1)
    have t2 : ((retRows none fill).get ⟨i, h2⟩).time = f.time := congrArg RetRowM.time e2
    have c2 : ((retRows none fill).get ⟨i, h2⟩).c = _ := congrArg RetRowM.c e2
    rw [g1, t2, c2]
    refine ⟨hft.symm, fun ha => ?_⟩
    obtain ⟨k1, k2⟩ := hk i _ hb ha.1 ha.2
    obtain ⟨x, hx⟩ := Option.ne_none_iff_exists'.1 k1
    have hqq : q = q' := by
      by_cases h0 : i = 0
      · rw [if_pos h0] at hq hq'
        rw [hq, hq']
      · rw [if_neg h0] at hq hq'
        obtain ⟨c, hc, rfl⟩ := hq
        obtain ⟨c', hc', rfl⟩ := hq'
        obtain ⟨y, hy⟩ := Option.ne_none_iff_exists'.1 (k2 c (by omega) hc)
        obtain ⟨g, hg, -, hgv⟩ := fillsP_at hf (i - 1) c hc
        rw [List.getElem?_map, hg] at hc'
        cases hc'
        simp only [hy, PBar.toM, hgv y hy]
    simp only [hqq, hx, PBar.toM, hfv x hx]
  have hB := filter_head (P := fun t => start ≤ t ∧ t ≤ stop) _ _ (retRowsM_oc none bars)
  have hC := filter_head (P := fun t => start ≤ t ∧ t ≤ stop) _ _ (retRowsM_oc none (fill.map PBar.toM))
  have hD := filter_fill (P := fun t => start ≤ t ∧ t ≤ stop) _ _ hf
  have hE : (bars.filter fun b => start ≤ b.time ∧ b.time ≤ stop).head?.map openCloseM =
      ((fill.map PBar.toM).filter fun b => start ≤ b.time ∧ b.time ≤ stop).head?.map openCloseM := by
    rw [List.filter_map, show ((fun b : PBarM => decide (start ≤ b.time ∧ b.time ≤ stop)) ∘ PBar.toM) =
      fun b : PBar => decide (start ≤ b.time ∧ b.time ≤ stop) from rfl]
    have hkc : ∀ b, (bars.filter fun b => start ≤ b.time ∧ b.time ≤ stop).head? = some b → b.close ≠ none := by
      intro b hb
      have hm := List.mem_filter.1 (List.mem_of_mem_head? hb)
      obtain ⟨i, hi⟩ := List.getElem?_of_mem hm.1
      have := of_decide_eq_true hm.2
      exact (hk i b hi this.1 this.2).1
    unfold FillsPBars at hD
    clear hA hB hC
    generalize (bars.filter fun b => decide (start ≤ b.time ∧ b.time ≤ stop)) = X at hD ho hkc ⊢
    generalize (fill.filter fun b => decide (start ≤ b.time ∧ b.time ≤ stop)) = Y at hD ⊢
    cases hD with
    | nil => rfl
    | @cons f b fs bs hfb _ =>
      simp only [List.map_cons, List.head?_cons, Option.map_some, Option.some.injEq]
      obtain ⟨x, hx⟩ := Option.ne_none_iff_exists'.1 (ho b rfl)
      obtain ⟨y, hy⟩ := Option.ne_none_iff_exists'.1 (hkc b rfl)
      simp only [openCloseM, PBar.toM, hx, hy, hfb.2.2.1 x hx, hfb.2.2.2 y hy]
  rw [← retInPeriodM_toM, ← hr]
  apply retInPeriodM_congr
  · rw [hA, hr, List.filter_map, List.filterMap_map]
    rfl
  · exact hB.trans (hE.trans hC.symm)

/-- C359.  The return of an event is NaN if the first bar lacks a price. -/
theorem C359_start (bars : List PBarM) (start stop : ℤ) (b : PBarM)
    (hb : (bars.filter fun b => start ≤ b.time ∧ b.time ≤ stop).head? = some b) (hn : b.op = none ∨ b.close = none) :
    retInPeriodM (retRowsM none bars) start stop = .ok none := by
  have hB := filter_head (P := fun t => start ≤ t ∧ t ≤ stop) _ _ (retRowsM_oc none bars)
  rw [hb, Option.map_some, show openCloseM b = none by
    unfold openCloseM
    rcases hn with h | h
    · rw [h]; cases b.close <;> rfl
    · rw [h]; rfl] at hB
  unfold retInPeriodM
  cases h : (retRowsM none bars).filter fun r => decide (start ≤ r.time ∧ r.time ≤ stop) with
  | nil => rw [h] at hB; cases hB
  | cons r rs =>
    rw [h] at hB
    simp only [List.head?_cons, Option.map_some, Option.some.injEq] at hB
    simp only [hB, Option.map_none]

/-- An event before the gap, and one that starts in it. -/
example : retInPeriodM (retRowsM none [⟨0, some 1, some 2⟩, ⟨1, some 2, some 3⟩, ⟨2, none, none⟩]) 0 1 =
      (retInPeriod (retRows none [⟨0, 1, 2⟩, ⟨1, 2, 3⟩, ⟨2, 7, 7⟩]) 0 1).map some ∧
    retInPeriodM (retRowsM none [⟨0, some 1, some 2⟩, ⟨1, some 2, some 3⟩, ⟨2, none, none⟩]) 2 2 = .ok none := by
  refine ⟨C359_inside_partial _ _ (by simp [FillsPBars]) _ _ (by simp) ?_, C359_start _ _ _ ⟨2, none, none⟩ (by simp) (by simp)⟩
  intro i b hb h0 h1
  match i with
  | 0 => simp at hb; subst hb; simp
  | 1 => simp at hb; subst hb; simp
  | 2 => simp at hb; subst hb; norm_num at h1
  | i + 3 => simp at hb

end FinML.Labels
