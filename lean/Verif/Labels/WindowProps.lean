import Verif.Labels.WindowModel
import Verif.Py.Search
import Mathlib.Data.List.GetD
import Mathlib.Tactic.NormNum
import Mathlib.Tactic.Linarith

/-! # Properties C28, C29: fixed-window events -/

namespace FinML.Labels

/-- `x` is the first bar at or after `t`. -/
def FirstBarFrom (index : List ℤ) (t x : ℤ) : Prop := IsLeast {b | b ∈ index ∧ t ≤ b} x

/-- The specification of an aligned window of the bar at `b`. -/
structure AlignedWindow (index : List ℤ) (window gap : ℤ) (last : ℤ) (w : Win) : Prop where
  bar : w.bar ∈ index
  start : FirstBarFrom index (w.bar + gap) w.start
  stop : (∃ b ∈ index, w.bar + window ≤ b) → FirstBarFrom index (w.bar + window) w.stop
  clip : (∀ b ∈ index, b < w.bar + window) → w.stop = last

theorem fixedWindows_eq (index : List ℤ) (hs : index.Pairwise (· < ·)) (window gap : ℤ)
    (drop align : Bool) (last : ℤ) (hl : index.getLast? = some last) :
    fixedWindows index window gap drop align = .ok
      (let ws1 := (index.map fun t => (⟨t, t + gap, t + window⟩ : Win)).filter
          fun w => drop = true → w.stop ≤ last
       if align then alignStop index (alignStart index ws1) else ws1) := by
  unfold fixedWindows dropPartial
  rw [if_neg (not_not.2 hs), (pyLast_eq_ok_iff _ _).2 hl]
  cases drop with
  | true => simp [py_bind_ok, py_pure]
  | false => simp [py_bind_ok, py_pure]

/-- C28.  On a non-empty sorted index the call succeeds; with alignment the events are those of the
bars that have a bar at or after `bar + gap` (and, when partial events are dropped, whose window ends
by the last bar), in order, each starting at the first bar at or after `bar + gap` and ending at the
first bar at or after `bar + window`, or at the last bar if there is none; the start is not after the
end when `gap ≤ window`. -/
theorem C28_aligned_windows (index : List ℤ) (hs : index.Pairwise (· < ·)) (window gap : ℤ)
    (drop : Bool) (last : ℤ) (hl : index.getLast? = some last) :
    ∃ ws, fixedWindows index window gap drop true = .ok ws ∧
      (ws.map Win.bar).Sublist index ∧
      (∀ b ∈ index, b ∈ ws.map Win.bar ↔
        (∃ x ∈ index, b + gap ≤ x) ∧ (drop = true → b + window ≤ last)) ∧
      (∀ w ∈ ws, AlignedWindow index window gap last w) ∧
      (∀ w ∈ ws, drop = true → FirstBarFrom index (w.bar + window) w.stop) ∧
      (gap ≤ window → ∀ w ∈ ws, w.start ≤ w.stop) := by
  have hle : index.Pairwise (· ≤ ·) := hs.imp le_of_lt
  have hne : index ≠ [] := by rintro rfl; simp at hl
  have hlen : 0 < index.length := List.length_pos_iff.2 hne
  have hlastmem : last ∈ index := List.mem_of_getLast? hl
  have hlastget : index[index.length - 1]? = some last := by rw [← List.getLast?_eq_getElem?]; exact hl
  have hlastge : ∀ b ∈ index, b ≤ last := by
    intro b hb
    obtain ⟨i, hi, rfl⟩ := List.getElem_of_mem hb
    obtain ⟨h1, h2⟩ := List.getElem?_eq_some_iff.1 hlastget
    rcases Nat.lt_or_eq_of_le (show i ≤ index.length - 1 by omega) with h | h
    · rw [← h2]; exact List.pairwise_iff_getElem.1 hle _ _ hi h1 h
    · subst h2; simp [h]
  refine ⟨_, fixedWindows_eq index hs window gap drop true last hl, ?_⟩
  simp only [if_true]
  -- explicit form of the result
  have hform : alignStop index (alignStart index
      ((index.map fun t => (⟨t, t + gap, t + window⟩ : Win)).filter
        fun w => drop = true → w.stop ≤ last)) =
      (index.filter fun t => decide (searchLeft index (t + gap) < index.length) &&
        decide (drop = true → t + window ≤ last)).map fun t =>
        (⟨t, index.getD (searchLeft index (t + gap)) 0,
          index.getD (min (searchLeft index (t + window)) (index.length - 1)) 0⟩ : Win) := by
    unfold alignStop alignStart
    rw [List.filter_map, List.filter_map, List.filter_filter, List.map_map, List.map_map]
    rfl
  rw [hform]
  have hspec : ∀ t ∈ index, searchLeft index (t + gap) < index.length →
      AlignedWindow index window gap last ⟨t, index.getD (searchLeft index (t + gap)) 0,
          index.getD (min (searchLeft index (t + window)) (index.length - 1)) 0⟩ := by
    intro t ht hst
    refine ⟨ht, ?_, ?_, ?_⟩
    · rw [List.getD_eq_getElem _ _ hst]
      exact (getElem?_searchLeft index hle _ _).1 (List.getElem?_eq_getElem hst)
    · intro hx
      have h1 : searchLeft index (t + window) < index.length :=
        (searchLeft_lt_length_iff index hle _).2 hx
      simp only
      rw [min_eq_left (by omega), List.getD_eq_getElem _ _ h1]
      exact (getElem?_searchLeft index hle _ _).1 (List.getElem?_eq_getElem h1)
    · intro hx
      have h1 : searchLeft index (t + window) = index.length :=
        (searchLeft_eq_length_iff index hle _).2 hx
      simp only
      rw [min_eq_right (by omega), List.getD_eq_getElem?_getD, hlastget]
      rfl
  have hbars : ∀ l : List ℤ, (l.map fun t =>
        (⟨t, index.getD (searchLeft index (t + gap)) 0,
          index.getD (min (searchLeft index (t + window)) (index.length - 1)) 0⟩ : Win)).map Win.bar =
        l := by
    intro l
    rw [List.map_map]
    conv_rhs => rw [← List.map_id l]
    rfl
  have hmem : ∀ w, w ∈ ((index.filter fun t => decide (searchLeft index (t + gap) < index.length) &&
        decide (drop = true → t + window ≤ last)).map fun t =>
        (⟨t, index.getD (searchLeft index (t + gap)) 0,
          index.getD (min (searchLeft index (t + window)) (index.length - 1)) 0⟩ : Win)) →
      AlignedWindow index window gap last w ∧ (drop = true → w.bar + window ≤ last) := by
    intro w hw
    obtain ⟨t, ht, rfl⟩ := List.mem_map.1 hw
    rw [List.mem_filter, Bool.and_eq_true, decide_eq_true_iff, decide_eq_true_iff] at ht
    exact ⟨hspec t ht.1 ht.2.1, ht.2.2⟩
  refine ⟨?_, ?_, ?_, ?_, ?_⟩
  · rw [hbars]; exact List.filter_sublist
  · intro b hb
    rw [hbars, List.mem_filter, Bool.and_eq_true, decide_eq_true_iff, decide_eq_true_iff,
      searchLeft_lt_length_iff index hle]
    exact ⟨fun h => h.2, fun h => ⟨hb, h⟩⟩
  · intro w hw; exact (hmem w hw).1
  · intro w hw hd
    exact (hmem w hw).1.stop ⟨last, hlastmem, (hmem w hw).2 hd⟩
  · intro hgw w hw
    have h := (hmem w hw).1
    by_cases hx : ∃ b ∈ index, w.bar + window ≤ b
    · have h2 := h.stop hx
      exact h.start.2 ⟨h2.1.1, by have := h2.1.2; omega⟩
    · push Not at hx
      rw [h.clip hx]
      exact hlastge _ h.start.1.1

/-- C28.  Without alignment the times are the plain sums; an empty index raises when partial events
are to be dropped. -/
theorem C28_unaligned_windows (index : List ℤ) (hs : index.Pairwise (· < ·)) (window gap : ℤ)
    (drop : Bool) :
    (∀ last, index.getLast? = some last →
      fixedWindows index window gap drop false = .ok
        ((index.filter fun t => drop = true → t + window ≤ last).map
          fun t => ⟨t, t + gap, t + window⟩)) ∧
    (index = [] → fixedWindows index window gap true false = .error .indexError ∧
      fixedWindows index window gap true true = .error .indexError) := by
  constructor
  · intro last hl
    rw [fixedWindows_eq index hs window gap drop false last hl]
    simp only [List.filter_map]
    rfl
  · rintro rfl
    exact ⟨rfl, rfl⟩

example : fixedWindows [0, 10, 20, 30] 15 5 false true =
    .ok [⟨0, 10, 20⟩, ⟨10, 20, 30⟩, ⟨20, 30, 30⟩] := by decide
example : fixedWindows [0, 10, 20, 30] 15 5 true true = .ok [⟨0, 10, 20⟩, ⟨10, 20, 30⟩] := by decide

/-! ## C29 -/

/-- C29, full claim: the return of an event is the log return from the open of its start bar to the
close of its end bar. -/
def ReturnOpenToClose : Prop := ∀ (bars : List PBar) (window gap : ℤ) (drop : Bool)
  (rs : List (Win × ℝ)), gap ≤ window → fixedWindowReturns bars window gap drop true = .ok rs →
  ∀ wr ∈ rs, ∃ a ∈ bars, ∃ b ∈ bars, a.time = wr.1.start ∧ b.time = wr.1.stop ∧
    wr.2 = Real.log (b.close / a.op)

theorem sum_c_telescope (prev : Option ℝ) (x : PBar) (bs : List PBar) (stop : ℤ) (hx : x.time ≤ stop)
    (hs : ((x :: bs).map PBar.time).Pairwise (· < ·)) (z : PBar) (hz : z ∈ x :: bs)
    (hzt : z.time = stop) :
    (((retRows prev (x :: bs)).filter fun r => r.time ≤ stop).filterMap RetRow.c).sum =
      Real.log z.close - Real.log x.close + ((prev.map fun p => Real.log x.close - p).getD 0) := by
  induction bs generalizing prev x with
  | nil =>
    rw [List.mem_singleton] at hz
    subst hz
    cases prev with
    | none => simp [retRows, hx]
    | some p => simp [retRows, hx]
  | cons y bs ih =>
    have hxy : x.time < y.time := (List.pairwise_cons.1 hs).1 _ (by simp)
    have hs2 : ((y :: bs).map PBar.time).Pairwise (· < ·) := (List.pairwise_cons.1 hs).2
    have hrow : retRows prev (x :: y :: bs) =
        ⟨x.time, prev.map fun p => Real.log x.close - p, Real.log (x.close / x.op)⟩ ::
          retRows (some (Real.log x.close)) (y :: bs) := rfl
    rw [hrow, List.filter_cons_of_pos (by simpa using hx)]
    have hsplit : ∀ (o : Option ℝ) (t : ℤ) (q : ℝ) (l : List RetRow),
        ((⟨t, o, q⟩ :: l : List RetRow).filterMap RetRow.c).sum =
          o.getD 0 + (l.filterMap RetRow.c).sum := by
      intro o t q l
      cases o <;> simp
    rw [hsplit]
    rcases List.mem_cons.1 hz with rfl | hz'
    · have hall : ((retRows (some (Real.log z.close)) (y :: bs)).filter
          fun r => r.time ≤ stop) = [] := by
        rw [List.filter_eq_nil_iff]
        have hgen : ∀ (l : List PBar) (p : Option ℝ), ∀ r ∈ retRows p l, ∃ b ∈ l, r.time = b.time := by
          intro l
          induction l with
          | nil => intro p r hr; simp [retRows] at hr
          | cons a l ihl =>
            intro p r hr
            rcases List.mem_cons.1 hr with rfl | hr
            · exact ⟨a, by simp, rfl⟩
            · obtain ⟨b, hb, hbt⟩ := ihl _ r hr
              exact ⟨b, by simp [hb], hbt⟩
        intro r hr
        obtain ⟨b, hb, hbt⟩ := hgen _ _ r hr
        have := (List.pairwise_cons.1 hs).1 b.time (List.mem_map.2 ⟨b, hb, rfl⟩)
        simp only [decide_eq_true_eq, not_le]
        omega
      rw [hall]
      cases prev <;> simp
    · have hy : y.time ≤ stop := by
        rcases List.mem_cons.1 hz' with rfl | hz''
        · omega
        · have := (List.pairwise_cons.1 hs2).1 z.time (List.mem_map.2 ⟨z, hz'', rfl⟩)
          omega
      rw [ih (some (Real.log x.close)) y hy hs2 hz']
      simp only [Option.map_some, Option.getD_some]
      ring

/-- The close-to-close log return of the bar at `t`, 0 for the first bar. -/
noncomputable def prevReturn : List PBar → ℤ → ℝ
  | a :: b :: bs, t => if b.time = t then Real.log (b.close / a.close) else prevReturn (b :: bs) t
  | _, _ => 0

theorem retInPeriod_eq (bars : List PBar) (hs : (bars.map PBar.time).Pairwise (· < ·))
    (hpos : ∀ b ∈ bars, 0 < b.op ∧ 0 < b.close) (x z : PBar) (hx : x ∈ bars) (hz : z ∈ bars)
    (hxz : x.time ≤ z.time) (prev : Option ℝ) :
    retInPeriod (retRows prev bars) x.time z.time =
      .ok (Real.log (z.close / x.op) +
        (match bars with
          | [] => 0
          | b :: _ => if b.time = x.time then (prev.map fun p => Real.log b.close - p).getD 0
              else prevReturn bars x.time)) := by
  induction bars generalizing prev with
  | nil => cases hx
  | cons a bs ih =>
    by_cases hax : a.time = x.time
    · -- the event starts at the first bar of the list
      have hxa : x = a := by
        rcases List.mem_cons.1 hx with h | h
        · exact h
        · have := (List.pairwise_cons.1 hs).1 x.time (List.mem_map.2 ⟨x, h, rfl⟩)
          omega
      subst hxa
      have hfil : ((retRows prev (x :: bs)).filter fun r => x.time ≤ r.time ∧ r.time ≤ z.time) =
          (retRows prev (x :: bs)).filter fun r => r.time ≤ z.time := by
        apply List.filter_congr
        have hgen : ∀ (l : List PBar) (p : Option ℝ), ∀ r ∈ retRows p l, ∃ b ∈ l, r.time = b.time := by
          intro l
          induction l with
          | nil => intro p r hr; simp [retRows] at hr
          | cons a l ihl =>
            intro p r hr
            rcases List.mem_cons.1 hr with rfl | hr
            · exact ⟨a, by simp, rfl⟩
            · obtain ⟨b, hb, hbt⟩ := ihl _ r hr
              exact ⟨b, by simp [hb], hbt⟩
        intro r hr
        obtain ⟨b, hb, hbt⟩ := hgen _ _ r hr
        have : x.time ≤ r.time := by
          rw [hbt]
          rcases List.mem_cons.1 hb with rfl | h
          · exact le_refl _
          · exact ((List.pairwise_cons.1 hs).1 b.time (List.mem_map.2 ⟨b, h, rfl⟩)).le
        simp [this]
      have htel := sum_c_telescope prev x bs z.time hxz hs z hz rfl
      unfold retInPeriod
      rw [hfil]
      have hcons : ((retRows prev (x :: bs)).filter fun r => r.time ≤ z.time) =
          ⟨x.time, prev.map fun p => Real.log x.close - p, Real.log (x.close / x.op)⟩ ::
            (retRows (some (Real.log x.close)) bs).filter fun r => r.time ≤ z.time := by
        show List.filter _ (_ :: _) = _
        rw [List.filter_cons_of_pos (by simpa using hxz)]
      rw [hcons] at htel ⊢
      simp only
      rw [htel]
      congr 1
      obtain ⟨h1, h2⟩ := hpos x hx
      obtain ⟨_, h3⟩ := hpos z hz
      rw [if_pos trivial, Real.log_div h2.ne' h1.ne', Real.log_div h3.ne' h1.ne']
      ring
    · have hx' : x ∈ bs := (List.mem_cons.1 hx).resolve_left (by rintro rfl; exact hax rfl)
      have hax' : a.time < x.time := (List.pairwise_cons.1 hs).1 _ (List.mem_map.2 ⟨x, hx', rfl⟩)
      have hz' : z ∈ bs := (List.mem_cons.1 hz).resolve_left (by rintro rfl; omega)
      have hskip : retInPeriod (retRows prev (a :: bs)) x.time z.time =
          retInPeriod (retRows (some (Real.log a.close)) bs) x.time z.time := by
        unfold retInPeriod
        have : (retRows prev (a :: bs)).filter (fun r => x.time ≤ r.time ∧ r.time ≤ z.time) =
            (retRows (some (Real.log a.close)) bs).filter
              (fun r => x.time ≤ r.time ∧ r.time ≤ z.time) := by
          show List.filter _ (_ :: _) = _
          rw [List.filter_cons_of_neg (by simp; omega)]
        rw [this]
      rw [hskip, ih (List.pairwise_cons.1 hs).2 (fun b hb => hpos b (by simp [hb])) hx' hz'
        (some (Real.log a.close))]
      cases bs with
      | nil => cases hx'
      | cons b bs =>
        simp only [if_neg hax, prevReturn, Option.map_some, Option.getD_some]
        by_cases hb : b.time = x.time
        · rw [if_pos hb, if_pos hb, Real.log_div (hpos b (by simp)).2.ne' (hpos a (by simp)).2.ne']
        · rw [if_neg hb, if_neg hb]

/-- C29, what holds: the return is the open-to-close log return of the event *plus* the
close-to-close log return of its start bar (missing: that term should not be there). -/
theorem C29_window_return_partial (bars : List PBar) (window gap : ℤ) (drop : Bool)
    (rs : List (Win × ℝ)) (hgw : gap ≤ window)
    (h : fixedWindowReturns bars window gap drop true = .ok rs) :
    ∀ wr ∈ rs, ∃ a ∈ bars, ∃ b ∈ bars, a.time = wr.1.start ∧ b.time = wr.1.stop ∧
      wr.2 = Real.log (b.close / a.op) + prevReturn bars a.time ∧
      ((∀ c ∈ bars, a.time ≤ c.time) → wr.2 = Real.log (b.close / a.op)) := by
  classical
  unfold fixedWindowReturns at h
  rw [py_bind_eq_ok] at h
  obtain ⟨ws, hws, h⟩ := h
  by_cases hc : ws = [] ∨ ¬ ∀ b ∈ bars, 0 < b.op ∧ 0 < b.close
  · rw [if_pos hc] at h; cases h
  rw [if_neg hc] at h
  obtain ⟨hfst, hval⟩ := mapM_pair_ok _ _ _ h
  obtain ⟨hne, hpos⟩ := not_or.1 hc
  rw [not_not] at hpos
  have hsorted : (bars.map PBar.time).Pairwise (· < ·) := by
    by_contra hn
    unfold fixedWindows at hws
    rw [if_pos hn] at hws
    cases hws
  have hlast : ∃ last, (bars.map PBar.time).getLast? = some last := by
    cases hb : bars with
    | nil =>
      subst hb
      exfalso
      apply hne
      cases drop with
      | true => cases hws
      | false => cases hws; rfl
    | cons b bs => exact ⟨_, List.getLast?_eq_some_getLast (by simp)⟩
  obtain ⟨last, hlast⟩ := hlast
  obtain ⟨ws', hws', _, _, hal, _, hle⟩ := C28_aligned_windows _ hsorted window gap drop last hlast
  rw [hws] at hws'
  cases hws'
  intro wr hwr
  obtain ⟨w, hw, hret, hweq⟩ : ∃ w ∈ ws, retInPeriod (retRows none bars) w.start w.stop = .ok wr.2 ∧
      wr.1 = w := ⟨wr.1, by rw [← hfst]; exact List.mem_map.2 ⟨wr, hwr, rfl⟩, hval wr hwr, rfl⟩
  have ha := hal w hw
  have hl := hle hgw w hw
  have hstop : w.stop ∈ bars.map PBar.time := by
    by_cases hx : ∃ b ∈ bars.map PBar.time, w.bar + window ≤ b
    · exact (ha.stop hx).1.1
    · push Not at hx
      rw [ha.clip hx]; exact List.mem_of_getLast? hlast
  obtain ⟨a, ham, hat⟩ := List.mem_map.1 ha.start.1.1
  obtain ⟨b, hbm, hbt⟩ := List.mem_map.1 hstop
  have heq := retInPeriod_eq bars hsorted hpos a b ham hbm (by rw [hat, hbt]; exact hl) none
  rw [hat, hbt, hret] at heq
  have heq' := Except.ok.inj heq
  refine ⟨a, ham, b, hbm, by rw [hweq, hat], by rw [hweq, hbt], ?_, ?_⟩
  · rw [heq', hat]
    congr 1
    cases bars with
    | nil => cases ham
    | cons c cs =>
      simp only [Option.map_none, Option.getD_none]
      by_cases hc : c.time = w.start
      · rw [if_pos hc]
        cases cs with
        | nil => rfl
        | cons d ds =>
          -- no later bar has this time
          have hno : ∀ (l : List PBar) (p : PBar), (∀ q ∈ l, q.time ≠ w.start) →
              prevReturn (p :: l) w.start = 0 := by
            intro l
            induction l with
            | nil => intro p _; rfl
            | cons q l ihl =>
              intro p hq
              show (if q.time = w.start then _ else prevReturn (q :: l) w.start) = 0
              rw [if_neg (hq q (by simp))]
              exact ihl q (fun r hr => hq r (by simp [hr]))
          rw [hno (d :: ds) c]
          intro q hq
          have := (List.pairwise_cons.1 hsorted).1 q.time (List.mem_map.2 ⟨q, hq, rfl⟩)
          omega
      · rw [if_neg hc]
  · intro hfirst
    rw [heq']
    cases bars with
    | nil => cases ham
    | cons c cs =>
      have hc : c.time = w.start := by
        have h1 := hfirst c (by simp)
        rcases List.mem_cons.1 ham with rfl | h2
        · exact hat
        · have := (List.pairwise_cons.1 hsorted).1 a.time (List.mem_map.2 ⟨a, h2, rfl⟩)
          omega
      simp [hc]

/-- Three bars: flat from 1 to 1, then from 2 to 2. -/
def fwBars : List PBar := [⟨0, 1, 1⟩, ⟨1, 2, 2⟩, ⟨2, 2, 2⟩]

theorem fwBars_pos : ∀ b ∈ fwBars, 0 < b.op ∧ 0 < b.close := by
  intro b hb
  simp only [fwBars, List.mem_cons, List.not_mem_nil, or_false] at hb
  rcases hb with rfl | rfl | rfl <;> norm_num

theorem fwReturns : ∃ r, fixedWindowReturns fwBars 2 1 true true = .ok [(⟨0, 1, 2⟩, r)] ∧
    r = Real.log (2 / 2) + Real.log (2 / 1) := by
  classical
  have hw : fixedWindows (fwBars.map PBar.time) 2 1 true true = .ok [⟨0, 1, 2⟩] := by
    have : fwBars.map PBar.time = [0, 1, 2] := rfl
    rw [this]; decide
  have hsorted : (fwBars.map PBar.time).Pairwise (· < ·) := by
    have : fwBars.map PBar.time = [0, 1, 2] := rfl
    rw [this]; decide
  have hr := retInPeriod_eq fwBars hsorted fwBars_pos ⟨1, 2, 2⟩ ⟨2, 2, 2⟩ (by simp [fwBars])
    (by simp [fwBars]) (by norm_num) none
  refine ⟨_, ?_, rfl⟩
  unfold fixedWindowReturns
  rw [hw, py_bind_ok, if_neg (by
    rintro (h | h)
    · cases h
    · exact h fwBars_pos), mapM_cons_py]
  simp only at hr ⊢
  rw [hr]
  simp [fwBars, prevReturn, py_bind_ok, py_pure]

/-- C29, counterexample: bars with open = close, 1 then 2 then 2.  The event from bar 1 to bar 2 has
open-to-close return 0, the code reports log 2. -/
theorem C29_window_return_counterexample : ¬ ReturnOpenToClose := by
  intro h
  obtain ⟨r, hr, hval⟩ := fwReturns
  obtain ⟨a, ha, b, hb, hat, hbt, hret⟩ := h fwBars 2 1 true _ (by norm_num) hr
    (⟨0, 1, 2⟩, r) (by simp)
  simp only [fwBars, List.mem_cons, List.not_mem_nil, or_false] at ha hb
  have ha' : a.op = 2 := by rcases ha with rfl | rfl | rfl <;> simp_all
  have hb' : b.close = 2 := by rcases hb with rfl | rfl | rfl <;> simp_all
  rw [ha', hb'] at hret
  simp only at hret
  rw [hval] at hret
  have h2 : (0 : ℝ) < Real.log 2 := Real.log_pos (by norm_num)
  norm_num at hret

end FinML.Labels
