import Verif.Labels.WindowProps

/-! # Property C186: the options of `get_fixed_window_events` -/

namespace FinML.Labels

/-- C186, full claim: for a sorted table of positive prices, whatever the two options are, a call
that has events returns them with their returns. -/
def EveryOptionWorks : Prop := ∀ (bars : List PBar) (window gap : ℤ) (drop align : Bool)
  (ws : List Win), (∀ b ∈ bars, 0 < b.op ∧ 0 < b.close) → 0 ≤ gap → gap ≤ window →
  fixedWindows (bars.map PBar.time) window gap drop align = .ok ws → ws ≠ [] →
  ∃ rs, fixedWindowReturns bars window gap drop align = .ok rs ∧ rs.map Prod.fst = ws

theorem retRows_times (prev : Option ℝ) (bars : List PBar) :
    (retRows prev bars).map RetRow.time = bars.map PBar.time := by
  induction bars generalizing prev with
  | nil => rfl
  | cons b bs ih =>
    show b.time :: (retRows _ bs).map RetRow.time = b.time :: bs.map PBar.time
    rw [ih]

theorem retInPeriod_cases (bars : List PBar) (start stop : ℤ) :
    ((∃ b ∈ bars, start ≤ b.time ∧ b.time ≤ stop) →
      ∃ x, retInPeriod (retRows none bars) start stop = .ok x) ∧
    ((¬ ∃ b ∈ bars, start ≤ b.time ∧ b.time ≤ stop) →
      retInPeriod (retRows none bars) start stop = .error .indexError) := by
  have hmem : ∀ t, (∃ r ∈ retRows none bars, r.time = t) ↔ ∃ b ∈ bars, b.time = t := by
    intro t
    have := retRows_times none bars
    rw [← List.mem_map, ← List.mem_map, this]
  unfold retInPeriod
  constructor
  · rintro ⟨b, hb, h1⟩
    obtain ⟨r, hr, hrt⟩ := (hmem b.time).2 ⟨b, hb, rfl⟩
    cases hc : (retRows none bars).filter fun r => start ≤ r.time ∧ r.time ≤ stop with
    | nil =>
      have := List.filter_eq_nil_iff.1 hc r hr
      rw [hrt] at this
      exact absurd (decide_eq_true h1) this
    | cons r rs => exact ⟨_, rfl⟩
  · intro hno
    have hc : ((retRows none bars).filter fun r => start ≤ r.time ∧ r.time ≤ stop) = [] := by
      rw [List.filter_eq_nil_iff]
      intro r hr
      rw [decide_eq_true_eq]
      intro h
      obtain ⟨b, hb, hbt⟩ := (hmem r.time).1 ⟨r, hr, rfl⟩
      exact hno ⟨b, hb, by rw [hbt]; exact h⟩
    rw [hc]

theorem fixedWindowReturns_cases (bars : List PBar) (window gap : ℤ) (drop align : Bool)
    (ws : List Win) (hpos : ∀ b ∈ bars, 0 < b.op ∧ 0 < b.close)
    (hws : fixedWindows (bars.map PBar.time) window gap drop align = .ok ws) (hne : ws ≠ []) :
    ((∀ w ∈ ws, ∃ b ∈ bars, w.start ≤ b.time ∧ b.time ≤ w.stop) →
      ∃ rs, fixedWindowReturns bars window gap drop align = .ok rs ∧ rs.map Prod.fst = ws) ∧
    ((¬ ∀ w ∈ ws, ∃ b ∈ bars, w.start ≤ b.time ∧ b.time ≤ w.stop) →
      fixedWindowReturns bars window gap drop align = .error .indexError) := by
  classical
  have hunf : fixedWindowReturns bars window gap drop align = ws.mapM fun w => do
      let r ← retInPeriod (retRows none bars) w.start w.stop
      return (w, r) := by
    unfold fixedWindowReturns
    rw [hws, py_bind_ok, if_neg (by
      rintro (h | h)
      · exact hne h
      · exact h hpos)]
  rw [hunf]
  clear hunf hws hne
  induction ws with
  | nil => exact ⟨fun _ => ⟨[], rfl, rfl⟩, fun h => absurd (by simp) h⟩
  | cons w ws ih =>
    rw [mapM_cons_py]
    by_cases hw : ∃ b ∈ bars, w.start ≤ b.time ∧ b.time ≤ w.stop
    · obtain ⟨x, hx⟩ := (retInPeriod_cases bars w.start w.stop).1 hw
      rw [hx]
      constructor
      · intro h
        obtain ⟨rs, h1, h2⟩ := ih.1 (fun w' hw' => h w' (by simp [hw']))
        rw [h1]
        exact ⟨(w, x) :: rs, rfl, by rw [List.map_cons, h2]⟩
      · intro h
        rw [ih.2 (fun h' => h (by
          intro w' hw'
          rcases List.mem_cons.1 hw' with rfl | hw'
          · exact hw
          · exact h' w' hw'))]
        rfl
    · rw [(retInPeriod_cases bars w.start w.stop).2 hw]
      exact ⟨fun h => absurd (h w (by simp)) hw, fun _ => rfl⟩

/-- C186, what holds: with alignment every call that has events returns them with their returns; without
alignment it does so exactly if every window contains a bar, and raises IndexError otherwise; without
alignment and with partial events kept, a positive gap always makes it fail, because the window of the
last bar contains no bar (missing: the options `align_with_bars=False` with returns). -/
theorem C186_options_partial (bars : List PBar) (window gap : ℤ) (drop : Bool) (ws : List Win)
    (hpos : ∀ b ∈ bars, 0 < b.op ∧ 0 < b.close) (hgw : gap ≤ window) :
    (fixedWindows (bars.map PBar.time) window gap drop true = .ok ws → ws ≠ [] →
      ∃ rs, fixedWindowReturns bars window gap drop true = .ok rs ∧ rs.map Prod.fst = ws) ∧
    (fixedWindows (bars.map PBar.time) window gap drop false = .ok ws → ws ≠ [] →
      ((∀ w ∈ ws, ∃ b ∈ bars, w.start ≤ b.time ∧ b.time ≤ w.stop) →
        ∃ rs, fixedWindowReturns bars window gap drop false = .ok rs ∧ rs.map Prod.fst = ws) ∧
      ((∃ w ∈ ws, ∀ b ∈ bars, ¬ (w.start ≤ b.time ∧ b.time ≤ w.stop)) →
        fixedWindowReturns bars window gap drop false = .error .indexError)) ∧
    ((bars.map PBar.time).Pairwise (· < ·) → bars ≠ [] → 0 < gap →
      fixedWindowReturns bars window gap false false = .error .indexError) := by
  refine ⟨?_, ?_, ?_⟩
  · intro hws hne
    refine (fixedWindowReturns_cases bars window gap drop true ws hpos hws hne).1 ?_
    have hsorted : (bars.map PBar.time).Pairwise (· < ·) := by
      by_contra hn
      unfold fixedWindows at hws
      rw [if_pos hn] at hws
      cases hws
    obtain ⟨last, hlast⟩ : ∃ last, (bars.map PBar.time).getLast? = some last := by
      cases hb : bars with
      | nil =>
        subst hb
        exfalso
        apply hne
        cases drop with
        | true => cases hws
        | false => cases hws; rfl
      | cons b bs => exact ⟨_, List.getLast?_eq_some_getLast (by simp)⟩
    obtain ⟨ws', hws', _, _, hal, _, hle⟩ := C28_aligned_windows _ hsorted window gap drop last hlast
    rw [hws] at hws'
    cases hws'
    intro w hw
    obtain ⟨b, hb, hbt⟩ := List.mem_map.1 (hal w hw).start.1.1
    exact ⟨b, hb, hbt.ge, by rw [hbt]; exact hle hgw w hw⟩
  · intro hws hne
    have h := fixedWindowReturns_cases bars window gap drop false ws hpos hws hne
    refine ⟨h.1, fun hw => h.2 ?_⟩
    intro hall
    obtain ⟨w, hw, hno⟩ := hw
    obtain ⟨b, hb, hbt⟩ := hall w hw
    exact hno b hb hbt
  · intro hs hne hgap
    obtain ⟨last, hlast⟩ : ∃ last, (bars.map PBar.time).getLast? = some last :=
      ⟨_, List.getLast?_eq_some_getLast (by simpa using hne)⟩
    have hws := (C28_unaligned_windows (bars.map PBar.time) hs window gap false).1 last hlast
    have hlm := List.mem_of_getLast? hlast
    have hmem : (⟨last, last + gap, last + window⟩ : Win) ∈
        (((bars.map PBar.time).filter fun t => false = true → t + window ≤ last).map
          fun t => (⟨t, t + gap, t + window⟩ : Win)) :=
      List.mem_map.2 ⟨last, List.mem_filter.2 ⟨hlm, by simp⟩, rfl⟩
    refine (fixedWindowReturns_cases bars window gap false false _ hpos hws
      (List.ne_nil_of_mem hmem)).2 ?_
    intro hall
    obtain ⟨b, hb, hbt, _⟩ := hall _ hmem
    have hb' : b.time ≤ last := by
      have hbm : b.time ∈ bars.map PBar.time := List.mem_map.2 ⟨b, hb, rfl⟩
      obtain ⟨i, hi, hie⟩ := List.getElem_of_mem hbm
      have hlg : (bars.map PBar.time)[(bars.map PBar.time).length - 1]? = some last := by
        rw [← List.getLast?_eq_getElem?]; exact hlast
      obtain ⟨h1, h2⟩ := List.getElem?_eq_some_iff.1 hlg
      rcases Nat.lt_or_eq_of_le (show i ≤ (bars.map PBar.time).length - 1 by omega) with h | h
      · rw [← h2, ← hie]; exact (List.pairwise_iff_getElem.1 hs _ _ hi h1 h).le
      · rw [← h2, ← hie]; simp [h]
    simp only at hbt
    omega

/-- C186, counterexample: three bars, windows of two bars starting one bar later, partial events kept,
no alignment. -/
theorem C186_unaligned_counterexample : ¬ EveryOptionWorks := by
  intro h
  have hs : (fwBars.map PBar.time).Pairwise (· < ·) := by
    show ([0, 1, 2] : List ℤ).Pairwise (· < ·)
    decide
  have hws := (C28_unaligned_windows (fwBars.map PBar.time) hs 2 1 false).1 2 rfl
  obtain ⟨rs, h1, _⟩ := h fwBars 2 1 false false _ fwBars_pos (by norm_num) (by norm_num) hws
    (by simp [fwBars])
  have h2 := (C186_options_partial fwBars 2 1 false [] fwBars_pos (by norm_num)).2.2 hs
    (by simp [fwBars]) (by norm_num)
  rw [h1] at h2
  cases h2

/-- The aligned call on the same bars has two events with partial ones kept, one without. -/
example : fixedWindows (fwBars.map PBar.time) 2 1 false true = .ok [⟨0, 1, 2⟩, ⟨1, 2, 2⟩] ∧
    fixedWindows (fwBars.map PBar.time) 2 1 true false = .ok [⟨0, 1, 2⟩] := by
  show fixedWindows [0, 1, 2] 2 1 false true = _ ∧ fixedWindows [0, 1, 2] 2 1 true false = _
  decide

end FinML.Labels
