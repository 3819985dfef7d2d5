import Verif.CV.Props
import Verif.CV.KFoldProps
import Verif.FracDiff.Props

/-!
# Property C229: an embargo as long as the window keeps test prices out of train features

Purging keeps the outcome of a train event apart from the test events.  Its features look back from the
start of the event; the embargo is there to keep this window clear of the test period as well.
-/

set_option linter.unusedSectionVars false

namespace FinML.CV

open FinML.FracDiff

variable {K : Type} [Field K] [LinearOrder K] [IsStrictOrderedRing K] [FloorRing K]

/-- The bars `a - w, …, a` all lie outside the test intervals. -/
def WindowClear (bars : List ℤ) (tests : List (ℤ × ℤ)) (w a : ℕ) : Prop :=
  ∀ (j : ℕ) (b : ℤ), j ≤ a → a ≤ j + w → bars[j]? = some b → ∀ t ∈ tests, b < t.1 ∨ t.2 < b

theorem sorted_getElem?_lt {bars : List ℤ} (hb : bars.Pairwise (· < ·)) {i j : ℕ} {x y : ℤ}
    (hx : bars[i]? = some x) (hy : bars[j]? = some y) : x < y ↔ i < j := by
  obtain ⟨hi, rfl⟩ := List.getElem?_eq_some_iff.1 hx
  obtain ⟨hj, rfl⟩ := List.getElem?_eq_some_iff.1 hy
  constructor
  · intro h
    by_contra hc
    rcases Nat.lt_or_ge j i with h1 | h1
    · exact absurd (List.pairwise_iff_getElem.1 hb j i hj hi h1) (not_lt.2 h.le)
    · have : i = j := by omega
      subst this
      exact lt_irrefl _ h
  · exact fun h => List.pairwise_iff_getElem.1 hb i j hi hj h

theorem sorted_getElem?_le {bars : List ℤ} (hb : bars.Pairwise (· < ·)) {i j : ℕ} {x y : ℤ}
    (hx : bars[i]? = some x) (hy : bars[j]? = some y) : x ≤ y ↔ i ≤ j := by
  rw [← not_lt, sorted_getElem?_lt hb hy hx, not_lt]

/-- C229.  Purging with an embargo of `s` bars: if features look back over at most `s` bars, the window of
every train event (from `w` bars before its start to its start) is clear of all test intervals. -/
theorem C229_embargo_window (events tests : List (ℤ × ℤ)) (he : ∀ e ∈ events, e.1 ≤ e.2)
    (ht : ∀ t ∈ tests, t.1 ≤ t.2) (bars : List ℤ) (hbars : bars.Pairwise (· < ·))
    (hends : ∀ t ∈ tests, t.2 ∈ bars) (hb : bars ≠ []) (pct : K) (s : ℕ)
    (hs : pyInt ((bars.length : K) * pct) = s) (train : List ℕ)
    (h : applyPurging (events.map closeEv) (tests.map closeEv) (some bars) pct = .ok train)
    (w : ℕ) (hw : w ≤ s) (i : ℕ) (hi : i ∈ train) (ev : ℤ × ℤ) (hev : events[i]? = some ev) (a : ℕ)
    (ha : bars[a]? = some ev.1) : WindowClear bars tests w a := by
  obtain ⟨ext, hext, _, hok⟩ := C40_embargo events tests he ht bars hbars hends hb pct s hs
  rw [hok] at h
  obtain rfl := Except.ok.inj h
  obtain ⟨ev', hev', hap⟩ := (mem_admissible _ _ _).1 hi
  rw [hev] at hev'
  obtain rfl := Option.some.inj hev'
  intro j b hja haj hbj t htt
  obtain ⟨k, hk⟩ := List.mem_iff_getElem?.1 htt
  obtain ⟨t', hkt', hrel⟩ : ∃ t', ext[k]? = some t' ∧ Embargoed bars s t t' := by
    have hl := hext.length_eq
    obtain ⟨hk1, hk2⟩ := List.getElem?_eq_some_iff.1 hk
    refine ⟨ext[k]'(hl ▸ hk1), List.getElem?_eq_getElem (hl ▸ hk1), ?_⟩
    have := (List.forall₂_iff_get.1 hext).2 k hk1 (hl ▸ hk1)
    simpa [hk2] using this
  obtain ⟨h1, p, hp, hp'⟩ := hrel
  have hba : b ≤ ev.1 := (sorted_getElem?_le hbars hbj ha).2 hja
  rcases hap t' (List.mem_of_getElem? hkt') with hlt | hlt
  · left
    have := he ev (List.mem_of_getElem? hev)
    omega
  · right
    have h2 := (sorted_getElem?_lt hbars hp' ha).1 hlt
    have hlen := (List.getElem?_eq_some_iff.1 ha).1
    rw [sorted_getElem?_lt hbars hp hbj]
    omega

/-- Bars 0 to 5 one event per bar, tested at bar 1 with an embargo of 2 of 6 bars: event 4 is used for
training, and its window of 2 bars back is clear; a window of 3 bars back would not be. -/
example : applyPurging (([(0, 0), (1, 1), (2, 2), (3, 3), (4, 4), (5, 5)] : List (ℤ × ℤ)).map closeEv)
      (([(1, 1)] : List (ℤ × ℤ)).map closeEv) (some [0, 1, 2, 3, 4, 5]) (1 / 3 : ℚ) = .ok [0, 4, 5] ∧
    ¬ WindowClear [0, 1, 2, 3, 4, 5] [(1, 1)] 3 4 := by
  refine ⟨by decide +kernel, ?_⟩
  intro h
  have := h 1 1 (by decide) (by decide) rfl (1, 1) (by simp)
  omega

/-- C229.  PurgedKFold counts the embargo in events and always skips one more: with events ordered by
distinct starts at bars, windows of up to `1 + int(n*pct)` bars back are clear of all test intervals. -/
theorem C229_kfold_window (events : List (ℤ × ℤ)) (hst : (events.map Prod.fst).Pairwise (· < ·))
    (he : ∀ e ∈ events, e.1 ≤ e.2) (bars : List ℤ) (hbars : bars.Pairwise (· < ·))
    (hstarts : ∀ e ∈ events, e.1 ∈ bars) (nSplits : ℤ) (pct : K) (hp : 0 ≤ pct)
    (folds : List (List ℕ × List ℕ))
    (h : kfoldSplit nSplits pct (.series true (events.map closeEv)) = .ok folds)
    (f : List ℕ × List ℕ) (hf : f ∈ folds) (w : ℕ) (hw : (w : ℤ) ≤ 1 + ⌊(events.length : K) * pct⌋)
    (i : ℕ) (hi : i ∈ f.1) (ev : ℤ × ℤ) (hev : events[i]? = some ev) (a : ℕ)
    (ha : bars[a]? = some ev.1) :
    WindowClear bars (f.2.filterMap fun y => events[y]?) w a := by
  obtain ⟨hno, -, -⟩ := C42_no_leak events (hst.imp le_of_lt) he nSplits pct hp folds h f hf
  obtain ⟨ev', hev', hcase⟩ := hno i hi
  rw [hev] at hev'
  obtain rfl := Option.some.inj hev'
  intro j b hja haj hbj t htt
  obtain ⟨y, hy, hyt⟩ := List.mem_filterMap.1 htt
  have hba : b ≤ ev.1 := (sorted_getElem?_le hbars hbj ha).2 hja
  rcases hcase with hlt | ⟨-, first, hfirst, hx⟩
  · left
    have := hlt y hy t hyt
    have := he ev (List.mem_of_getElem? hev)
    omega
  · right
    have hfl : 0 ≤ ⌊(events.length : K) * pct⌋ := Int.floor_nonneg.2 (by positivity)
    -- bar positions of the events from `first` on
    have hadv : ∀ k x e p, first + k = x → events[x]? = some e → bars[p]? = some e.1 →
        ∃ e0 p0, events[first]? = some e0 ∧ bars[p0]? = some e0.1 ∧ p0 + k ≤ p := by
      intro k
      induction k with
      | zero =>
        intro x e p hxx hex hpx
        simp only [Nat.add_zero] at hxx
        subst hxx
        exact ⟨e, p, hex, hpx, by omega⟩
      | succ k ih =>
        intro x e p hxx hex hpx
        have hxl := (List.getElem?_eq_some_iff.1 hex).1
        have hx1 : events[first + k]? = some (events[first + k]'(by omega)) :=
          List.getElem?_eq_getElem (by omega)
        obtain ⟨p1, hp1⟩ := List.mem_iff_getElem?.1
          (hstarts _ (List.mem_of_getElem? hx1))
        obtain ⟨e0, p0, h0, h0', hle⟩ := ih (first + k) _ p1 rfl hx1 hp1
        refine ⟨e0, p0, h0, h0', ?_⟩
        have hs1 : (events.map Prod.fst)[first + k]? = some (events[first + k]'(by omega)).1 := by
          rw [List.getElem?_map, hx1]; rfl
        have hs2 : (events.map Prod.fst)[x]? = some e.1 := by
          rw [List.getElem?_map, hex]; rfl
        have := (sorted_getElem?_lt hst hs1 hs2).2 (by omega)
        have := (sorted_getElem?_lt hbars hp1 hpx).1 this
        omega
    obtain ⟨e0, p0, h0, h0', hle⟩ := hadv (i - first) i ev a (by omega) hev ha
    have ht0 : t.2 < e0.1 := (hfirst first e0 h0).2 le_rfl y hy t hyt
    have : e0.1 ≤ b := (sorted_getElem?_le hbars h0' hbj).2 (by omega)
    omega

/-- Two price columns that differ only at bars inside a test interval. -/
def SameOutside (bars : List ℤ) (tests : List (ℤ × ℤ)) (x y : List K) : Prop :=
  x.length = bars.length ∧ y.length = bars.length ∧
    ∀ (j : ℕ) (b : ℤ), bars[j]? = some b → (∀ t ∈ tests, b < t.1 ∨ t.2 < b) → x[j]? = y[j]?

/-- The value of `frac_diff_fixed` at bar `a`, when the bars `a - w … a` are clear. -/
theorem fixed_clear (bars : List ℤ) (hbars : bars.Pairwise (· < ·)) (tests : List (ℤ × ℤ)) (nm : String)
    (x y : List K) (hxy : SameOutside bars tests x y) (d thr : K) (w : ℕ)
    (hwid : IsWidth d thr bars.length w) :
    ∃ u v : List K,
      fracDiffFixed (completeFrame bars [(nm, x)]) d thr = .ok (completeFrame (bars.drop w) [(nm, u)]) ∧
      fracDiffFixed (completeFrame bars [(nm, y)]) d thr = .ok (completeFrame (bars.drop w) [(nm, v)]) ∧
      u.length = bars.length - w ∧
      ∀ a, w ≤ a → a < bars.length → WindowClear bars tests w a → u[a - w]? = v[a - w]? := by
  obtain ⟨hx, hy, hag⟩ := hxy
  obtain ⟨o, ho, hfo⟩ := C68_values bars [(nm, x)] ⟨hbars, by simp, by simpa using hx⟩ d thr w hwid
  obtain ⟨o', ho', hfo'⟩ := C68_values bars [(nm, y)] ⟨hbars, by simp, by simpa using hy⟩ d thr w hwid
  match o, hfo with
  | [(n1, u)], .cons ⟨h1, h2, h3⟩ .nil =>
    match o', hfo' with
    | [(n2, v)], .cons ⟨h1', h2', h3'⟩ .nil =>
      simp only at h1 h1' h2
      subst h1 h1'
      refine ⟨u, v, ho, ho', h2, ?_⟩
      intro a hwa ha hcl
      have e1 := h3 a hwa ha
      have e2 := h3' a hwa ha
      simp only at e1 e2
      rw [e1, e2]
      congr 1
      apply Finset.sum_congr rfl
      intro k hk
      rw [Finset.mem_range] at hk
      congr 1
      have hj : a - k < bars.length := by omega
      have := hag (a - k) _ (List.getElem?_eq_getElem hj) fun t ht =>
        hcl (a - k) _ (by omega) (by omega) (List.getElem?_eq_getElem hj) t ht
      rw [List.getD_eq_getElem?_getD, List.getD_eq_getElem?_getD, this]

/-- C229.  The fixed-width fractional difference at the start of a train event does not depend on the prices
inside the test intervals, if the embargo is at least as long as the width. -/
theorem C229_fracdiff (events tests : List (ℤ × ℤ)) (he : ∀ e ∈ events, e.1 ≤ e.2)
    (ht : ∀ t ∈ tests, t.1 ≤ t.2) (bars : List ℤ) (hbars : bars.Pairwise (· < ·))
    (hends : ∀ t ∈ tests, t.2 ∈ bars) (hb : bars ≠ []) (pct : K) (s : ℕ)
    (hs : pyInt ((bars.length : K) * pct) = s) (train : List ℕ)
    (h : applyPurging (events.map closeEv) (tests.map closeEv) (some bars) pct = .ok train)
    (nm : String) (x y : List K) (hxy : SameOutside bars tests x y) (d thr : K) (w : ℕ)
    (hwid : IsWidth d thr bars.length w) (hw : w ≤ s) :
    ∃ u v : List K,
      fracDiffFixed (completeFrame bars [(nm, x)]) d thr = .ok (completeFrame (bars.drop w) [(nm, u)]) ∧
      fracDiffFixed (completeFrame bars [(nm, y)]) d thr = .ok (completeFrame (bars.drop w) [(nm, v)]) ∧
      u.length = bars.length - w ∧
      ∀ i ∈ train, ∀ ev a, events[i]? = some ev → bars[a]? = some ev.1 → w ≤ a →
        u[a - w]? = v[a - w]? := by
  obtain ⟨u, v, h1, h2, h3, h4⟩ := fixed_clear bars hbars tests nm x y hxy d thr w hwid
  refine ⟨u, v, h1, h2, h3, ?_⟩
  intro i hi ev a hev ha hwa
  exact h4 a hwa (List.getElem?_eq_some_iff.1 ha).1
    (C229_embargo_window events tests he ht bars hbars hends hb pct s hs train h w hw i hi ev hev a ha)

/-- C229.  The same for the train events of PurgedKFold. -/
theorem C229_fracdiff_kfold (events : List (ℤ × ℤ)) (hst : (events.map Prod.fst).Pairwise (· < ·))
    (he : ∀ e ∈ events, e.1 ≤ e.2) (bars : List ℤ) (hbars : bars.Pairwise (· < ·))
    (hstarts : ∀ e ∈ events, e.1 ∈ bars) (nSplits : ℤ) (pct : K) (hp : 0 ≤ pct)
    (folds : List (List ℕ × List ℕ))
    (h : kfoldSplit nSplits pct (.series true (events.map closeEv)) = .ok folds)
    (f : List ℕ × List ℕ) (hf : f ∈ folds) (nm : String) (x y : List K)
    (hxy : SameOutside bars (f.2.filterMap fun y => events[y]?) x y) (d thr : K) (w : ℕ)
    (hwid : IsWidth d thr bars.length w) (hw : (w : ℤ) ≤ 1 + ⌊(events.length : K) * pct⌋) :
    ∃ u v : List K,
      fracDiffFixed (completeFrame bars [(nm, x)]) d thr = .ok (completeFrame (bars.drop w) [(nm, u)]) ∧
      fracDiffFixed (completeFrame bars [(nm, y)]) d thr = .ok (completeFrame (bars.drop w) [(nm, v)]) ∧
      u.length = bars.length - w ∧
      ∀ i ∈ f.1, ∀ ev a, events[i]? = some ev → bars[a]? = some ev.1 → w ≤ a →
        u[a - w]? = v[a - w]? := by
  obtain ⟨u, v, h1, h2, h3, h4⟩ := fixed_clear bars hbars _ nm x y hxy d thr w hwid
  refine ⟨u, v, h1, h2, h3, ?_⟩
  intro i hi ev a hev ha hwa
  exact h4 a hwa (List.getElem?_eq_some_iff.1 ha).1
    (C229_kfold_window events hst he bars hbars hstarts nSplits pct hp folds h f hf w hw i hi ev hev a ha)

/-- Six one-bar events in three folds without embargo: event 2 is lost when events 0 and 1 are tested, so the
window of event 3 is clear for one bar back, the width of the first difference. -/
example : (kfoldSplit 3 (0 : ℚ) (.series true
      (([(0, 0), (1, 1), (2, 2), (3, 3), (4, 4), (5, 5)] : List (ℤ × ℤ)).map closeEv))).map
        (fun l => l.map Prod.fst) = .ok [[3, 4, 5], [0, 1, 5], [0, 1, 2, 3]] ∧
    IsWidth (1 : ℚ) (1 / 2) 6 1 := by
  refine ⟨by decide +kernel, by decide, ?_, ?_⟩
  · intro k h1 h2
    obtain rfl : k = 1 := by omega
    norm_num [lagWeight, gbinom]
  · intro _
    norm_num [lagWeight, gbinom, Finset.prod_range_succ]

end FinML.CV
