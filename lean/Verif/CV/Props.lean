import Verif.CV.Model
import Verif.CV.Spec
import Verif.Py.Lemmas
import Mathlib.Data.List.Enum
import Mathlib.Data.Rat.Floor

/-! # Properties C39, C40 and C133: purging and embargo -/

set_option linter.unusedSectionVars false

namespace FinML.CV

variable {K : Type} [Field K] [LinearOrder K] [IsStrictOrderedRing K] [FloorRing K]

/-! ## C39, C133 -/

theorem purged_fold (tests : List Event) (rows : List (Event × ℕ)) :
    tests.foldl (fun rows t => rows.filter fun r => !overlaps t r.1) rows =
      rows.filter fun r => decide (∀ t ∈ tests, overlaps t r.1 = false) := by
  induction tests generalizing rows with
  | nil => simp
  | cons t ts ih =>
    rw [List.foldl_cons, ih, List.filter_filter]
    apply List.filter_congr
    intro r _
    cases h : overlaps t r.1 <;> simp [h]

theorem overlaps_iff (t ev : ℤ × ℤ) (ht : t.1 ≤ t.2) (he : ev.1 ≤ ev.2) :
    overlaps (closeEv t) (closeEv ev) = false ↔ Apart ev t := by
  unfold overlaps Apart closeEv leO oLeO
  simp only [Bool.or_eq_false_iff, Bool.and_eq_false_iff, decide_eq_false_iff_not]
  omega

/-- C39.  Without embargo the train set is exactly the events that meet no test interval. -/
theorem C39_purging (events tests : List (ℤ × ℤ)) (he : ∀ e ∈ events, e.1 ≤ e.2)
    (ht : ∀ t ∈ tests, t.1 ≤ t.2) (pct : K) :
    applyPurging (events.map closeEv) (tests.map closeEv) none pct = .ok (admissible events tests) := by
  unfold applyPurging adjusted purgedTrain admissible
  rw [py_bind_ok, py_pure, purged_fold]
  congr 1
  rw [List.zipIdx_map, List.filter_map, List.map_map]
  have h1 : (Prod.snd ∘ Prod.map closeEv id : (ℤ × ℤ) × ℕ → ℕ) = Prod.snd := by
    funext r; rfl
  rw [h1]
  congr 1
  apply List.filter_congr
  intro r hr
  have hre : r.1 ∈ events := by
    have := List.mem_zipIdx' hr
    rw [this.2]
    exact List.getElem_mem _
  rw [Function.comp_apply, decide_eq_decide]
  constructor
  · intro h t htm
    exact (overlaps_iff t r.1 (ht t htm) (he _ hre)).1 (h _ (List.mem_map.2 ⟨t, htm, rfl⟩))
  · intro h t htm
    obtain ⟨u, hu, rfl⟩ := List.mem_map.1 htm
    exact (overlaps_iff u r.1 (ht u hu) (he _ hre)).2 (h u hu)

example : admissible [(0, 1), (2, 5), (4, 9), (10, 11)] [(3, 4)] = [0, 3] := by decide

/-- C133, full claim: an event that has not ended is kept only if it starts after every test
interval. -/
def OpenEventsPurged : Prop := ∀ (events : List Event) (tests : List (ℤ × ℤ)),
  (∀ t ∈ tests, t.1 ≤ t.2) → ∀ i ∈ purgedTrain events (tests.map closeEv), ∀ ev,
    events[i]? = some ev → ev.2 = none → ∀ t ∈ tests, t.2 < ev.1

/-- C133, counterexample: an open event that started before the test interval stays in the train
set. -/
theorem C133_open_events_counterexample : ¬ OpenEventsPurged := by
  intro h
  have := h [(0, none), (5, some 6)] [(5, 6)] (by simp) 0 (by decide) (0, none) rfl rfl (5, 6) (by simp)
  simp at this

/-- C133, what holds: an open event is in the train set exactly if it does not start inside a test
interval (missing: it is kept if it started before the test). -/
theorem C133_open_events_partial (events : List Event) (tests : List (ℤ × ℤ)) (i : ℕ) (ev : Event)
    (hev : events[i]? = some ev) (hnone : ev.2 = none) :
    i ∈ purgedTrain events (tests.map closeEv) ↔ ∀ t ∈ tests, ¬ (t.1 ≤ ev.1 ∧ ev.1 ≤ t.2) := by
  unfold purgedTrain
  rw [purged_fold]
  constructor
  · intro hi t ht hin
    obtain ⟨r, hr, rfl⟩ := List.mem_map.1 hi
    obtain ⟨hr1, hr2⟩ := List.mem_filter.1 hr
    have hx : events[r.2]? = some r.1 := by
      exact List.mem_zipIdx_iff_getElem?.1 hr1
    rw [hx] at hev
    cases hev
    have := (of_decide_eq_true hr2) (closeEv t) (List.mem_map.2 ⟨t, ht, rfl⟩)
    unfold overlaps closeEv leO at this
    simp [hin.1, hin.2] at this
  · intro h
    refine List.mem_map.2 ⟨(ev, i), List.mem_filter.2 ⟨List.mem_zipIdx_iff_getElem?.2 hev, ?_⟩, rfl⟩
    apply decide_eq_true
    intro t ht
    obtain ⟨u, hu, rfl⟩ := List.mem_map.1 ht
    have := h u hu
    unfold overlaps closeEv leO
    rw [hnone]
    simpa [oLeO] using this

/-! ## C40 -/

/-- `embargoTimes` maps bar `i` to bar `min (i + s) (n - 1)`. -/
theorem embargoTimes_eq (bars : List ℤ) (hb : bars ≠ []) (pct : K) (s : ℕ)
    (hs : pyInt ((bars.length : K) * pct) = s) :
    embargoTimes bars pct = .ok ((List.range bars.length).map fun i : ℕ =>
      (bars.getD i 0, bars.getD (min (i + s) (bars.length - 1)) 0)) := by
  have hpos : 0 < bars.length := List.length_pos_iff.2 hb
  unfold embargoTimes
  simp only [hs]
  rw [if_neg (by omega)]
  by_cases h0 : (s : ℤ) = 0
  · rw [if_pos h0]
    congr 1
    apply List.ext_getElem
    · simp
    · intro i h1 h2
      have hi : i < bars.length := by simpa using h1
      have : min (i + s) (bars.length - 1) = i := by omega
      simp [hi, this]
  · rw [if_neg h0]
    have hlast : pyLast bars = .ok (bars.getD (bars.length - 1) 0) := by
      rw [pyLast_eq_ok_iff, List.getLast?_eq_getElem?, List.getD_eq_getElem?_getD,
        List.getElem?_eq_getElem (by omega)]
      rfl
    rw [hlast, py_bind_ok, py_pure, Int.toNat_natCast]
    congr 1
    apply List.ext_getElem
    · simp
    · intro i h1 h2
      have hi : i < bars.length := by simpa using h2
      by_cases his : i < bars.length - s
      · rw [List.getElem_append_left (by simp; omega)]
        have h3 : min (i + s) (bars.length - 1) = i + s := by omega
        have h4 : i + s < bars.length := by omega
        simp [hi, h3, h4, Nat.add_comm s i]
      · rw [List.getElem_append_right (by simp; omega)]
        have h3 : min (i + s) (bars.length - 1) = bars.length - 1 := by omega
        have h5 : bars.length - s + (i - min (bars.length - s) (bars.length - s)) = i := by omega
        have h6 : bars.length - s + (i - (bars.length - s)) = i := by omega
        simp [hi, h3, h6]

/-- Where a test end goes: the end at bar `i` moves to bar `min (i + s) (n - 1)`. -/
def Embargoed (bars : List ℤ) (s : ℕ) (t t' : ℤ × ℤ) : Prop :=
  t'.1 = t.1 ∧ ∃ i, bars[i]? = some t.2 ∧ bars[min (i + s) (bars.length - 1)]? = some t'.2

theorem lookup_unique (bars : List ℤ) (hn : bars.Nodup) (f : ℕ → ℤ) (e : ℤ) :
    (∀ i, bars[i]? = some e →
      lookupAll ((List.range bars.length).map fun i : ℕ => (bars.getD i 0, f i)) (some e) = [f i]) ∧
    (e ∉ bars →
      lookupAll ((List.range bars.length).map fun i : ℕ => (bars.getD i 0, f i)) (some e) = []) := by
  unfold lookupAll
  rw [List.filter_map, List.map_map]
  constructor
  · intro i hi
    have hlt : i < bars.length := by
      by_contra h
      rw [List.getElem?_eq_none (not_lt.1 h)] at hi
      cases hi
    have : (List.range bars.length).filter ((fun p : ℤ × ℤ => decide (some p.1 = some e)) ∘
        fun i : ℕ => (bars.getD i 0, f i)) = (List.range bars.length).filter fun j => j == i := by
      apply List.filter_congr
      intro j hj
      have hj' := List.mem_range.1 hj
      rw [List.getElem?_eq_getElem hlt] at hi
      cases hi
      simp only [Function.comp, Option.some.injEq]
      rw [List.getD_eq_getElem?_getD, List.getElem?_eq_getElem hj']
      simp only [Option.getD_some]
      by_cases hji : j = i
      · subst hji; simp
      · have : bars[j] ≠ bars[i] := fun h => hji ((List.Nodup.getElem_inj_iff hn).1 h)
        simp [hji, this]
    rw [this, List.filter_beq, List.count_eq_one_of_mem List.nodup_range (List.mem_range.2 hlt)]
    rfl
  · intro hne
    rw [List.map_eq_nil_iff, List.filter_eq_nil_iff]
    intro j hj
    have hj' := List.mem_range.1 hj
    simp only [Function.comp, Option.some.injEq, decide_eq_true_eq]
    rw [List.getD_eq_getElem?_getD, List.getElem?_eq_getElem hj']
    intro h
    apply hne
    rw [← h]
    simp

theorem flatMap_length_one {α β : Type} (l : List α) (f : α → List β) (g : α → β)
    (h : ∀ a ∈ l, f a = [g a]) : l.flatMap f = l.map g := by
  induction l with
  | nil => rfl
  | cons a l ih =>
    rw [List.flatMap_cons, h a (by simp), ih (fun b hb => h b (by simp [hb]))]
    rfl

/-- C40.  With distinct bar times, each test end at bar `i` is moved to bar
`min (i + int(n*pct)) (n-1)`, and the train set is the events that meet no extended interval. -/
theorem C40_embargo (events tests : List (ℤ × ℤ)) (he : ∀ e ∈ events, e.1 ≤ e.2)
    (ht : ∀ t ∈ tests, t.1 ≤ t.2) (bars : List ℤ) (hbars : bars.Pairwise (· < ·))
    (hends : ∀ t ∈ tests, t.2 ∈ bars) (hb : bars ≠ []) (pct : K) (s : ℕ)
    (hs : pyInt ((bars.length : K) * pct) = s) :
    ∃ ext : List (ℤ × ℤ), List.Forall₂ (Embargoed bars s) tests ext ∧
      (∀ t ∈ ext, t.1 ≤ t.2) ∧
      applyPurging (events.map closeEv) (tests.map closeEv) (some bars) pct =
        .ok (admissible events ext) := by
  classical
  have hn : bars.Nodup := hbars.imp fun {a b} h => h.ne
  let idx : ℤ → ℕ := fun e => bars.idxOf e
  have hidx : ∀ e ∈ bars, bars[idx e]? = some e := fun e hm => by
    have h1 := List.idxOf_lt_length_of_mem hm
    rw [List.getElem?_eq_getElem h1]
    simp
  have hpos : 0 < bars.length := List.length_pos_iff.2 hb
  let tgt : ℤ → ℤ := fun e => bars.getD (min (idx e + s) (bars.length - 1)) 0
  have htgt : ∀ e ∈ bars, bars[min (idx e + s) (bars.length - 1)]? = some (tgt e) := by
    intro e _
    simp only [tgt]
    rw [List.getD_eq_getElem?_getD, List.getElem?_eq_getElem (by omega)]
    rfl
  have hle : ∀ e ∈ bars, e ≤ tgt e := by
    intro e hm
    have h1 := List.idxOf_lt_length_of_mem hm
    have h2 := hidx e hm
    have h3 := htgt e hm
    have h4 : idx e ≤ min (idx e + s) (bars.length - 1) := by
      have : idx e < bars.length := h1
      omega
    rcases h4.lt_or_eq with h5 | h5
    · have h6 : min (idx e + s) (bars.length - 1) < bars.length := by omega
      rw [List.getElem?_eq_getElem h1] at h2
      rw [List.getElem?_eq_getElem h6] at h3
      have := List.pairwise_iff_getElem.1 hbars _ _ h1 h6 h5
      rw [Option.some.inj h2, Option.some.inj h3] at this
      exact this.le
    · rw [← h5, h2] at h3
      exact (Option.some.inj h3).le
  refine ⟨tests.map fun t => (t.1, tgt t.2), ?_, ?_, ?_⟩
  · rw [List.forall₂_map_right_iff]
    rw [List.forall₂_same]
    intro t htm
    exact ⟨rfl, idx t.2, hidx _ (hends t htm), htgt _ (hends t htm)⟩
  · intro t htm
    obtain ⟨u, hu, rfl⟩ := List.mem_map.1 htm
    exact (ht u hu).trans (hle _ (hends u hu))
  · have hlook : ∀ t ∈ tests.map closeEv, lookupAll ((List.range bars.length).map fun i : ℕ =>
        (bars.getD i 0, bars.getD (min (i + s) (bars.length - 1)) 0)) t.2 = [tgt (t.2.getD 0)] := by
      intro t htm
      obtain ⟨u, hu, rfl⟩ := List.mem_map.1 htm
      exact (lookup_unique bars hn (fun i => bars.getD (min (i + s) (bars.length - 1)) 0) u.2).1 _
        (hidx _ (hends u hu))
    have hadj : adjusted (tests.map closeEv) pct (some bars) =
        .ok ((tests.map fun t => (t.1, tgt t.2)).map closeEv) := by
      simp only [adjusted]
      rw [embargoTimes_eq bars hb pct s hs, py_bind_ok]
      unfold adjustTests
      rw [if_neg]
      · simp only
        rw [flatMap_length_one _ _ _ hlook, if_neg (by simp)]
        congr 1
        rw [List.map_map, List.map_map, List.map_map, List.map_map, List.zip_map']
        rfl
      · rintro ⟨t, htm, h⟩
        rw [hlook t htm] at h
        cases h
    have h39 := C39_purging events (tests.map fun t => (t.1, tgt t.2)) he (by
      intro t htm
      obtain ⟨u, hu, rfl⟩ := List.mem_map.1 htm
      exact (ht u hu).trans (hle _ (hends u hu))) pct
    unfold applyPurging at h39 ⊢
    rw [hadj]
    exact h39

example : applyPurging ([(0, 1), (2, 3), (4, 5), (6, 7)].map closeEv) ([(2, 3)].map closeEv)
    (some [0, 1, 2, 3, 4, 5, 6, 7]) (1 / 4 : ℚ) = .ok [0, 3] := by decide +kernel

theorem mem_admissible (events tests : List (ℤ × ℤ)) (i : ℕ) :
    i ∈ admissible events tests ↔ ∃ ev, events[i]? = some ev ∧ ∀ t ∈ tests, Apart ev t := by
  unfold admissible
  rw [List.mem_map]
  constructor
  · rintro ⟨r, hr, rfl⟩
    obtain ⟨h1, h2⟩ := List.mem_filter.1 hr
    exact ⟨r.1, List.mem_zipIdx_iff_getElem?.1 h1, of_decide_eq_true h2⟩
  · rintro ⟨ev, h1, h2⟩
    refine ⟨(ev, i), List.mem_filter.2 ⟨?_, by simpa using h2⟩, rfl⟩
    rw [List.mem_zipIdx_iff_getElem?]
    exact h1

/-- C40.  A larger embargo gives a smaller train set. -/
theorem C40_antitone (events tests : List (ℤ × ℤ)) (he : ∀ e ∈ events, e.1 ≤ e.2)
    (ht : ∀ t ∈ tests, t.1 ≤ t.2) (bars : List ℤ) (hbars : bars.Pairwise (· < ·))
    (hends : ∀ t ∈ tests, t.2 ∈ bars) (p q : K) (hp : 0 ≤ p) (hpq : p ≤ q)
    (tr tr' : List ℕ)
    (h : applyPurging (events.map closeEv) (tests.map closeEv) (some bars) p = .ok tr)
    (h' : applyPurging (events.map closeEv) (tests.map closeEv) (some bars) q = .ok tr') :
    tr'.Sublist tr := by
  by_cases hb : bars = []
  · subst hb
    have : tests = [] := by
      rcases tests with _ | ⟨t, ts⟩
      · rfl
      · exact absurd (hends t (by simp)) (by simp)
    subst this
    have hz : ∀ r : K, applyPurging (events.map closeEv) (([] : List (ℤ × ℤ)).map closeEv)
        (some []) r = .ok (purgedTrain (events.map closeEv) []) := by
      intro r
      unfold applyPurging adjusted embargoTimes
      simp [pyInt, adjustTests]
    rw [hz] at h h'
    rw [← Except.ok.inj h, ← Except.ok.inj h']
  have hlen : (0 : K) ≤ bars.length := Nat.cast_nonneg _
  have hint : ∀ r : K, 0 ≤ r → ∃ s : ℕ, pyInt ((bars.length : K) * r) = s := by
    intro r hr
    have h0 : 0 ≤ (bars.length : K) * r := mul_nonneg hlen hr
    refine ⟨⌊(bars.length : K) * r⌋.toNat, ?_⟩
    unfold pyInt
    rw [if_pos h0, Int.toNat_of_nonneg (Int.floor_nonneg.2 h0)]
  obtain ⟨s, hs⟩ := hint p hp
  obtain ⟨s', hs'⟩ := hint q (hp.trans hpq)
  have hss : s ≤ s' := by
    have h0 : 0 ≤ (bars.length : K) * p := mul_nonneg hlen hp
    have h1 : (bars.length : K) * p ≤ (bars.length : K) * q := mul_le_mul_of_nonneg_left hpq hlen
    have : pyInt ((bars.length : K) * p) ≤ pyInt ((bars.length : K) * q) := by
      unfold pyInt
      rw [if_pos h0, if_pos (h0.trans h1)]
      exact Int.floor_mono h1
    rw [hs, hs'] at this
    exact_mod_cast this
  obtain ⟨ext, hf, -, h1⟩ := C40_embargo events tests he ht bars hbars hends hb p s hs
  obtain ⟨ext', hf', -, h2⟩ := C40_embargo events tests he ht bars hbars hends hb q s' hs'
  rw [h] at h1
  rw [h'] at h2
  cases h1; cases h2
  have hn : bars.Nodup := hbars.imp fun {a b} h => h.ne
  have hcmp : List.Forall₂ (fun a b : ℤ × ℤ => a.1 = b.1 ∧ a.2 ≤ b.2) ext ext' := by
    clear h h' ht hends
    induction hf generalizing ext' with
    | nil => cases hf'; exact List.Forall₂.nil
    | cons hab _ ih =>
      cases hf' with
      | cons hab' hrest =>
        refine List.Forall₂.cons ?_ (ih _ hrest)
        obtain ⟨e1, i, hi, hi'⟩ := hab
        obtain ⟨e2, j, hj, hj'⟩ := hab'
        have hij : i = j := by
          have hil : i < bars.length := by
            by_contra hx
            rw [List.getElem?_eq_none (not_lt.1 hx)] at hi
            cases hi
          have hjl : j < bars.length := by
            by_contra hx
            rw [List.getElem?_eq_none (not_lt.1 hx)] at hj
            cases hj
          rw [List.getElem?_eq_getElem hil] at hi
          rw [List.getElem?_eq_getElem hjl] at hj
          exact (List.Nodup.getElem_inj_iff hn).1 ((Option.some.inj hi).trans (Option.some.inj hj).symm)
        subst hij
        refine ⟨e1.trans e2.symm, ?_⟩
        have hpos : 0 < bars.length := List.length_pos_iff.2 hb
        have hl1 : min (i + s) (bars.length - 1) < bars.length := by omega
        have hl2 : min (i + s') (bars.length - 1) < bars.length := by omega
        rw [List.getElem?_eq_getElem hl1] at hi'
        rw [List.getElem?_eq_getElem hl2] at hj'
        rw [← Option.some.inj hi', ← Option.some.inj hj']
        have hle : min (i + s) (bars.length - 1) ≤ min (i + s') (bars.length - 1) := by omega
        rcases hle.lt_or_eq with h5 | h5
        · exact (List.pairwise_iff_getElem.1 hbars _ _ hl1 hl2 h5).le
        · simp only [h5]; exact le_refl _
  unfold admissible
  apply List.Sublist.map
  apply List.monotone_filter_right
  intro r hr
  rw [decide_eq_true_eq] at hr ⊢
  intro t htm
  clear h h' hf hf' hends ht
  have key : ∀ {a b : List (ℤ × ℤ)}, List.Forall₂ (fun a b : ℤ × ℤ => a.1 = b.1 ∧ a.2 ≤ b.2) a b →
      ∀ t ∈ a, ∃ t' ∈ b, t.1 = t'.1 ∧ t.2 ≤ t'.2 := by
    intro a b hab
    induction hab with
    | nil => simp
    | @cons x y _ _ hxy _ ih =>
      intro t ht
      rcases List.mem_cons.1 ht with rfl | ht
      · exact ⟨y, by simp, hxy⟩
      · obtain ⟨t', h1, h2⟩ := ih t ht
        exact ⟨t', by simp [h1], h2⟩
  obtain ⟨t', ht', e1, e2⟩ := key hcmp t htm
  rcases hr t' ht' with h1 | h1
  · left; omega
  · right; omega

/-- C40.  A test end that is not a bar time raises. -/
theorem C40_missing (events tests : List Event) (bars : List ℤ) (pct : K) (hp : 0 ≤ pct) (t : Event)
    (ht : t ∈ tests) (e : ℤ) (hte : t.2 = some e) (hmiss : e ∉ bars) :
    applyPurging events tests (some bars) pct = .error .keyError := by
  have hkeys : ∃ m, embargoTimes bars pct = .ok m ∧ ∀ p ∈ m, p.1 ∈ bars := by
    by_cases hb : bars = []
    · subst hb
      exact ⟨[], by unfold embargoTimes; simp [pyInt], by simp⟩
    · have h0 : 0 ≤ (bars.length : K) * pct := mul_nonneg (Nat.cast_nonneg _) hp
      have hs : pyInt ((bars.length : K) * pct) = (⌊(bars.length : K) * pct⌋.toNat : ℕ) := by
        unfold pyInt
        rw [if_pos h0, Int.toNat_of_nonneg (Int.floor_nonneg.2 h0)]
      refine ⟨_, embargoTimes_eq bars hb pct _ hs, ?_⟩
      intro p hpm
      obtain ⟨i, hi, rfl⟩ := List.mem_map.1 hpm
      have hi' := List.mem_range.1 hi
      simp only
      rw [List.getD_eq_getElem?_getD, List.getElem?_eq_getElem hi']
      simp
  obtain ⟨m, hm, hk⟩ := hkeys
  unfold applyPurging
  simp only [adjusted]
  rw [hm, py_bind_ok]
  have : adjustTests m tests = .error .keyError := by
    unfold adjustTests
    rw [if_pos]
    refine ⟨t, ht, ?_⟩
    unfold lookupAll
    rw [List.map_eq_nil_iff, List.filter_eq_nil_iff]
    intro p hpm
    rw [hte]
    simp only [Option.some.injEq, decide_eq_true_eq]
    rintro rfl
    exact hmiss (hk p hpm)
  rw [this]
  rfl

end FinML.CV
