import Verif.Weights.Props
import Verif.Weights.RepeatProps

/-! # More events (C218) -/

namespace FinML.Weights

set_option linter.unusedSectionVars false

variable {K : Type} [Field K] [LinearOrder K] [IsStrictOrderedRing K]

theorem sum_map_le' {α : Type} (l : List α) (f g : α → K) (h : ∀ b ∈ l, f b ≤ g b) :
    (l.map f).sum ≤ (l.map g).sum ∧ ((l.map f).sum = (l.map g).sum ↔ ∀ b ∈ l, f b = g b) := by
  induction l with
  | nil => simp
  | cons b l ih =>
    obtain ⟨h1, h2⟩ := ih fun c hc => h c (by simp [hc])
    have h3 := h b (by simp)
    simp only [List.map_cons, List.sum_cons, List.forall_mem_cons]
    refine ⟨add_le_add h3 h1, ?_⟩
    rw [← h2]
    constructor
    · intro h4
      constructor <;> linarith
    · rintro ⟨h4, h5⟩
      rw [h4, h5]

/-- C218.  With more events, an event is at most as unique as before; as unique exactly if none of the
other new events runs on one of its bars. -/
theorem C218_more_events (bars : List ℤ) (hs : bars.Pairwise (· < ·)) (hne : bars ≠ [])
    (events events' : List (ℤ × ℤ)) (hsub : events.Sublist events') (hev : events ≠ [])
    (hord : (events'.map Prod.fst).Pairwise (· < ·)) :
    ∃ res res' : Series (Option K), labelAvgUniqueness bars (closedTimes events) = .ok res ∧
      labelAvgUniqueness bars (closedTimes events') = .ok res' ∧
      ∀ e ∈ events, ∀ u, (e.1, some u) ∈ res → ∃ u', (e.1, some u') ∈ res' ∧ u' ≤ u ∧
        (u' = u ↔ ∀ e' ∈ events', e' ∉ events → ∀ t ∈ bars, e.1 ≤ t → t ≤ e.2 → ¬ (e'.1 ≤ t ∧ t ≤ e'.2)) := by
  have hord1 : (events.map Prod.fst).Pairwise (· < ·) := hord.sublist (hsub.map _)
  have hev' : events' ≠ [] := fun h => hev (by rw [h] at hsub; exact List.eq_nil_of_sublist_nil hsub)
  refine ⟨_, _, labelAvgUniqueness_eq bars hs hne events hev hord1,
    labelAvgUniqueness_eq bars hs hne events' hev' hord, ?_⟩
  intro e he u hu
  obtain ⟨f, hf, hfe⟩ := List.mem_map.1 hu
  have hnd : (events.map Prod.fst).Nodup := hord1.imp ne_of_lt
  obtain rfl : f = e := List.inj_on_of_nodup_map hnd hf he (Prod.mk.inj hfe).1
  have hb : barsOf bars f ≠ [] := by
    intro h0
    rw [if_pos h0] at hfe
    cases (Prod.mk.inj hfe).2
  rw [if_neg hb] at hfe
  have hu' : avgUniq K bars events f = u := Option.some.inj (Prod.mk.inj hfe).2
  subst hu'
  have hfe' : f ∈ events' := hsub.subset hf
  refine ⟨avgUniq K bars events' f, List.mem_map.2 ⟨f, hfe', by rw [if_neg hb]⟩, ?_⟩
  have hmem : ∀ t ∈ barsOf bars f, t ∈ bars ∧ f.1 ≤ t ∧ t ≤ f.2 := by
    intro t ht
    unfold barsOf at ht
    rw [List.mem_filter] at ht
    exact ⟨ht.1, by simpa using ht.2⟩
  have hrun : ∀ t, running events t ≤ running events' t := fun t => hsub.countP_le
  have hpos : ∀ t ∈ barsOf bars f, (0 : K) < (running events t : K) := by
    intro t ht
    have := running_pos events t f hf (hmem t ht).2
    exact_mod_cast this
  obtain ⟨h1, h2⟩ := sum_map_le' (barsOf bars f) (fun t => 1 / (running events' t : K))
    (fun t => 1 / (running events t : K)) (by
      intro t ht
      exact one_div_le_one_div_of_le (hpos t ht) (by exact_mod_cast hrun t))
  have hlen : (0 : K) < ((barsOf bars f).length : K) := by exact_mod_cast List.length_pos_iff.2 hb
  unfold avgUniq
  refine ⟨div_le_div_of_nonneg_right h1 hlen.le, ?_⟩
  rw [div_left_inj' hlen.ne', h2]
  have hiff : ∀ t, running events t = running events' t ↔
      ∀ e' ∈ events', e' ∉ events → ¬ (e'.1 ≤ t ∧ t ≤ e'.2) := by
    intro t
    have hnd' : events'.Nodup := List.Nodup.of_map Prod.fst (hord.imp ne_of_lt)
    have hperm : events'.Perm (events ++ events'.filter fun e' => e' ∉ events) := by
      have h3 := (List.filter_append_perm (fun e' => decide (e' ∈ events)) events').symm
      refine h3.trans ?_
      have h4 : (events'.filter fun e' => decide (e' ∈ events)).Perm events := by
        rw [List.perm_ext_iff_of_nodup (hnd'.filter _) (hnd'.sublist hsub)]
        intro x
        simp only [List.mem_filter, decide_eq_true_eq]
        exact ⟨fun h => h.2, fun h => ⟨hsub.subset h, h⟩⟩
      refine h4.append ?_
      apply List.Perm.of_eq
      apply List.filter_congr
      intro x _
      simp
    have hcount : running events' t = running events t + running (events'.filter fun e' => e' ∉ events) t := by
      unfold running
      rw [hperm.countP_eq, List.countP_append]
    rw [hcount]
    constructor
    · intro h e' h5 h6 h7
      have h8 : running (events'.filter fun e' => e' ∉ events) t = 0 := by omega
      unfold running at h8
      rw [List.countP_eq_zero] at h8
      exact h8 e' (List.mem_filter.2 ⟨h5, by simpa using h6⟩) (by simpa using h7)
    · intro h
      have : running (events'.filter fun e' => e' ∉ events) t = 0 := by
        unfold running
        rw [List.countP_eq_zero]
        intro e' h5
        rw [List.mem_filter] at h5
        simpa using h e' h5.1 (by simpa using h5.2)
      omega
  constructor
  · intro h e' h3 h4 t h5 h6 h7
    have ht : t ∈ barsOf bars f := List.mem_filter.2 ⟨h5, by simp [h6, h7]⟩
    have h8 := h t ht
    have h9 := hpos t ht
    have : (running events t : K) = (running events' t : K) := by
      have h10 : (running events' t : K) ≠ 0 := by
        have : (running events t : K) ≤ (running events' t : K) := by exact_mod_cast hrun t
        linarith
      field_simp at h8
      exact h8
    exact (hiff t).1 (by exact_mod_cast this) e' h3 h4
  · intro h t ht
    obtain ⟨h5, h6, h7⟩ := hmem t ht
    rw [(hiff t).2 fun e' h3 h4 => h e' h3 h4 t h5 h6 h7]

/-- A second event halves the uniqueness of the bars it shares. -/
example : labelAvgUniqueness (K := ℚ) [0, 1, 2, 3] (closedTimes [(0, 1)]) = .ok [(0, some 1)] ∧
    labelAvgUniqueness (K := ℚ) [0, 1, 2, 3] (closedTimes [(0, 1), (1, 3)]) =
      .ok [(0, some (3 / 4)), (1, some (5 / 6))] := by
  decide +kernel

end FinML.Weights
