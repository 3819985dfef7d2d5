import Verif.Alloc.ProbProps

/-! # More confident forecasts (C344) -/

namespace FinML.Alloc

open FinML.Weights

/-- The same event, with a forecast that favours a long position at least as much: the event is bought with no smaller
probability, or sold with no larger one. -/
structure AtLeastAsLong (e e' : Forecast) : Prop where
  start : e.start = e'.start
  stop : e.stop = e'.stop
  side : e.side = e'.side
  pred : e.pred = e'.pred
  long : 0 < e.pred * e.side.getD 1 → e.prob ≤ e'.prob
  short : e.pred * e.side.getD 1 < 0 → e'.prob ≤ e.prob

/-- The same interval with a size that is no smaller. -/
structure NoSmaller (p p' : Position ℝ) : Prop where
  start : p.start = p'.start
  stop : p.stop = p'.stop
  size : p.size ≤ p'.size

/-- The factor of the size, at all probabilities from 0 to 1. -/
theorem eventSize_mono (n : ℕ) (hn : 2 ≤ n) : ∃ s : ℝ → ℝ,
    (∀ e : Forecast, 0 ≤ e.prob → e.prob ≤ 1 → eventSize n e = some (e.pred * e.side.getD 1 * s e.prob)) ∧
    ∀ p q : ℝ, 0 ≤ p → p ≤ q → q ≤ 1 → s p ≤ s q := by
  obtain ⟨s, h1, -, h2, h3, -⟩ := C86_event_size n hn
  refine ⟨fun p => if p ≤ 0 then -1 else if 1 ≤ p then 1 else s p, ?_, ?_⟩
  · intro e h0 hp1
    rcases h0.eq_or_lt with h | h
    · rw [(C86_extremes n hn e).2 h.symm]
      simp only [← h, le_refl, if_true]
      congr 1
      ring
    rcases hp1.eq_or_lt with h' | h'
    · rw [(C86_extremes n hn e).1 h']
      simp only [h', le_refl, if_true, not_le.2 one_pos, if_false, mul_one]
    · rw [h1 e h h']
      simp only [not_le.2 h, not_le.2 h', if_false]
      congr 1
      ring
  · intro p q hp hpq hq
    simp only
    have hb := fun x => abs_lt.1 (h3 x)
    split_ifs with a b c d b c d
    · exact le_rfl
    · norm_num
    · linarith [(hb q).1]
    · linarith
    · exact le_rfl
    · linarith
    · linarith
    · linarith [(hb p).2]
    · rcases hpq.eq_or_lt with h | h
      · rw [h]
      · exact (h2 p q (not_le.1 a) h (not_le.1 (by assumption))).le

theorem toPosition_mono (n : ℕ) (hn : 2 ≤ n) (e e' : Forecast) (h : AtLeastAsLong e e')
    (h0 : 0 ≤ e.prob ∧ e.prob ≤ 1) (h0' : 0 ≤ e'.prob ∧ e'.prob ≤ 1) :
    ∃ p p', toPosition n e = .ok p ∧ toPosition n e' = .ok p' ∧ NoSmaller p p' := by
  obtain ⟨s, h1, h2⟩ := eventSize_mono n hn
  refine ⟨⟨e.start, e.stop, _⟩, ⟨e'.start, e'.stop, _⟩, by rw [toPosition, h1 e h0.1 h0.2]; rfl,
    by rw [toPosition, h1 e' h0'.1 h0'.2]; rfl, h.start, h.stop, ?_⟩
  simp only
  rw [← h.side, ← h.pred]
  rcases lt_trichotomy (e.pred * e.side.getD 1) 0 with hd | hd | hd
  · exact mul_le_mul_of_nonpos_left (h2 _ _ h0'.1 (h.short hd) h0.2) hd.le
  · rw [hd, zero_mul, zero_mul]
  · exact mul_le_mul_of_nonneg_left (h2 _ _ h0.1 (h.long hd) h0'.2) hd.le

theorem isActive_same (t : ℤ) (p p' : Position ℝ) (h : NoSmaller p p') : isActive t p = isActive t p' := by
  unfold isActive
  rw [h.start, h.stop]

theorem forall₂_filter {α : Type} {R : α → α → Prop} (f : α → Bool) (hf : ∀ a b, R a b → f a = f b) {l l' : List α}
    (h : List.Forall₂ R l l') : List.Forall₂ R (l.filter f) (l'.filter f) := by
  induction h with
  | nil => exact .nil
  | cons hab _ ih =>
    rw [List.filter_cons, List.filter_cons, hf _ _ hab]
    split
    · exact .cons hab ih
    · exact ih

theorem starts_same {l l' : List (Position ℝ)} (h : List.Forall₂ NoSmaller l l') :
    l.map Position.start = l'.map Position.start := by
  induction h with
  | nil => rfl
  | cons hab _ ih => rw [List.map_cons, List.map_cons, hab.start, ih]

theorem stops_same {l l' : List (Position ℝ)} (h : List.Forall₂ NoSmaller l l') :
    l.filterMap Position.stop = l'.filterMap Position.stop := by
  induction h with
  | nil => rfl
  | cons hab _ ih => rw [List.filterMap_cons, List.filterMap_cons, hab.stop, ih]

theorem sizes_le {l l' : List (Position ℝ)} (h : List.Forall₂ NoSmaller l l') :
    meanOf (l.map Position.size) ≤ meanOf (l'.map Position.size) := by
  have h1 : (l.map Position.size).sum ≤ (l'.map Position.size).sum := by
    induction h with
    | nil => exact le_rfl
    | cons hab _ ih =>
      rw [List.map_cons, List.map_cons, List.sum_cons, List.sum_cons]
      exact add_le_add hab.size ih
  unfold meanOf
  rw [List.length_map, List.length_map, h.length_eq]
  exact div_le_div_of_nonneg_right h1 (Nat.cast_nonneg _)

theorem avgAt_mono {ps ps' : List (Position ℝ)} (h : List.Forall₂ NoSmaller ps ps') (t : ℤ) : avgAt ps t ≤ avgAt ps' t := by
  unfold avgAt
  simp only
  rw [starts_same (forall₂_filter (isActive t) (isActive_same t) h)]
  split
  · generalize ((ps'.filter (isActive t)).map Position.start).dedup = starts
    apply sizes_le
    induction starts with
    | nil => exact .nil
    | cons s ss ih =>
      rw [List.flatMap_cons, List.flatMap_cons]
      exact List.rel_append (forall₂_filter _ (fun a b hab => by rw [hab.start]) h) ih
  · exact le_rfl

/-- C344.  If every forecast favours a long position at least as much, the reported position is no smaller at any time. -/
theorem C344_confident (events events' : List Forecast) (step : ℝ) (hstep : 0 < step) (n : ℕ) (hn : 2 ≤ n)
    (h : List.Forall₂ AtLeastAsLong events events') (hp : ∀ e ∈ events, 0 ≤ e.prob ∧ e.prob ≤ 1)
    (hp' : ∀ e ∈ events', 0 ≤ e.prob ∧ e.prob ≤ 1) :
    ∃ res res', positionSizeFromProbabilities events step n = .ok res ∧
      positionSizeFromProbabilities events' step n = .ok res' ∧
      List.Forall₂ (fun q q' => q.1 = q'.1 ∧ q.2 ≤ q'.2) res res' := by
  have hps : ∃ ps ps', events.mapM (toPosition n) = .ok ps ∧ events'.mapM (toPosition n) = .ok ps' ∧
      List.Forall₂ NoSmaller ps ps' := by
    clear hstep
    induction h with
    | nil => exact ⟨[], [], rfl, rfl, .nil⟩
    | @cons a b l l' hab _ ih =>
      obtain ⟨ps, ps', h1, h2, h3⟩ := ih (fun e he => hp e (by simp [he])) (fun e he => hp' e (by simp [he]))
      obtain ⟨p, p', h4, h5, h6⟩ := toPosition_mono n hn a b hab (hp a (by simp)) (hp' b (by simp))
      refine ⟨p :: ps, p' :: ps', ?_, ?_, .cons h6 h3⟩
      · rw [mapM_cons_py, h4, h1]
        rfl
      · rw [mapM_cons_py, h5, h2]
        rfl
  obtain ⟨ps, ps', h1, h2, h3⟩ := hps
  unfold positionSizeFromProbabilities
  rw [← h.length_eq]
  by_cases he : events.length = 0
  · rw [if_pos he, if_pos he]
    exact ⟨[], [], rfl, rfl, .nil⟩
  · have hn0 : n ≠ 0 := by omega
    simp only [he, hn0, hstep.ne', if_false]
    rw [h1, h2]
    refine ⟨_, _, rfl, rfl, ?_⟩
    have ht : positionTimes ps = positionTimes ps' := by
      unfold positionTimes
      rw [starts_same h3, stops_same h3]
    unfold avgActivePositions
    rw [ht, List.map_map, List.map_map, List.forall₂_map_left_iff, List.forall₂_map_right_iff, List.forall₂_same]
    intro t _
    exact ⟨rfl, (C85_monotone_odd step hstep).1 (avgAt_mono h3 t)⟩

/-- A short event that the model doubts leaves a position that is no smaller. -/
example : ∃ res res', positionSizeFromProbabilities [⟨0, some 2, none, 3 / 5, 1⟩, ⟨1, some 3, some (-1), 4 / 5, 1⟩] (1 / 4) 2 =
      .ok res ∧
    positionSizeFromProbabilities [⟨0, some 2, none, 3 / 5, 1⟩, ⟨1, some 3, some (-1), 1 / 2, 1⟩] (1 / 4) 2 = .ok res' ∧
    List.Forall₂ (fun q q' => q.1 = q'.1 ∧ q.2 ≤ q'.2) res res' := by
  refine C344_confident _ _ _ (by norm_num) 2 le_rfl ?_ ?_ ?_
  · refine .cons ⟨rfl, rfl, rfl, rfl, fun _ => le_rfl, fun _ => le_rfl⟩ (.cons ⟨rfl, rfl, rfl, rfl, ?_, ?_⟩ .nil)
    · intro h
      norm_num at h
    · intro _
      norm_num
  · intro e he
    simp only [List.mem_cons, List.not_mem_nil, or_false] at he
    rcases he with rfl | rfl <;> norm_num
  · intro e he
    simp only [List.mem_cons, List.not_mem_nil, or_false] at he
    rcases he with rfl | rfl <;> norm_num

end FinML.Alloc
