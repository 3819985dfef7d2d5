import Verif.Bars.Props

/-! # Bars of a growing stream (C215) and bars of a multiple of the size (C216) -/

namespace FinML.Bars

set_option linter.unusedSectionVars false

variable {K : Type} [Field K] [LinearOrder K] [IsStrictOrderedRing K]

/-- `new` are the bars of `old` after more ticks: all bars but the last are as before; the last one keeps
its time stamp and open, and its range and volume can only grow. -/
def Extends (old new : List (Bar K)) : Prop :=
  old = [] ∨ ∃ init b b' post, old = init ++ [b] ∧ new = init ++ b' :: post ∧ b'.time = b.time ∧ b'.op = b.op ∧
    b.high ≤ b'.high ∧ b'.low ≤ b.low ∧ b.volume ≤ b'.volume

theorem volumeOf_nonneg' (l : List (Tick K)) (h : ∀ t ∈ l, 0 ≤ t.volume) : 0 ≤ volumeOf l := by
  apply List.sum_nonneg
  intro x hx
  obtain ⟨t, ht, rfl⟩ := List.mem_map.1 hx
  exact h t ht

theorem IsSummary.grow {g e : List (Tick K)} {b b' : Bar K} (h : IsSummary g b) (h' : IsSummary (g ++ e) b')
    (hv : ∀ t ∈ e, 0 ≤ t.volume) :
    b'.op = b.op ∧ b.high ≤ b'.high ∧ b'.low ≤ b.low ∧ b.volume ≤ b'.volume := by
  have hg : g ≠ [] := by
    rintro rfl
    have := h.opens
    simp at this
  obtain ⟨t, r, rfl⟩ := List.exists_cons_of_ne_nil hg
  refine ⟨?_, ?_, ?_, ?_⟩
  · have h1 := h.opens
    have h2 := h'.opens
    simp at h1 h2
    rw [← h1, h2]
  · obtain ⟨u, hu, e1⟩ := h.high.1
    exact h'.high.2 ⟨u, List.mem_append_left _ hu, e1⟩
  · obtain ⟨u, hu, e1⟩ := h.low.1
    exact h'.low.2 ⟨u, List.mem_append_left _ hu, e1⟩
  · rw [h.volume, h'.volume, volumeOf_append]
    have := volumeOf_nonneg' e hv
    linarith

theorem forall₂_split {α β : Type} {R : α → β → Prop} (a b : List α) (l : List β) (h : List.Forall₂ R (a ++ b) l) :
    ∃ u v, List.Forall₂ R a u ∧ List.Forall₂ R b v ∧ l = u ++ v := by
  induction a generalizing l with
  | nil => exact ⟨[], l, .nil, h, rfl⟩
  | cons x xs ih =>
    cases h with
    | cons hx hr =>
      obtain ⟨u, v, h1, h2, rfl⟩ := ih _ hr
      exact ⟨_ :: u, v, .cons hx h1, h2, rfl⟩

/-- Consecutive pieces of two streams joined. -/
theorem pieces_append {ι α : Type} [LinearOrder ι] (p1 p2 : List (ι × List α))
    (h1 : (p1.map Prod.fst).Pairwise (· < ·)) (n1 : ∀ p ∈ p1, p.2 ≠ [])
    (h2 : (p2.map Prod.fst).Pairwise (· < ·)) (n2 : ∀ p ∈ p2, p.2 ≠ [])
    (h12 : ∀ a ∈ p1, ∀ b ∈ p2, a.1 ≤ b.1) :
    ∃ p : List (ι × List α), (p.map Prod.fst).Pairwise (· < ·) ∧ (∀ q ∈ p, q.2 ≠ []) ∧
      (p.flatMap fun q => List.replicate q.2.length q.1) =
        (p1.flatMap fun q => List.replicate q.2.length q.1) ++ (p2.flatMap fun q => List.replicate q.2.length q.1) ∧
      p.flatMap Prod.snd = p1.flatMap Prod.snd ++ p2.flatMap Prod.snd ∧
      (p1 = [] ∨ ∃ init k g e post, p1 = init ++ [(k, g)] ∧ p = init ++ (k, g ++ e) :: post ∧
        ∀ x ∈ e, x ∈ p2.flatMap Prod.snd) := by
  rcases List.eq_nil_or_concat p1 with rfl | ⟨init, ⟨k, g⟩, rfl⟩
  · exact ⟨p2, h2, n2, by simp, by simp, .inl rfl⟩
  rw [List.concat_eq_append] at *
  cases p2 with
  | nil =>
    exact ⟨_, h1, n1, by simp, by simp, .inr ⟨init, k, g, [], [], rfl, by simp, by simp⟩⟩
  | cons q rest =>
    obtain ⟨k', g'⟩ := q
    have hk : k ≤ k' := h12 (k, g) (by simp) (k', g') (by simp)
    rw [List.map_append, List.pairwise_append] at h1
    rw [List.map_cons, List.pairwise_cons] at h2
    obtain ⟨ha, -, hc⟩ := h1
    have hc' : ∀ x ∈ init.map Prod.fst, x < k := fun x hx => hc x hx k (by simp)
    rcases eq_or_lt_of_le hk with rfl | hlt
    · refine ⟨init ++ (k, g ++ g') :: rest, ?_, ?_, ?_, ?_, .inr ⟨init, k, g, g', rest, rfl, rfl, ?_⟩⟩
      · rw [List.map_append, List.pairwise_append]
        refine ⟨ha, ?_, ?_⟩
        · rw [List.map_cons, List.pairwise_cons]
          exact h2
        · intro x hx y hy
          rw [List.map_cons, List.mem_cons] at hy
          rcases hy with rfl | hy
          · exact hc' x hx
          · exact (hc' x hx).trans (h2.1 y hy)
      · intro q hq
        rcases List.mem_append.1 hq with hq | hq
        · exact n1 q (by simp [hq])
        · rcases List.mem_cons.1 hq with rfl | hq
          · simp [n1 (k, g) (by simp)]
          · exact n2 q (by simp [hq])
      · simp only [List.flatMap_append, List.flatMap_cons, List.flatMap_nil, List.length_append,
          List.append_nil, List.append_assoc, List.append_cancel_left_eq]
        rw [← List.append_assoc (List.replicate _ _), List.replicate_append_replicate]
      · simp
      · intro x hx
        simp [hx]
    · refine ⟨init ++ (k, g) :: (k', g') :: rest, ?_, ?_, ?_, ?_,
        .inr ⟨init, k, g, [], (k', g') :: rest, rfl, by simp, by simp⟩⟩
      · rw [List.map_append, List.pairwise_append]
        refine ⟨ha, ?_, ?_⟩
        · rw [List.map_cons, List.pairwise_cons]
          refine ⟨?_, ?_⟩
          · intro y hy
            rw [List.map_cons, List.mem_cons] at hy
            rcases hy with rfl | hy
            · exact hlt
            · exact hlt.trans (h2.1 y hy)
          · rw [List.map_cons, List.pairwise_cons]
            exact h2
        · intro x hx y hy
          rw [List.map_cons, List.map_cons, List.mem_cons, List.mem_cons] at hy
          rcases hy with rfl | rfl | hy
          · exact hc' x hx
          · exact (hc' x hx).trans hlt
          · exact ((hc' x hx).trans hlt).trans (h2.1 y hy)
      · intro q hq
        rcases List.mem_append.1 hq with hq | hq
        · exact n1 q (by simp [hq])
        · rcases List.mem_cons.1 hq with rfl | hq
          · exact n1 _ (by simp)
          · exact n2 q hq
      · simp
      · simp

/-- Grouped bars of a growing stream. -/
theorem group_extends {ι : Type} [LinearOrder ι] (ids ids' : List ι) (a b : List (Tick K))
    (hl : ids.length = a.length) (hl' : ids'.length = b.length) (hs : (ids ++ ids').Pairwise (· ≤ ·))
    (hv : ∀ t ∈ b, 0 ≤ t.volume) (old new : List (Bar K)) (ho : groupTicksToBars ids a = .ok old)
    (hn : groupTicksToBars (ids ++ ids') (a ++ b) = .ok new) : Extends old new := by
  rw [List.pairwise_append] at hs
  obtain ⟨s1, s2, s3⟩ := hs
  obtain ⟨p1, a1, a2, a3, a4⟩ := exists_pieces ids a hl s1
  obtain ⟨p2, b1, b2, b3, b4⟩ := exists_pieces ids' b hl' s2
  have hmem : ∀ (p : List (ι × List (Tick K))), (∀ q ∈ p, q.2 ≠ []) → ∀ q ∈ p,
      q.1 ∈ p.flatMap fun q => List.replicate q.2.length q.1 := by
    intro p hp q hq
    rw [List.mem_flatMap]
    refine ⟨q, hq, List.mem_replicate.2 ⟨?_, rfl⟩⟩
    simpa using hp q hq
  obtain ⟨p, c1, c2, c3, c4, c5⟩ := pieces_append p1 p2 a1 a2 b1 b2 (by
    intro x hx y hy
    exact s3 _ (a3 ▸ hmem p1 a2 x hx) _ (b3 ▸ hmem p2 b2 y hy))
  rw [groupTicksToBars_iff] at ho hn
  rw [a3, a4, groupBy_pieces p1 a1 a2] at ho
  rw [a3, b3, a4, b4, ← c3, ← c4, groupBy_pieces p c1 c2] at hn
  rcases c5 with rfl | ⟨init, k, g, e, post, rfl, rfl, he⟩
  · cases ho
    exact .inl rfl
  · obtain ⟨o1, o2, o3, o4, rfl⟩ := forall₂_split _ _ _ ho
    obtain ⟨n1, n2, n3, n4, rfl⟩ := forall₂_split _ _ _ hn
    cases o4 with
    | cons ob onil =>
    cases onil
    cases n4 with
    | cons nb nrest =>
    rename_i x y z
    have : o1 = n1 := by
      clear ho hn c1 c2 c3 c4 a1 a2 a3 a4
      induction o3 generalizing n1 with
      | nil => cases n3; rfl
      | cons h _ ih =>
        cases n3 with
        | cons h' t' => rw [h.unique h', ih _ t']
    subst this
    refine .inr ⟨o1, x, y, z, rfl, rfl, ?_, ?_⟩
    · have t1 := ob.time
      have t2 := nb.time
      simp only at t1 t2
      have hg := a2 (k, g) (by simp)
      obtain ⟨t, r, rfl⟩ := List.exists_cons_of_ne_nil hg
      simp at t1 t2
      rw [← t1, t2]
    · exact ob.toIsSummary.grow nb.toIsSummary fun t ht => hv t (b4 ▸ he t ht)

/-- C215.  Time bars, for ticks that come no earlier than those before. -/
theorem C215_time (freq : ℤ) (a b : List (Tick K)) (hv : ∀ t ∈ b, 0 ≤ t.volume)
    (hab : ∀ t ∈ a, ∀ u ∈ b, t.time ≤ u.time) (old new : List (Bar K))
    (h1 : aggregateTimeBars freq a = .ok old) (h2 : aggregateTimeBars freq (a ++ b) = .ok new) :
    Extends old new := by
  unfold aggregateTimeBars at h1 h2
  by_cases hf : freq ≤ 0
  · rw [if_pos hf] at h1; cases h1
  rw [if_neg hf] at h1 h2
  push Not at hf
  cases a with
  | nil => cases h1; exact .inl rfl
  | cons t0 rest =>
    simp only [List.cons_append] at h1 h2
    have hmin : ((rest ++ b).map Tick.time).foldl min t0.time = (rest.map Tick.time).foldl min t0.time := by
      rw [List.map_append, List.foldl_append]
      have hle : ∀ u ∈ b, (rest.map Tick.time).foldl min t0.time ≤ u.time := fun u hu =>
        ((foldl_min_isLeast t0.time (rest.map Tick.time)).2 List.mem_cons_self).trans (hab t0 (by simp) u hu)
      generalize (rest.map Tick.time).foldl min t0.time = x at hle
      clear h1 h2 hab hv
      induction b with
      | nil => rfl
      | cons u us ih =>
        rw [List.map_cons, List.foldl_cons, min_eq_left (hle u (by simp))]
        exact ih fun v hv => hle v (by simp [hv])
    rw [hmin] at h2
    have hmax1 := foldl_max_isGreatest t0.time (rest.map Tick.time)
    have hmin1 := foldl_min_isLeast t0.time (rest.map Tick.time)
    have hmax2 := foldl_max_isGreatest t0.time ((rest ++ b).map Tick.time)
    rw [← List.map_cons (f := Tick.time)] at hmax1 hmax2 hmin1
    obtain ⟨tm, htm, etm⟩ := List.mem_map.1 hmax1.1
    have hHH : (rest.map Tick.time).foldl max t0.time ≤ ((rest ++ b).map Tick.time).foldl max t0.time := by
      apply hmax2.2
      rw [← etm]
      refine List.mem_map.2 ⟨tm, ?_, rfl⟩
      rcases List.mem_cons.1 htm with rfl | h
      · simp
      · simp [h]
    have hLH : (rest.map Tick.time).foldl min t0.time ≤ (rest.map Tick.time).foldl max t0.time := by
      rw [← etm]
      exact hmin1.2 (List.mem_map.2 ⟨tm, htm, rfl⟩)
    have hbH : ∀ u ∈ b, (rest.map Tick.time).foldl max t0.time ≤ u.time := fun u hu => by
      rw [← etm]
      exact hab tm htm u hu
    generalize (rest.map Tick.time).foldl min t0.time = L at h1 h2 hLH
    generalize (rest.map Tick.time).foldl max t0.time = H at h1 hHH hLH hbH
    generalize ((rest ++ b).map Tick.time).foldl max t0.time = H' at h2 hHH
    have e1 : L / freq ≤ H / freq := Int.ediv_le_ediv hf hLH
    have e2 : H / freq ≤ H' / freq := Int.ediv_le_ediv hf hHH
    have hbb : ∀ u ∈ b, H / freq ≤ u.time / freq := fun u hu => Int.ediv_le_ediv hf (hbH u hu)
    obtain ⟨m, hm⟩ : ∃ m : ℕ, H / freq = L / freq + m := ⟨(H / freq - L / freq).toNat, by omega⟩
    obtain ⟨d, hd⟩ : ∃ d : ℕ, H' / freq = H / freq + d := ⟨(H' / freq - H / freq).toNat, by omega⟩
    rw [show (H / freq - L / freq + 1).toNat = m + 1 by omega, List.range_succ, List.map_append,
      mapM_eq_ok_iff] at h1
    rw [show (H' / freq - L / freq + 1).toNat = m + (d + 1) by omega, List.range_add, List.map_append,
      mapM_eq_ok_iff, List.range_succ_eq_map] at h2
    obtain ⟨o1, o2, o3, o4, rfl⟩ := forall₂_split _ _ _ h1
    obtain ⟨n1, n2, n3, n4, rfl⟩ := forall₂_split _ _ _ h2
    rw [List.map_cons, List.map_nil] at o4
    rw [List.map_cons, List.map_cons] at n4
    cases o4 with
    | cons ob onil =>
    cases onil
    cases n4 with
    | cons nb nrest =>
    rename_i x y z
    have : o1 = n1 := by
      rw [List.forall₂_map_left_iff] at o3 n3
      have same : ∀ i ∈ List.range m, ∀ x y,
          (do let bar ← computeBarStats ((t0 :: rest).filter fun t => decide (t.time / freq = L / freq + (i : ℤ)))
              return ({ bar with time := (L / freq + (i : ℤ)) * freq } : Bar K)) = .ok x →
          (do let bar ← computeBarStats ((t0 :: (rest ++ b)).filter
                fun t => decide (t.time / freq = L / freq + (i : ℤ)))
              return ({ bar with time := (L / freq + (i : ℤ)) * freq } : Bar K)) = .ok y → x = y := by
        intro i hi x y hx hy
        have hi' : i < m := by simpa using hi
        have : ((t0 :: (rest ++ b)).filter fun t => decide (t.time / freq = L / freq + (i : ℤ))) =
            (t0 :: rest).filter fun t => decide (t.time / freq = L / freq + (i : ℤ)) := by
          rw [← List.cons_append, List.filter_append]
          have : (b.filter fun t => decide (t.time / freq = L / freq + (i : ℤ))) = [] := by
            rw [List.filter_eq_nil_iff]
            intro u hu
            have := hbb u hu
            simp only [decide_eq_true_eq]
            omega
          rw [this, List.append_nil]
        rw [this, hx] at hy
        exact Except.ok.inj hy
      clear h1 h2 ob nb nrest
      generalize List.range m = R at o3 n3 same
      induction o3 generalizing n1 with
      | nil => cases n3; rfl
      | @cons i x l1 l2 h _ ih =>
        cases n3 with
        | cons h' t' =>
          rw [same i (by simp) _ _ h h', ih _ t' fun j hj => same j (by simp [hj])]
    subst this
    refine .inr ⟨o1, x, y, z, rfl, rfl, ?_⟩
    obtain ⟨bo, hbo, ebo⟩ := py_bind_eq_ok.1 ob
    obtain ⟨bn, hbn, ebn⟩ := py_bind_eq_ok.1 nb
    cases ebo
    cases ebn
    rw [Nat.add_zero, ← List.cons_append, List.filter_append] at hbn
    have := ((computeBarStats_iff _ _).1 hbo).toIsSummary.grow ((computeBarStats_iff _ _).1 hbn).toIsSummary
      fun t ht => hv t (List.mem_filter.1 ht).1
    exact ⟨by simp, this⟩

section Floor

variable [FloorRing K]

theorem cumIds_append (f : K) (a b : List K) :
    ∃ c, cumIds f (a ++ b) = cumIds f a ++ c ∧ c.length = b.length := by
  refine ⟨(cumIds f (a ++ b)).drop a.length, ?_, ?_⟩
  · conv_lhs => rw [← List.take_append_drop a.length (cumIds f (a ++ b))]
    congr 1
    apply List.ext_getElem?
    intro i
    by_cases hi : i < a.length
    · rw [List.getElem?_take, if_pos hi, getElem?_cumIds _ _ _ (by rw [List.length_append]; omega),
        getElem?_cumIds _ _ _ hi, List.take_append_of_le_length (by omega)]
    · rw [List.getElem?_take, if_neg hi, List.getElem?_eq_none (by rw [cumIds_length]; omega)]
  · rw [List.length_drop, cumIds_length, List.length_append]
    omega

/-- C215.  When ticks are appended, tick, volume and dollar bars that were followed by another bar do not
change; the last bar can only grow (`Extends`). -/
theorem C215_append (f : K) (hf : 0 < f) (a b : List (Tick K)) (hv : ∀ t ∈ a ++ b, 0 ≤ t.volume) :
    (∀ old new, aggregateTickBars f a = .ok old → aggregateTickBars f (a ++ b) = .ok new → Extends old new) ∧
    (∀ old new, aggregateVolumeBars f a = .ok old → aggregateVolumeBars f (a ++ b) = .ok new →
      Extends old.1 new.1 ∧ old.2 <+: new.2) ∧
    ((∀ t ∈ a ++ b, 0 ≤ t.price) → ∀ old new, aggregateDollarBars f a = .ok old →
      aggregateDollarBars f (a ++ b) = .ok new → Extends old new) := by
  have hb : ∀ t ∈ b, 0 ≤ t.volume := fun t ht => hv t (List.mem_append_right _ ht)
  refine ⟨?_, ?_, ?_⟩
  · intro old new h1 h2
    unfold aggregateTickBars at h1 h2
    rw [if_neg hf.ne'] at h1 h2
    have e : ((List.range (a ++ b).length).map fun i : ℕ => floorDiv (i : K) f) =
        ((List.range a.length).map fun i : ℕ => floorDiv (i : K) f) ++
          ((List.range' a.length b.length).map fun i : ℕ => floorDiv (i : K) f) := by
      rw [← List.map_append, List.length_append, List.range_eq_range', List.range_eq_range',
        ← List.range'_append_1, Nat.zero_add]
    rw [e] at h2
    refine group_extends _ _ a b (by simp) (by simp) ?_ hb old new h1 h2
    rw [← e, List.pairwise_map]
    refine List.pairwise_lt_range.imp fun h => ?_
    exact Int.floor_le_floor ((div_le_div_iff_of_pos_right hf).2 (by exact_mod_cast h.le))
  · intro old new h1 h2
    unfold aggregateVolumeBars at h1 h2
    rw [if_neg hf.ne'] at h1 h2
    obtain ⟨o, ho, h1⟩ := py_bind_eq_ok.1 h1
    obtain ⟨n, hn, h2⟩ := py_bind_eq_ok.1 h2
    cases h1
    cases h2
    obtain ⟨c, hc, hcl⟩ := cumIds_append f (a.map Tick.volume) (b.map Tick.volume)
    rw [List.map_append] at hn ⊢
    have hs := cumIds_sorted f hf ((a ++ b).map Tick.volume) (by
      intro x hx
      obtain ⟨t, ht, rfl⟩ := List.mem_map.1 hx
      exact hv t ht)
    rw [List.map_append] at hs
    simp only at hn ho ⊢
    rw [hc] at hn hs ⊢
    exact ⟨group_extends _ _ a b (by simp [cumIds_length]) (by simp [hcl]) hs hb _ _ ho hn,
      List.prefix_append _ _⟩
  · intro hp old new h1 h2
    unfold aggregateDollarBars at h1 h2
    rw [if_neg hf.ne'] at h1 h2
    obtain ⟨c, hc, hcl⟩ := cumIds_append f (a.map fun t => t.volume * t.price) (b.map fun t => t.volume * t.price)
    have hs := cumIds_sorted f hf ((a ++ b).map fun t => t.volume * t.price) (by
      intro x hx
      obtain ⟨t, ht, rfl⟩ := List.mem_map.1 hx
      exact mul_nonneg (hv t ht) (hp t ht))
    rw [List.map_append, hc] at hs h2
    exact group_extends _ _ a b (by simp [cumIds_length]) (by simp [hcl]) hs hb _ _ h1 h2

theorem forall₂_pieces {R : List (Tick K) → Bar K → Prop} {ι : Type} (p : List (ι × List (Tick K)))
    (bars : List (Bar K)) (h : List.Forall₂ (fun g b => R g.2 b) p bars) :
    ∃ z : List ((ι × List (Tick K)) × Bar K), z.map Prod.fst = p ∧ z.map Prod.snd = bars ∧ ∀ x ∈ z, R x.1.2 x.2 := by
  induction h with
  | nil => exact ⟨[], rfl, rfl, by simp⟩
  | @cons g b gs bs hg _ ih =>
    obtain ⟨z, rfl, rfl, h3⟩ := ih
    refine ⟨(g, b) :: z, rfl, rfl, ?_⟩
    intro x hx
    rcases List.mem_cons.1 hx with rfl | hx
    · exact hg
    · exact h3 x hx

/-- C216.  Volume bars of `m` times the size are the volume bars of the size merged: resampling the fine
bars gives the very bars computed from the ticks. -/
theorem C216_volume (f : K) (hf : 0 < f) (m : ℕ) (hm : 0 < m) (ticks : List (Tick K))
    (hv : ∀ t ∈ ticks, 0 ≤ t.volume) (fine coarse : List (Bar K)) (ids ids' : List ℤ)
    (h1 : aggregateVolumeBars f ticks = .ok (fine, ids))
    (h2 : aggregateVolumeBars ((m : K) * f) ticks = .ok (coarse, ids')) :
    ids' = ids.map (· / (m : ℤ)) ∧ ∃ ids'', resampleTimeToVolumeBars ((m : K) * f) fine = .ok (coarse, ids'') := by
  have hm' : (0 : K) < m := by exact_mod_cast hm
  have hmf : 0 < (m : K) * f := mul_pos hm' hf
  have hdiv : ∀ c : K, floorDiv c ((m : K) * f) = floorDiv c f / (m : ℤ) := by
    intro c
    unfold floorDiv
    rw [mul_comm, ← div_div, Int.floor_div_natCast]
  unfold aggregateVolumeBars at h1 h2
  rw [if_neg hf.ne'] at h1
  rw [if_neg hmf.ne'] at h2
  obtain ⟨fine', hfine, h1⟩ := py_bind_eq_ok.1 h1
  obtain ⟨coarse', hcoarse, h2⟩ := py_bind_eq_ok.1 h2
  cases h1
  cases h2
  have hids : cumIds ((m : K) * f) (ticks.map Tick.volume) =
      (cumIds f (ticks.map Tick.volume)).map (· / (m : ℤ)) := by
    unfold cumIds
    rw [List.map_map]
    exact List.map_congr_left fun c _ => hdiv c
  refine ⟨hids, ?_⟩
  obtain ⟨p, p0, p1, p2, p3, p4, p5⟩ := cumGroups Tick.volume f hf ticks hv
  rw [groupTicksToBars_iff, p0] at hfine
  obtain ⟨z, z1, z2, z3⟩ := forall₂_pieces (R := IsBarOf) p fine hfine
  -- the coarse ids of the fine bars
  have hbarIds : cumIds ((m : K) * f) (fine.map Bar.volume) = z.map fun x => x.1.1 / (m : ℤ) := by
    apply List.ext_getElem?
    intro i
    by_cases hi : i < z.length
    · have hi' : i < (fine.map Bar.volume).length := by rw [← z2]; simpa using hi
      have hip : i < p.length := by rw [← z1]; simpa using hi
      rw [getElem?_cumIds _ _ _ hi', List.getElem?_map, List.getElem?_eq_getElem hi, Option.map_some, hdiv]
      have hsum : ((fine.map Bar.volume).take (i + 1)).sum = volumeOf ((p.take (i + 1)).flatMap Prod.snd) := by
        rw [← List.map_take, List.flatMap_def]
        apply sum_volume_of_forall₂
        rw [List.forall₂_map_left_iff]
        exact List.forall₂_take _ hfine
      have hsplit : p = p.take i ++ (p[i].1, p[i].2) :: p.drop (i + 1) := by
        rw [List.cons_getElem_drop_succ, List.take_append_drop]
      have hb := p5 _ _ _ _ hsplit p[i].2 [] (by simp) (p2 _ (List.getElem_mem _))
      have htake : (p.take (i + 1)).flatMap Prod.snd = (p.take i).flatMap Prod.snd ++ p[i].2 := by
        rw [List.take_succ_eq_append_getElem hip, List.flatMap_append]
        simp
      have hfl : floorDiv (volumeOf ((p.take (i + 1)).flatMap Prod.snd)) f = p[i].1 := by
        unfold floorDiv
        rw [Int.floor_eq_iff, htake, le_div_iff₀ hf, div_lt_iff₀ hf]
        exact hb
      rw [hsum, hfl]
      congr 2
      simp only [← z1, List.getElem_map]
    · rw [List.getElem?_eq_none (by rw [cumIds_length, ← z2]; simpa using hi),
        List.getElem?_eq_none (by simpa using hi)]
  have hkeys : (z.map fun x => x.1.1 / (m : ℤ)).Pairwise (· ≤ ·) := by
    rw [← z1, List.map_map, List.pairwise_map] at p1
    rw [List.pairwise_map]
    exact p1.imp fun h => Int.ediv_le_ediv (by exact_mod_cast hm) h.le
  obtain ⟨cs, c1, c2, c3, c4⟩ := exists_pieces _ z (by simp) hkeys
  have c5 : ∀ c ∈ cs, ∀ x ∈ c.2, x.1.1 / (m : ℤ) = c.1 := by
    have key : ∀ cs : List (ℤ × List ((ℤ × List (Tick K)) × Bar K)),
        ((cs.flatMap Prod.snd).map fun x => x.1.1 / (m : ℤ)) = (cs.flatMap fun q => List.replicate q.2.length q.1) →
        ∀ c ∈ cs, ∀ x ∈ c.2, x.1.1 / (m : ℤ) = c.1 := by
      intro cs
      induction cs with
      | nil => simp
      | cons c cs ih =>
        intro h
        rw [List.flatMap_cons, List.flatMap_cons, List.map_append] at h
        obtain ⟨ha, hb⟩ := List.append_inj h (by simp)
        intro d hd
        rcases List.mem_cons.1 hd with rfl | hd
        · intro x hx
          have := List.eq_replicate_iff.1 ha
          exact this.2 _ (List.mem_map.2 ⟨x, hx, rfl⟩)
        · exact ih hb d hd
    exact key cs (by rw [← c4, c3])
  -- the coarse groups of ticks
  have hg1 : groupBy (cumIds ((m : K) * f) (ticks.map Tick.volume)) ticks =
      cs.map fun c => (c.1, c.2.flatMap fun x => x.1.2) := by
    have := groupBy_pieces (cs.map fun c => (c.1, c.2.flatMap fun x => x.1.2))
      (by rw [List.map_map]; exact c1)
      (by
        intro q hq
        obtain ⟨c, hc, rfl⟩ := List.mem_map.1 hq
        obtain ⟨x, r, hx⟩ := List.exists_cons_of_ne_nil (c2 c hc)
        have hxz : x ∈ z := by
          rw [c4, List.mem_flatMap]
          exact ⟨c, hc, by rw [hx]; simp⟩
        have : x.1.2 ≠ [] := p2 x.1 (by rw [← z1]; exact List.mem_map.2 ⟨x, hxz, rfl⟩)
        simp [hx, this])
    rw [← this, hids, p3]
    congr 1
    · rw [List.map_flatMap, List.flatMap_map, ← z1, c4, List.map_flatMap, List.flatMap_assoc]
      apply List.flatMap_congr
      intro c hc
      simp only [List.flatMap_map, List.map_replicate, List.length_flatMap]
      have := c5 c hc
      generalize c.2 = l at this ⊢
      induction l with
      | nil => simp
      | cons x l ih =>
        rw [List.flatMap_cons, ih fun y hy => this y (by simp [hy]), this x (by simp), List.map_cons,
          List.sum_cons, List.replicate_append_replicate]
    · rw [p4, ← z1, c4, List.flatMap_map, List.flatMap_map, List.flatMap_assoc]
  have hg2 : groupBy (cumIds ((m : K) * f) (fine.map Bar.volume)) fine =
      cs.map fun c => (c.1, c.2.map Prod.snd) := by
    have := groupBy_pieces (cs.map fun c => (c.1, c.2.map Prod.snd))
      (by rw [List.map_map]; exact c1)
      (by
        intro q hq
        obtain ⟨c, hc, rfl⟩ := List.mem_map.1 hq
        simpa using c2 c hc)
    rw [← this, hbarIds, ← z2]
    congr 1
    · rw [c3, List.flatMap_map]
      simp
    · rw [c4, List.map_flatMap, List.flatMap_map]
  rw [groupTicksToBars_iff, hg1, List.forall₂_map_left_iff] at hcoarse
  refine ⟨cumIds ((m : K) * f) (fine.map Bar.volume), ?_⟩
  unfold resampleTimeToVolumeBars groupResampledBars
  rw [if_neg hmf.ne']
  simp only
  rw [hg2, List.mapM_map]
  have hok : cs.mapM (fun c => resampleBarStats (c.2.map Prod.snd)) = .ok coarse := by
    rw [mapM_eq_ok_iff]
    have hcz : ∀ c ∈ cs, ∀ x ∈ c.2, x ∈ z := fun c hc x hx => by
      rw [c4, List.mem_flatMap]
      exact ⟨c, hc, hx⟩
    refine List.Forall₂.imp (R := fun c B => IsBarOf (c.2.flatMap fun x => x.1.2) B ∧ c ∈ cs) ?_ ?_
    · rintro c B ⟨hB, hc⟩
      obtain ⟨B', h1, h2⟩ := resampleBarStats_spec (c.2.map fun x => x.1.2) (c.2.map Prod.snd)
        (by simpa using c2 c hc)
        (by
          rw [List.forall₂_map_left_iff, List.forall₂_map_right_iff, List.forall₂_same]
          exact fun x hx => z3 x (hcz c hc x hx))
        (by
          intro q hq t ht
          obtain ⟨x, hx, rfl⟩ := List.mem_map.1 hq
          apply hv
          rw [p4, List.mem_flatMap]
          exact ⟨x.1, by rw [← z1]; exact List.mem_map.2 ⟨x, hcz c hc x hx, rfl⟩, ht⟩)
      rw [h1, h2.unique (by rw [← List.flatMap_def]; exact hB)]
    · clear hg1 hg2 c5 c4 c3 c2 c1 hcz h2
      induction hcoarse with
      | nil => exact .nil
      | cons h _ ih =>
        exact .cons ⟨h, by simp⟩ (ih.imp fun c B h => ⟨h.1, by simp [h.2]⟩)
  have : (fun g : ℤ × List (Bar K) => resampleBarStats g.2) ∘
      (fun c : ℤ × List ((ℤ × List (Tick K)) × Bar K) => (c.1, c.2.map Prod.snd)) =
      fun c => resampleBarStats (c.2.map Prod.snd) := rfl
  rw [this, hok]
  rfl

/-- More ticks close the open bar and start another; doubling the size merges bars. -/
example : (aggregateTickBars (2 : ℚ) (sampleTicks.take 3)).map List.length = .ok 2 ∧
    (aggregateTickBars (2 : ℚ) sampleTicks).map List.length = .ok 3 ∧
    (aggregateVolumeBars (2 : ℚ) sampleTicks).map (fun r => r.2) = .ok [1, 1, 3, 3, 4] ∧
    (aggregateVolumeBars ((2 : ℕ) * 2 : ℚ) sampleTicks).map (fun r => r.2) = .ok [0, 0, 1, 1, 2] ∧
    (aggregateTimeBars 2 (sampleTicks.take 3)).map List.length = .ok 1 := by
  decide +kernel

end Floor

end FinML.Bars
