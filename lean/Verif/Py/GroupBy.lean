import Verif.Py.Basic

/-! # Facts about `groupBy` -/

namespace FinML

variable {ι α : Type} [LinearOrder ι]

/-- The keys of a group-by, in order; bars.py:44. -/
def groupKeys (ids : List ι) : List ι := ids.dedup.insertionSort (· ≤ ·)

theorem groupBy_def (ids : List ι) (xs : List α) :
    groupBy ids xs = (groupKeys ids).map fun k =>
      (k, ((ids.zip xs).filter fun p => p.1 = k).map Prod.snd) := rfl

theorem mem_groupKeys (ids : List ι) (k : ι) : k ∈ groupKeys ids ↔ k ∈ ids := by
  simp [groupKeys]

theorem groupKeys_nodup (ids : List ι) : (groupKeys ids).Nodup :=
  (List.perm_insertionSort _ _).nodup_iff.2 (List.nodup_dedup _)

theorem groupKeys_lt (ids : List ι) : (groupKeys ids).Pairwise (· < ·) := by
  have h1 : (groupKeys ids).Pairwise (· ≤ ·) := List.pairwise_insertionSort _ _
  have h2 := groupKeys_nodup ids
  exact (h1.and h2).imp fun h => lt_of_le_of_ne h.1 h.2

theorem groupBy_keys (ids : List ι) (xs : List α) :
    (groupBy ids xs).map Prod.fst = groupKeys ids := by
  rw [groupBy_def, List.map_map]
  exact List.map_id _

theorem flatMap_filter_perm {β : Type} (f : β → ι) (keys : List ι) (hn : keys.Nodup) (l : List β)
    (h : ∀ p ∈ l, f p ∈ keys) :
    (keys.flatMap fun k => l.filter fun p => f p = k).Perm l := by
  induction keys generalizing l with
  | nil =>
    cases l with
    | nil => simp
    | cons a l => exact absurd (h a (by simp)) (by simp)
  | cons k ks ih =>
    rw [List.flatMap_cons]
    have hk : k ∉ ks := (List.nodup_cons.1 hn).1
    have := ih (List.nodup_cons.1 hn).2 (l.filter fun p => ¬ f p = k) (by
      intro p hp
      rw [List.mem_filter] at hp
      have h1 := h p hp.1
      simp at hp h1
      exact h1.resolve_left hp.2)
    have heq : (ks.flatMap fun k' => (l.filter fun p => ¬ f p = k).filter fun p => f p = k')
        = ks.flatMap fun k' => l.filter fun p => f p = k' := by
      apply List.flatMap_congr
      intro k' hk'
      rw [List.filter_filter]
      apply List.filter_congr
      intro p _
      by_cases hp : f p = k'
      · simp only [hp, decide_true, Bool.true_and]
        have : k' ≠ k := fun e => hk (e ▸ hk')
        simpa using this
      · simp [hp]
    rw [heq] at this
    refine (List.Perm.append_left _ this).trans ?_
    have := List.filter_append_perm (fun p => decide (f p = k)) l
    convert this using 3
    simp

theorem zip_map_snd {ι α : Type} (ids : List ι) (xs : List α) (h : ids.length = xs.length) :
    (ids.zip xs).map Prod.snd = xs := List.map_snd_zip (by omega)

/-- Grouping loses nothing: the groups together are a permutation of the rows. -/
theorem groupBy_perm (ids : List ι) (xs : List α) (h : ids.length = xs.length) :
    ((groupBy ids xs).flatMap Prod.snd).Perm xs := by
  have h1 := flatMap_filter_perm (fun p : ι × α => p.1) (groupKeys ids) (groupKeys_nodup ids)
    (ids.zip xs) (by
      intro p hp
      rw [mem_groupKeys]
      exact (List.of_mem_zip hp).1)
  have h2 := h1.map Prod.snd
  rw [zip_map_snd ids xs h, List.map_flatMap] at h2
  rw [groupBy_def, List.flatMap_map]
  exact h2

theorem exists_mem_zip {ι α : Type} {ids : List ι} {xs : List α} (h : ids.length = xs.length) {k : ι}
    (hk : k ∈ ids) : ∃ x, (k, x) ∈ ids.zip xs := by
  obtain ⟨i, hi, rfl⟩ := List.mem_iff_getElem.1 hk
  refine ⟨xs[i]'(h ▸ hi), ?_⟩
  rw [List.mem_iff_getElem]
  exact ⟨i, by simp [hi]; omega, by simp⟩

/-- No group is empty. -/
theorem groupBy_ne_nil (ids : List ι) (xs : List α) (h : ids.length = xs.length) :
    ∀ g ∈ groupBy ids xs, g.2 ≠ [] := by
  intro g hg
  rw [groupBy_def, List.mem_map] at hg
  obtain ⟨k, hk, rfl⟩ := hg
  rw [mem_groupKeys] at hk
  obtain ⟨x, hx⟩ := exists_mem_zip h hk
  intro h0
  have : (k, x) ∈ (ids.zip xs).filter fun p => p.1 = k := by
    rw [List.mem_filter]; exact ⟨hx, by simp⟩
  simp only [List.map_eq_nil_iff] at h0
  rw [h0] at this
  simp at this

theorem sorted_ext {l₁ l₂ : List ι} (h₁ : l₁.Pairwise (· < ·)) (h₂ : l₂.Pairwise (· < ·))
    (h : ∀ a, a ∈ l₁ ↔ a ∈ l₂) : l₁ = l₂ := by
  have n1 : l₁.Nodup := h₁.imp ne_of_lt
  have n2 : l₂.Nodup := h₂.imp ne_of_lt
  have hp := (List.perm_ext_iff_of_nodup n1 n2).2 h
  exact hp.eq_of_pairwise (fun a b _ _ hab hba => absurd hab (lt_asymm hba)) h₁ h₂

theorem filter_zip_pieces (pieces : List (ι × List α)) (hs : (pieces.map Prod.fst).Nodup)
    (k : ι) (g : List α) (hk : (k, g) ∈ pieces) :
    ((((pieces.flatMap fun p => List.replicate p.2.length p.1).zip
        (pieces.flatMap Prod.snd)).filter fun p => p.1 = k).map Prod.snd) = g := by
  induction pieces with
  | nil => simp at hk
  | cons p ps ih =>
    rw [List.flatMap_cons, List.flatMap_cons, List.zip_append (by simp), List.filter_append,
      List.map_append]
    rw [List.map_cons, List.nodup_cons] at hs
    have hself : ∀ (a : ι) (l : List α), ((List.replicate l.length a).zip l).filter
        (fun p => decide (p.1 = k)) = if a = k then (List.replicate l.length a).zip l else [] := by
      intro a l
      split
      · next h =>
        rw [List.filter_eq_self]
        intro q hq
        have := (List.of_mem_zip hq).1
        rw [List.mem_replicate] at this
        simp [this.2, h]
      · next h =>
        rw [List.filter_eq_nil_iff]
        intro q hq
        have := (List.of_mem_zip hq).1
        rw [List.mem_replicate] at this
        simp [this.2, h]
    rw [hself]
    rcases List.mem_cons.1 hk with h | h
    · subst h
      have hnone : (((ps.flatMap fun p => List.replicate p.2.length p.1).zip
          (ps.flatMap Prod.snd)).filter fun p => decide (p.1 = k)) = [] := by
        rw [List.filter_eq_nil_iff]
        intro q hq
        have := (List.of_mem_zip hq).1
        rw [List.mem_flatMap] at this
        obtain ⟨r, hr, hq2⟩ := this
        rw [List.mem_replicate] at hq2
        have : q.1 ≠ k := by
          intro e
          apply hs.1
          rw [List.mem_map]
          exact ⟨r, hr, by rw [← hq2.2, e]⟩
        simpa using this
      rw [hnone]
      simp only [if_true, List.map_nil, List.append_nil]
      exact zip_map_snd _ _ (by simp)
    · have : p.1 ≠ k := by
        intro e
        apply hs.1
        rw [List.mem_map]
        exact ⟨(k, g), h, e.symm⟩
      rw [if_neg this, List.map_nil, List.nil_append]
      exact ih hs.2 h

/-- If the rows come as consecutive non-empty pieces with strictly increasing ids, grouping by id
returns those pieces. -/
theorem groupBy_pieces (pieces : List (ι × List α))
    (hs : (pieces.map Prod.fst).Pairwise (· < ·)) (hne : ∀ p ∈ pieces, p.2 ≠ []) :
    groupBy (pieces.flatMap fun p => List.replicate p.2.length p.1) (pieces.flatMap Prod.snd)
      = pieces := by
  have hn : (pieces.map Prod.fst).Nodup := hs.imp ne_of_lt
  have hkeys : groupKeys (pieces.flatMap fun p => List.replicate p.2.length p.1)
      = pieces.map Prod.fst := by
    refine sorted_ext (groupKeys_lt _) hs ?_
    intro a
    rw [mem_groupKeys, List.mem_flatMap, List.mem_map]
    constructor
    · rintro ⟨p, hp, ha⟩
      exact ⟨p, hp, ((List.mem_replicate.1 ha).2).symm⟩
    · rintro ⟨p, hp, rfl⟩
      refine ⟨p, hp, List.mem_replicate.2 ⟨?_, rfl⟩⟩
      have := hne p hp
      simpa using this
  rw [groupBy_def, hkeys, List.map_map]
  conv_rhs => rw [← List.map_id pieces]
  apply List.map_congr_left
  rintro ⟨k, g⟩ hp
  simp only [Function.comp]
  rw [filter_zip_pieces pieces hn k g hp]
  rfl

/-- Nondecreasing ids cut the rows into consecutive pieces. -/
theorem exists_pieces (ids : List ι) (xs : List α) (h : ids.length = xs.length)
    (hs : ids.Pairwise (· ≤ ·)) :
    ∃ pieces : List (ι × List α), (pieces.map Prod.fst).Pairwise (· < ·) ∧
      (∀ p ∈ pieces, p.2 ≠ []) ∧
      ids = (pieces.flatMap fun p => List.replicate p.2.length p.1) ∧
      xs = pieces.flatMap Prod.snd := by
  induction ids generalizing xs with
  | nil =>
    cases xs with
    | nil => exact ⟨[], by simp⟩
    | cons a l => simp at h
  | cons k ids ih =>
    cases xs with
    | nil => simp at h
    | cons x xs =>
      rw [List.pairwise_cons] at hs
      obtain ⟨ps, h1, h2, h3, h4⟩ := ih xs (by simpa using h) hs.2
      cases ps with
      | nil =>
        refine ⟨[(k, [x])], by simp, by simp, ?_, ?_⟩
        · simpa using h3
        · simpa using h4
      | cons p ps =>
        obtain ⟨k', g⟩ := p
        have hg : g ≠ [] := h2 (k', g) (by simp)
        have hk' : k' ∈ ids := by
          rw [h3]
          simp [hg]
        have hle : k ≤ k' := hs.1 k' hk'
        rcases eq_or_lt_of_le hle with e | e
        · subst e
          refine ⟨(k, x :: g) :: ps, by simpa using h1, ?_, ?_, ?_⟩
          · intro p hp
            rcases List.mem_cons.1 hp with rfl | hp
            · simp
            · exact h2 p (by simp [hp])
          · rw [h3]; simp [List.replicate_succ]
          · rw [h4]; simp
        · refine ⟨(k, [x]) :: (k', g) :: ps, ?_, ?_, ?_, ?_⟩
          · rw [List.map_cons, List.pairwise_cons]
            refine ⟨?_, h1⟩
            intro a ha
            rw [List.map_cons, List.mem_cons] at ha
            rcases ha with rfl | ha
            · exact e
            · rw [List.map_cons, List.pairwise_cons] at h1
              exact e.trans (h1.1 a ha)
          · intro p hp
            rcases List.mem_cons.1 hp with rfl | hp
            · simp
            · exact h2 p hp
          · rw [h3]; simp
          · rw [h4]; simp

/-- With nondecreasing ids the groups, read in order, are the rows in their original order. -/
theorem groupBy_flatten (ids : List ι) (xs : List α) (h : ids.length = xs.length)
    (hs : ids.Pairwise (· ≤ ·)) : (groupBy ids xs).flatMap Prod.snd = xs := by
  obtain ⟨ps, h1, h2, h3, h4⟩ := exists_pieces ids xs h hs
  rw [h3, h4, groupBy_pieces ps h1 h2]

end FinML
