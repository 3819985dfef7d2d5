import Verif.Default.SystemModel
import Verif.Py.Lemmas
import Mathlib.Algebra.Order.Ring.Rat

/-!
# Properties C155 and C156: the dataset of a firm
-/

namespace FinML.Default

variable {F K : Type}

theorem mem_innerMerge {A B : Type} (left : List (ℤ × A)) (right : List (ℤ × B)) (t : ℤ) (a : A) (b : B) :
    (t, (a, b)) ∈ innerMerge left right ↔ (t, a) ∈ left ∧ (t, b) ∈ right := by
  unfold innerMerge
  simp only [List.mem_flatMap, List.mem_map, List.mem_filter, decide_eq_true_eq, Prod.exists, Prod.mk.injEq]
  constructor
  · rintro ⟨t1, a1, h1, t2, b2, ⟨h2, rfl⟩, rfl, rfl, rfl⟩
    exact ⟨h1, h2⟩
  · rintro ⟨h1, h2⟩
    exact ⟨t, a, h1, t, b, ⟨h2, rfl⟩, rfl, rfl, rfl⟩

/-- C155. The rows of the dataset are the combinations of rows of the four tables that have the same date and
a known yield. -/
theorem C155_rows (firmData : List (ℤ × F)) (treasury bonds equities : List (ℤ × Option K)) (t : ℤ) (f : F)
    (y : K) (b e : Option K) :
    (t, (⟨f, y, b, e⟩ : Joined F K)) ∈ createDataset firmData treasury bonds equities ↔
      (t, f) ∈ firmData ∧ (t, some y) ∈ treasury ∧ (t, b) ∈ bonds ∧ (t, e) ∈ equities := by
  unfold createDataset
  simp only [List.mem_filterMap, Prod.exists]
  constructor
  · rintro ⟨t', f', y', b', e', h, hk⟩
    cases y' with
    | none => simp [keepYield] at hk
    | some y' =>
      simp only [keepYield, Option.map_some, Option.some.injEq, Prod.mk.injEq, Joined.mk.injEq] at hk
      obtain ⟨rfl, rfl, rfl, rfl, rfl⟩ := hk
      rw [mem_innerMerge, mem_innerMerge, mem_innerMerge] at h
      tauto
  · rintro ⟨h1, h2, h3, h4⟩
    refine ⟨t, f, some y, b, e, ?_, by simp [keepYield]⟩
    rw [mem_innerMerge, mem_innerMerge, mem_innerMerge]
    exact ⟨⟨⟨h1, h2⟩, h3⟩, h4⟩

theorem count_innerMerge {A B : Type} [BEq A] [LawfulBEq A] [BEq B] [LawfulBEq B] (left : List (ℤ × A)) (right : List (ℤ × B))
    (t : ℤ) (a : A) (b : B) :
    (innerMerge left right).count (t, (a, b)) = left.count (t, a) * right.count (t, b) := by
  unfold innerMerge
  induction left with
  | nil => simp
  | cons p left ih =>
    obtain ⟨u, c⟩ := p
    rw [List.flatMap_cons, List.count_append, ih, List.count_cons]
    have h : ((right.filter fun r => decide (r.1 = u)).map fun r => (u, (c, r.2))).count (t, (a, b)) =
        if ((u, c) == (t, a)) = true then right.count (t, b) else 0 := by
      clear ih
      by_cases hp : (u, c) = (t, a)
      · rw [if_pos (by rw [hp]; exact beq_self_eq_true _)]
        obtain ⟨rfl, rfl⟩ := Prod.mk.inj hp
        induction right with
        | nil => simp
        | cons q right ihr =>
          obtain ⟨v, d⟩ := q
          rw [List.filter_cons]
          by_cases hv : v = u
          · subst hv
            simp only [decide_true, if_true, List.map_cons, List.count_cons, ihr]
            have he : ((v, c, d) == (v, c, b)) = ((v, d) == (v, b)) := by
              rw [Bool.eq_iff_iff, beq_iff_eq, beq_iff_eq, Prod.mk.injEq, Prod.mk.injEq, Prod.mk.injEq]
              exact ⟨fun h => ⟨h.1, h.2.2⟩, fun h => ⟨h.1, rfl, h.2⟩⟩
            rw [he]
          · simp only [hv, decide_false, Bool.false_eq_true, if_false, List.count_cons, ihr]
            simp [hv]
      · rw [if_neg (by rw [beq_iff_eq]; exact hp), List.count_eq_zero]
        intro hm
        simp only [List.mem_map, Prod.mk.injEq] at hm
        obtain ⟨r, -, h1, h2, -⟩ := hm
        exact hp (by rw [h1, h2])
    have h' : ((right.filter fun r => decide (r.1 = (u, c).1)).map fun r => ((u, c).1, ((u, c).2, r.2))).count
        (t, (a, b)) = if ((u, c) == (t, a)) = true then right.count (t, b) else 0 := h
    rw [h']
    split_ifs <;> ring

/-- C155. Every combination of rows of the same date occurs once, also if a table has several rows for a date. -/
theorem C155_multiplicity [DecidableEq F] [DecidableEq K] (firmData : List (ℤ × F))
    (treasury bonds equities : List (ℤ × Option K)) (t : ℤ) (f : F) (y : K) (b e : Option K) :
    ((createDataset firmData treasury bonds equities).filter fun r =>
        decide (r.1 = t ∧ r.2.firm = f ∧ r.2.yield = y ∧ r.2.bonds = b ∧ r.2.equities = e)).length =
      firmData.count (t, f) * treasury.count (t, some y) * bonds.count (t, b) * equities.count (t, e) := by
  unfold createDataset
  rw [← count_innerMerge, ← count_innerMerge, ← count_innerMerge]
  generalize innerMerge (innerMerge (innerMerge firmData treasury) bonds) equities = l
  induction l with
  | nil => simp
  | cons p l ih =>
    obtain ⟨t', ⟨⟨f', y'⟩, b'⟩, e'⟩ := p
    rw [List.count_cons, ← ih]
    cases y' with
    | none =>
      rw [List.filterMap_cons_none (by simp [keepYield])]
      simp
    | some y' =>
      rw [List.filterMap_cons_some (by simp [keepYield]; rfl), List.filter_cons]
      by_cases h : t' = t ∧ f' = f ∧ y' = y ∧ b' = b ∧ e' = e
      · obtain ⟨rfl, rfl, rfl, rfl, rfl⟩ := h
        simp
      · have h2 : ¬ ((t', ((f', some y'), b'), e') = (t, ((f, some y), b), e)) := by
          simp only [Prod.mk.injEq, Option.some.injEq]
          tauto
        simp [h]
        tauto

theorem filter_date {B : Type} (right : List (ℤ × B)) (h : (right.map Prod.fst).Nodup) (t : ℤ) :
    (right.filter fun r => decide (r.1 = t)).length ≤ 1 := by
  induction right with
  | nil => simp
  | cons p l ih =>
    rw [List.map_cons, List.nodup_cons] at h
    rw [List.filter_cons]
    split_ifs with hp
    · have : l.filter (fun r => decide (r.1 = t)) = [] := by
        rw [List.filter_eq_nil_iff]
        intro r hr
        simp only [decide_eq_true_eq] at hp ⊢
        rintro rfl
        exact h.1 (hp ▸ List.mem_map_of_mem hr)
      simp [this]
    · exact ih h.2

theorem innerMerge_sublist {A B : Type} (left : List (ℤ × A)) (right : List (ℤ × B))
    (h : (right.map Prod.fst).Nodup) :
    ((innerMerge left right).map fun r => (r.1, r.2.1)).Sublist left := by
  unfold innerMerge
  induction left with
  | nil => simp
  | cons p l ih =>
    rw [List.flatMap_cons, List.map_append, List.map_map]
    have h1 := filter_date right h p.1
    generalize right.filter (fun r => decide (r.1 = p.1)) = m at h1
    match m, h1 with
    | [], _ => simpa using ih.cons p
    | [r], _ => simpa using ih

/-- C155. When no table has two rows for a date, each row of the firm is used at most once, in the given
order. -/
theorem C155_order (firmData : List (ℤ × F)) (treasury bonds equities : List (ℤ × Option K))
    (h1 : (treasury.map Prod.fst).Nodup) (h2 : (bonds.map Prod.fst).Nodup)
    (h3 : (equities.map Prod.fst).Nodup) :
    ((createDataset firmData treasury bonds equities).map fun r => (r.1, r.2.firm)).Sublist firmData := by
  have s1 := innerMerge_sublist firmData treasury h1
  have s2 := (innerMerge_sublist (innerMerge firmData treasury) bonds h2).map fun r => (r.1, r.2.1)
  have s3 := ((innerMerge_sublist (innerMerge (innerMerge firmData treasury) bonds) equities h3).map
    fun r => (r.1, r.2.1)).map fun r => (r.1, r.2.1)
  refine List.Sublist.trans ?_ ((s3.trans s2).trans s1)
  unfold createDataset
  rw [List.map_map, List.map_map]
  generalize innerMerge (innerMerge (innerMerge firmData treasury) bonds) equities = m
  induction m with
  | nil => simp
  | cons r m ih =>
    obtain ⟨t, ⟨⟨f, y⟩, b⟩, e⟩ := r
    cases y with
    | none =>
      rw [List.filterMap_cons_none (by simp [keepYield]), List.map_cons]
      exact ih.cons _
    | some y =>
      rw [List.filterMap_cons_some (b := (t, ⟨f, y, b, e⟩)) (by simp [keepYield]), List.map_cons, List.map_cons]
      exact ih.cons_cons _

/-- The rows of the tables below: the second yield is missing and the last bond price has no row. -/
example : createDataset [(1, "a"), (2, "b"), (3, "c"), (4, "d")] [(1, some 5), (2, none), (3, some 6), (4, some 7)]
    [(3, some 8), (2, some 2), (1, none)] [(1, some 1), (2, some 1), (3, some 2), (4, (some 9 : Option ℚ))] =
    [(1, ⟨"a", 5, none, some 1⟩), (3, ⟨"c", 6, some 8, some 2⟩)] := by decide +kernel

/-! ## C156: returns over one interval -/

/-- Consecutive dates are `step` apart. -/
def EvenlySpaced (step : ℤ) (dates : List ℤ) : Prop :=
  ∀ (i : ℕ) (a b : ℤ), dates[i]? = some a → dates[i + 1]? = some b → b = a + step

/-- C156, the full claim: from evenly spaced data of the firm the dataset has evenly spaced rows, so that the
returns of `create_firm_model` all span the given interval. -/
def DatasetEven : Prop :=
  ∀ (step : ℤ) (firmData : List (ℤ × ℚ)) (treasury bonds equities : List (ℤ × Option ℚ)),
    EvenlySpaced step (firmData.map Prod.fst) → (treasury.map Prod.fst).Nodup → (bonds.map Prod.fst).Nodup →
    (equities.map Prod.fst).Nodup →
    EvenlySpaced step ((createDataset firmData treasury bonds equities).map Prod.fst)

/-- C156. A missing yield leaves a gap of two intervals. -/
theorem C156_even_counterexample : ¬ DatasetEven := by
  intro h
  have h1 := h 1 [(1, 0), (2, 0), (3, 0)] [(1, some 0), (2, none), (3, some 0)] [(1, some 0), (2, some 0), (3, some 0)]
    [(1, some 0), (2, some 0), (3, some 0)] (by
      intro i a b ha hb
      match i with
      | 0 => simp at ha hb; omega
      | 1 => simp at ha hb; omega
      | i + 2 => simp at hb) (by decide) (by decide) (by decide)
  have h2 := h1 0 1 3 (by decide +kernel) (by decide +kernel)
  norm_num at h2

theorem innerMerge_all {A B : Type} (left : List (ℤ × A)) (right : List (ℤ × B))
    (h : (right.map Prod.fst).Nodup) (hall : ∀ t ∈ left.map Prod.fst, t ∈ right.map Prod.fst) :
    (innerMerge left right).map (fun r => (r.1, r.2.1)) = left := by
  unfold innerMerge
  induction left with
  | nil => simp
  | cons p l ih =>
    rw [List.flatMap_cons, List.map_append, List.map_map,
      ih fun t ht => hall t (by rw [List.map_cons]; exact List.mem_cons_of_mem _ ht)]
    have h1 := filter_date right h p.1
    obtain ⟨r, hr, hrp⟩ := List.mem_map.1 (hall p.1 (by simp))
    have h2 : r ∈ right.filter fun r => decide (r.1 = p.1) := by simp [hr, hrp]
    generalize right.filter (fun r => decide (r.1 = p.1)) = m at h1 h2
    match m, h1 with
    | [], _ => simp at h2
    | [r], _ => simp

/-- C156. What is missing from the full claim is the condition that every date of the firm occurs in each table
and has a yield: then the dataset has all rows of the firm, and the dates stay evenly spaced. -/
theorem C156_even_partial (step : ℤ) (firmData : List (ℤ × F)) (treasury bonds equities : List (ℤ × Option K))
    (h0 : EvenlySpaced step (firmData.map Prod.fst))
    (h1 : (treasury.map Prod.fst).Nodup) (h2 : (bonds.map Prod.fst).Nodup)
    (h3 : (equities.map Prod.fst).Nodup)
    (hall : ∀ t ∈ firmData.map Prod.fst, (∃ y, (t, some y) ∈ treasury) ∧ t ∈ bonds.map Prod.fst ∧
      t ∈ equities.map Prod.fst) :
    (createDataset firmData treasury bonds equities).map (fun r => (r.1, r.2.firm)) = firmData ∧
    EvenlySpaced step ((createDataset firmData treasury bonds equities).map Prod.fst) := by
  have d1 := innerMerge_all firmData treasury h1 fun t ht => by
    obtain ⟨⟨y, hy⟩, -⟩ := hall t ht
    exact List.mem_map.2 ⟨_, hy, rfl⟩
  have f1 : (innerMerge firmData treasury).map Prod.fst = firmData.map Prod.fst := by
    conv_rhs => rw [← d1, List.map_map]
    rfl
  have d2 := innerMerge_all (innerMerge firmData treasury) bonds h2 fun t ht => (hall t (f1 ▸ ht)).2.1
  have f2 : (innerMerge (innerMerge firmData treasury) bonds).map Prod.fst = firmData.map Prod.fst := by
    rw [← f1]
    conv_rhs => rw [← d2, List.map_map]
    rfl
  have d3 := innerMerge_all _ equities h3 fun t ht => (hall t (f2 ▸ ht)).2.2
  have hm : ∀ r ∈ innerMerge (innerMerge (innerMerge firmData treasury) bonds) equities,
      ∃ y, r.2.1.1.2 = some y := by
    rintro ⟨t, ⟨⟨f, y⟩, b⟩, e⟩ hr
    rw [mem_innerMerge, mem_innerMerge, mem_innerMerge] at hr
    obtain ⟨⟨⟨hf, hy⟩, -⟩, -⟩ := hr
    obtain ⟨⟨y', hy'⟩, -⟩ := hall t (List.mem_map.2 ⟨_, hf, rfl⟩)
    have := List.inj_on_of_nodup_map h1 hy hy' rfl
    exact ⟨y', by rw [(Prod.mk.inj this).2]⟩
  have key : (createDataset firmData treasury bonds equities).map (fun r => (r.1, r.2.firm)) = firmData := by
    conv_rhs => rw [← d1, ← d2, ← d3, List.map_map, List.map_map]
    unfold createDataset
    generalize innerMerge (innerMerge (innerMerge firmData treasury) bonds) equities = m at hm
    induction m with
    | nil => simp
    | cons r m ih =>
      obtain ⟨t, ⟨⟨f, y⟩, b⟩, e⟩ := r
      obtain ⟨y', hy⟩ := hm _ (List.mem_cons_self)
      simp only at hy
      subst hy
      rw [List.filterMap_cons_some (b := (t, ⟨f, y', b, e⟩)) (by simp [keepYield]), List.map_cons, List.map_cons,
        ih fun r hr => hm r (List.mem_cons_of_mem _ hr)]
      rfl
  refine ⟨key, ?_⟩
  have e : (createDataset firmData treasury bonds equities).map Prod.fst = firmData.map Prod.fst := by
    conv_rhs => rw [← key, List.map_map]
    rfl
  rw [e]
  exact h0

/-- The hypotheses can be met. -/
example : EvenlySpaced 7 (([(0, "a"), (7, "b"), (14, "c")] : List (ℤ × String)).map Prod.fst) := by
  intro i a b ha hb
  match i with
  | 0 => simp at ha hb; omega
  | 1 => simp at ha hb; omega
  | i + 2 => simp at hb

end FinML.Default
