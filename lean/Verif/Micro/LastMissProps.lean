import Verif.Micro.ImpactMissProps

/-! # A last tick without price in Hasbrouck's regression (C354) -/

namespace FinML.Micro

open Bars (mulM tickRuleM tickRuleMFrom flagM changeM)

theorem groupBy_append_known {α : Type} (ids : List ℤ) (xs : List (Option α)) (k : ℤ) (hk : k ∈ ids)
    (hl : ids.length = xs.length) :
    (groupBy (ids ++ [k]) (xs ++ [none])).map (fun g => (g.1, g.2.reduceOption)) =
      (groupBy ids xs).map fun g => (g.1, g.2.reduceOption) := by
  have hkeys : groupKeys (ids ++ [k]) = groupKeys ids := by
    refine List.Perm.eq_of_pairwise (le := (· < ·)) ?_ (groupKeys_lt _) (groupKeys_lt _) ?_
    · intro a b _ _ h1 h2
      exact absurd (h1.trans h2) (lt_irrefl _)
    · rw [List.perm_ext_iff_of_nodup (groupKeys_nodup _) (groupKeys_nodup _)]
      intro a
      rw [mem_groupKeys, mem_groupKeys, List.mem_append, List.mem_singleton]
      exact ⟨fun h => h.elim id fun e => e ▸ hk, .inl⟩
  rw [groupBy_def, groupBy_def, hkeys, List.map_map, List.map_map]
  apply List.map_congr_left
  intro j _
  simp only [Function.comp_apply]
  rw [List.zip_append hl, List.filter_append, List.map_append, List.reduceOption_append]
  congr 1
  by_cases h : k = j <;> simp [h]

theorem tickRuleMFrom_append (f p : Option ℝ) (l : List (Option ℝ)) :
    ∃ a, tickRuleMFrom f p (l ++ [none]) = tickRuleMFrom f p l ++ [a] := by
  induction l generalizing f p with
  | nil => exact ⟨_, rfl⟩
  | cons q l ih =>
    obtain ⟨a, ha⟩ := ih (flagM f (changeM p q)) q
    exact ⟨a, by rw [List.cons_append, tickRuleMFrom, tickRuleMFrom, ha]; rfl⟩

/-- C354, Hasbrouck.  The close of a bar is its last known price: a last tick without price, in a bar with other ticks, changes
nothing, whatever its volume. -/
theorem C354_hasbrouck_last (ols : List (List ℝ) → List ℝ → List ℝ) (ticks : List (BTickM ℝ)) (b0 : ℝ) (v : Option ℝ) (k : ℤ)
    (hk : ∃ t ∈ ticks, t.bar = k) (hv : ∀ x, v = some x → 0 ≤ x) :
    hasbrouckLambdaM ols (ticks ++ [⟨none, v, k⟩]) b0 = hasbrouckLambdaM ols ticks b0 := by
  have hc : ((∃ t ∈ ticks ++ [⟨none, v, k⟩], ∃ p, t.price = some p ∧ p ≤ 0) ∨
      (∃ t ∈ ticks ++ [(⟨none, v, k⟩ : BTickM ℝ)], ∃ w, t.volume = some w ∧ w < 0)) ↔
      ((∃ t ∈ ticks, ∃ p, t.price = some p ∧ p ≤ 0) ∨ (∃ t ∈ ticks, ∃ v, t.volume = some v ∧ v < 0)) := by
    refine or_congr ?_ ?_
    · constructor
      · rintro ⟨t, ht, h⟩
        rcases List.mem_append.1 ht with ht | ht
        · exact ⟨t, ht, h⟩
        · rw [List.mem_singleton] at ht
          subst ht
          obtain ⟨p, hp, -⟩ := h
          cases hp
      · rintro ⟨t, ht, h⟩
        exact ⟨t, List.mem_append_left _ ht, h⟩
    · constructor
      · rintro ⟨t, ht, h⟩
        rcases List.mem_append.1 ht with ht | ht
        · exact ⟨t, ht, h⟩
        · rw [List.mem_singleton] at ht
          subst ht
          obtain ⟨p, hp, hp'⟩ := h
          exact absurd (hv p hp) (not_le.2 hp')
      · rintro ⟨t, ht, h⟩
        exact ⟨t, List.mem_append_left _ ht, h⟩
  have hk' : k ∈ ticks.map fun t => t.bar := by
    obtain ⟨t, ht, rfl⟩ := hk
    exact List.mem_map_of_mem ht
  obtain ⟨a, ha⟩ : ∃ a, tickRuleM b0 ((ticks.map fun t => t.price) ++ [none]) = tickRuleM b0 (ticks.map fun t => t.price) ++ [a] := by
    cases hp : ticks.map fun t => t.price with
    | nil =>
      rw [List.map_eq_nil_iff] at hp
      rw [hp] at hk'
      cases hk'
    | cons p ps =>
      obtain ⟨a, ha⟩ := tickRuleMFrom_append (some b0) p ps
      exact ⟨a, by rw [List.cons_append, tickRuleM, tickRuleM, ha]; rfl⟩
  have hlen : ticks.length = (tickRuleM b0 (ticks.map fun t => t.price)).length := by
    rw [(Bars.C348_known_partial b0 _).2, List.length_map]
  have hx : List.zipWith (fun (t : BTickM ℝ) a => mulM ((mulM t.volume t.price).map Real.sqrt) a) (ticks ++ [⟨none, v, k⟩])
      (tickRuleM b0 (ticks.map fun t => t.price) ++ [a]) =
      List.zipWith (fun (t : BTickM ℝ) a => mulM ((mulM t.volume t.price).map Real.sqrt) a) ticks
        (tickRuleM b0 (ticks.map fun t => t.price)) ++ [none] := by
    rw [List.zipWith_append hlen]
    cases v <;> rfl
  have hclose : ∀ xs : List (Option ℝ), (ticks.map fun t => t.bar).length = xs.length →
      (groupBy ((ticks.map fun t => t.bar) ++ [k]) (xs ++ [none])).map (fun g => lastKnown g.2) =
        (groupBy (ticks.map fun t => t.bar) xs).map fun g => lastKnown g.2 := by
    intro xs hl
    have := congrArg (List.map fun g : ℤ × List ℝ => g.2.getLast?) (groupBy_append_known _ xs k hk' hl)
    rw [List.map_map, List.map_map] at this
    exact this
  have hsum : ∀ xs : List (Option ℝ), (ticks.map fun t => t.bar).length = xs.length →
      (groupBy ((ticks.map fun t => t.bar) ++ [k]) (xs ++ [none])).map (fun g => some g.2.reduceOption.sum) =
        (groupBy (ticks.map fun t => t.bar) xs).map fun g => some g.2.reduceOption.sum := by
    intro xs hl
    have := congrArg (List.map fun g : ℤ × List ℝ => some g.2.sum) (groupBy_append_known _ xs k hk' hl)
    rw [List.map_map, List.map_map] at this
    exact this
  unfold hasbrouckLambdaM
  by_cases hneg : (∃ t ∈ ticks, ∃ p, t.price = some p ∧ p ≤ 0) ∨ (∃ t ∈ ticks, ∃ v, t.volume = some v ∧ v < 0)
  · rw [if_pos hneg, if_pos (hc.2 hneg)]
  · rw [if_neg hneg, if_neg (fun h => hneg (hc.1 h))]
    simp only [List.map_append, List.map_cons, List.map_nil, ha, hx]
    rw [hclose _ (by simp), hsum _ (by rw [List.length_map, List.length_zipWith, ← hlen, min_self])]

example (ols : List (List ℝ) → List ℝ → List ℝ) :
    hasbrouckLambdaM ols [⟨some 1, some 1, 0⟩, ⟨some 2, some 3, 1⟩, ⟨none, some 5, 1⟩] 1 =
      hasbrouckLambdaM ols [⟨some 1, some 1, 0⟩, ⟨some 2, some 3, 1⟩] 1 :=
  C354_hasbrouck_last ols [⟨some 1, some 1, 0⟩, ⟨some 2, some 3, 1⟩] 1 (some 5) 1 (by simp) (by norm_num)

end FinML.Micro
