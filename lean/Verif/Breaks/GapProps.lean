import Verif.Breaks.GapModel
import Verif.Breaks.SadfProps
import Mathlib.Data.Rat.Floor

/-! # The ADF regression for prices with missing values (C367) -/

namespace FinML.Breaks

variable {K : Type} [Field K]

/-- C367, the full claim: every row explains the change of the price by the price just before it. -/
def LevelsMatch (K : Type) [Field K] : Prop :=
  ∀ (s : List (Option K)) (constant : String) (lags : ℕ) (y : List K) (x : List (List (Option K))),
    getYxIntM s constant lags = .ok (y, x) → ∀ (j : ℕ) (row : List (Option K)), x[j]? = some row →
    ∃ (t : ℕ) (a b : K), s[t]? = some (some a) ∧ s[t + 1]? = some (some b) ∧ y[j]? = some (b - a) ∧ row[0]? = some (some a)

/-- C367.  With the prices 1, 3, 7, NaN, 10, 20 the change by 2 is explained by the level 7. -/
theorem C367_counterexample : ¬ LevelsMatch ℚ := by
  intro h
  have e : getYxIntM ([some 1, some 3, some 7, none, some 10, some 20] : List (Option ℚ)) "nc" 0 =
      .ok ([2, 4, 10], [[some 7], [none], [some 10]]) := by decide +kernel
  obtain ⟨t, a, b, ha, hb, hy, hr⟩ := h _ _ _ _ _ e 0 [some 7] rfl
  simp only [List.getElem?_cons_zero, Option.some.injEq] at hy hr
  subst hr
  match t, ha, hb with
  | 0, ha, _ => simp at ha
  | 1, ha, _ => simp at ha
  | 2, _, hb => simp at hb
  | 3, ha, _ => simp at ha
  | 4, ha, _ => simp at ha
  | 5, ha, _ => simp at ha
  | n + 6, ha, _ => simp at ha

theorem knownDiffs_map (l : List K) : knownDiffs (l.map some) = npDiff l := by
  unfold knownDiffs diffM npDiff
  rw [← List.map_tail, List.zipWith_map]
  generalize l.tail = m
  induction l generalizing m with
  | nil => rfl
  | cons a l ih =>
    cases m with
    | nil => rfl
    | cons b m => simpa [subM] using ih m

theorem knownDiffs_append (p : List (Option K)) (l : List K) (hl : l ≠ []) :
    ∃ A, knownDiffs (p ++ l.map some) = A ++ npDiff l := by
  induction p with
  | nil => exact ⟨[], by rw [List.nil_append, knownDiffs_map, List.nil_append]⟩
  | cons a p ih =>
    obtain ⟨A, hA⟩ := ih
    obtain ⟨b, rest, hb⟩ : ∃ b rest, p ++ l.map some = b :: rest := by
      cases h : p ++ l.map some with
      | nil => simp [hl] at h
      | cons b rest => exact ⟨b, rest, rfl⟩
    have e : knownDiffs ((a :: p) ++ l.map some) = (subM b a).toList ++ knownDiffs (p ++ l.map some) := by
      rw [List.cons_append, hb]
      unfold knownDiffs diffM
      rw [List.tail_cons, List.zipWith_cons_cons]
      cases subM b a <;> rfl
    exact ⟨(subM b a).toList ++ A, by rw [e, hA, List.append_assoc]⟩

theorem knownDiffs_length (s : List (Option K)) : (knownDiffs s).length ≤ s.length - 1 := by
  unfold knownDiffs
  refine le_trans (List.length_filterMap_le _ _) ?_
  unfold diffM
  simp

theorem lagRows_length (diff : List K) (lags : ℕ) : (lagRows diff (List.range (lags + 1))).length = diff.length - lags := by
  rw [lagRows_eq diff _ lags (fun k hk => by rw [List.mem_range] at hk; omega) (List.mem_range.mpr (by omega))]
  simp

/-- C367.  The rows of the changes after the last gap have the right levels (missing from the full claim: rows before it). -/
theorem C367_after_partial (p : List (Option K)) (l : List K) (constant : String) (lags : ℕ) :
    ∃ y x, getYxIntM (p ++ l.map some) constant lags = .ok (y, x) ∧
      ∀ (u j : ℕ) (a b : K), l[u]? = some a → l[u + 1]? = some b → j + (l.length - 1 - u) = x.length →
        y[j]? = some (b - a) ∧ ∃ row, x[j]? = some row ∧ row[0]? = some (some a) := by
  refine ⟨_, _, rfl, ?_⟩
  intro u j a b ha hb hj
  have hub : u + 1 < l.length := (List.getElem?_eq_some_iff.mp hb).1
  have hl : l ≠ [] := by rintro rfl; simp at hub
  obtain ⟨A, hA⟩ := knownDiffs_append p l hl
  have hD := knownDiffs_length (p ++ l.map some)
  have hDl : (knownDiffs (p ++ l.map some)).length = A.length + (l.length - 1) := by
    rw [hA, List.length_append, npDiff_length]
  have hn : (p ++ l.map some).length = p.length + l.length := by simp
  have hrl := lagRows_length (knownDiffs (p ++ l.map some)) lags
  have hxl : (setLevelsM (p ++ l.map some) (lagRows (knownDiffs (p ++ l.map some)) (List.range (lags + 1)))).length =
      (knownDiffs (p ++ l.map some)).length - lags := by
    unfold setLevelsM
    rw [List.length_zipWith, List.length_take, List.length_drop, hrl]
    omega
  rw [List.length_mapIdx, hxl] at hj
  constructor
  · rw [hxl]
    unfold lastRows
    rw [if_neg (by omega), List.getElem?_drop]
    rw [show (knownDiffs (p ++ l.map some)).length - ((knownDiffs (p ++ l.map some)).length - lags) + j = A.length + u by omega]
    rw [hA, List.getElem?_append_right (by omega), show A.length + u - A.length = u by omega, npDiff_getElem? _ _ hub]
    simp [List.getD_eq_getElem?_getD, ha, hb]
  · have hjl : j < (lagRows (knownDiffs (p ++ l.map some)) (List.range (lags + 1))).length := by omega
    have hlev : (((p ++ l.map some).drop ((p ++ l.map some).length -
        ((lagRows (knownDiffs (p ++ l.map some)) (List.range (lags + 1))).length + 1))).take
        (lagRows (knownDiffs (p ++ l.map some)) (List.range (lags + 1))).length)[j]? = some (some a) := by
      rw [List.getElem?_take, if_pos hjl, List.getElem?_drop, hrl, hn,
        show p.length + l.length - ((knownDiffs (p ++ l.map some)).length - lags + 1) + j = p.length + u by omega,
        List.getElem?_append_right (by omega), show p.length + u - p.length = u by omega, List.getElem?_map, ha]
      rfl
    obtain ⟨r, hr⟩ : ∃ r, (lagRows (knownDiffs (p ++ l.map some)) (List.range (lags + 1)))[j]? = some r :=
      ⟨_, List.getElem?_eq_getElem hjl⟩
    refine ⟨(some a :: r.tail.map some) ++ (deterministic constant j).map some, ?_, rfl⟩
    rw [List.getElem?_mapIdx]
    unfold setLevelsM
    rw [List.getElem?_zipWith, hlev, hr]
    rfl

/-- C367.  Without gaps the design is that of C119. -/
theorem C367_complete (s : List K) (constant : String) (lags : ℕ) :
    getYxIntM (s.map some) constant lags =
      (getYxInt s constant lags).map fun r => (r.1, r.2.map fun row => row.map some) := by
  unfold getYxIntM getYxInt getYx
  rw [if_neg (by simp), if_neg (not_not.2 List.nodup_range), knownDiffs_map]
  have hset : ∀ rows : List (List K), setLevelsM (s.map some) rows = (setLevels s rows).map fun row => row.map some := by
    intro rows
    unfold setLevelsM setLevels
    rw [List.length_map, ← List.map_drop, ← List.map_take, List.map_zipWith, List.zipWith_map_left]
    rfl
  simp only [hset, List.length_map]
  show _ = Except.ok _
  congr 2
  apply List.ext_getElem?
  intro i
  simp only [List.getElem?_mapIdx, List.getElem?_map]
  cases (setLevels s (lagRows (npDiff s) (List.range (lags + 1))))[i]? <;> simp

/-- C367.  The changes kept are those between neighbouring known prices, the responses the last of them. -/
theorem C367_responses (s : List (Option K)) (constant : String) (lags : ℕ) (y : List K) (x : List (List (Option K)))
    (h : getYxIntM s constant lags = .ok (y, x)) (v : K) (hv : v ∈ y) :
    ∃ (t : ℕ) (a b : K), s[t]? = some (some a) ∧ s[t + 1]? = some (some b) ∧ v = b - a := by
  unfold getYxIntM at h
  simp only [Except.ok.injEq, Prod.mk.injEq] at h
  have hm : v ∈ knownDiffs s := by
    rw [← h.1] at hv
    unfold lastRows at hv
    split at hv
    · exact hv
    · exact List.mem_of_mem_drop hv
  unfold knownDiffs at hm
  rw [List.mem_filterMap] at hm
  obtain ⟨o, ho, hov⟩ := hm
  obtain ⟨t, ht⟩ := List.mem_iff_getElem?.mp ho
  unfold diffM at ht
  rw [List.getElem?_zipWith, List.getElem?_tail] at ht
  cases h1 : s[t]? with
  | none => simp [h1] at ht
  | some a =>
    cases h2 : s[t + 1]? with
    | none => simp [h1, h2] at ht
    | some b =>
      simp only [h1, h2, Option.some.injEq] at ht
      rw [← ht] at hov
      cases a with
      | none => cases b <;> simp [subM] at hov
      | some a =>
        cases b with
        | none => simp [subM] at hov
        | some b =>
          simp only [subM, Option.bind_some, Option.map_some, id_eq, Option.some.injEq] at hov
          exact ⟨t, a, b, h1, h2, hov.symm⟩

/-- Two known changes after a gap. -/
example : getYxIntM ([some 1, some 3, none] ++ [10, 20, 40].map some : List (Option ℚ)) "c" 1 =
    .ok ([10, 20], [[some 10, some 2, some 1], [some 20, some 10, some 1]]) := by decide +kernel

end FinML.Breaks
