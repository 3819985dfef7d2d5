import Verif.Stats.MissModel
import Verif.Stats.Props
import Verif.Stats.OrderProps

/-! # C370: residual statistics of series with missing values -/

namespace FinML.Stats

/-- One missing value makes the sum missing. -/
theorem npSum_foldl (l : List (Option ℝ)) (s : Option ℝ) :
    (none ∈ l → l.foldl (fun s x => s.bind fun a => x.map fun b => a + b) s = none) ∧
    l.foldl (fun s x => s.bind fun a => x.map fun b => a + b) (none : Option ℝ) = none := by
  induction l generalizing s with
  | nil => simp
  | cons x l ih =>
    refine ⟨fun h => ?_, ?_⟩
    · rcases List.mem_cons.1 h with h | h
      · subst h
        rw [List.foldl_cons]
        have : (s.bind fun a => (none : Option ℝ).map fun b => a + b) = none := by cases s <;> rfl
        rw [this]
        exact (ih none).2
      · rw [List.foldl_cons]
        exact (ih _).1 h
    · rw [List.foldl_cons]
      exact (ih none).2

/-- The sum of known values. -/
theorem npSum_some (l : List ℝ) : npSum (l.map some) = some l.sum := by
  have : ∀ (l : List ℝ) (c : ℝ), (l.map some).foldl
      (fun (s : Option ℝ) x => s.bind fun a => x.map fun b => a + b) (some c) = some (c + l.sum) := by
    intro l
    induction l with
    | nil => intro c; simp
    | cons x l ih =>
      intro c
      rw [List.map_cons, List.foldl_cons]
      show (l.map some).foldl _ (some (c + x)) = _
      rw [ih (c + x), List.sum_cons, add_assoc]
  unfold npSum
  rw [this l 0, zero_add]

/-- C370.  One missing residual makes the Durbin-Watson statistic missing; without missing residuals it is that of C157. -/
theorem C370_durbin_watson :
    (∀ e : List (Option ℝ), none ∈ e → durbinWatsonM e = none) ∧
    ∀ e : List ℝ, durbinWatsonM (e.map some) = durbinWatson e := by
  refine ⟨fun e h => ?_, fun e => ?_⟩
  · unfold durbinWatsonM
    have h0 : npSum (e.map fun o => o.map (· ^ 2)) = none :=
      (npSum_foldl _ _).1 (List.mem_map.2 ⟨none, h, rfl⟩)
    simp only [h0]
    cases npSum _ <;> rfl
  · unfold durbinWatsonM durbinWatson
    have h1 : (e.map some).map (fun o : Option ℝ => o.map (· ^ 2)) = (e.map (· ^ 2)).map some := by
      simp [List.map_map, Function.comp_def]
    have h2 : (List.zipWith (fun (a b : Option ℝ) => a.bind fun x => b.map fun y => y - x) (e.map some)
        (e.map some).tail).map (fun o : Option ℝ => o.map (· ^ 2)) =
        ((List.zipWith (fun a b => b - a) e e.tail).map (· ^ 2)).map some := by
      rw [← List.map_tail, List.zipWith_map, List.map_zipWith, List.map_zipWith, List.map_zipWith]
      rfl
    simp only [h1, h2, npSum_some]
    rfl

/-- A missing value in front makes no pair. -/
theorem lagPairs_none_cons (s : List (Option ℝ)) (lag : ℕ) : lagPairs (none :: s) lag = lagPairs s lag := by
  unfold lagPairs
  cases lag with
  | zero => simp [bothPresent]
  | succ k =>
    rw [List.drop_succ_cons]
    cases h : s.drop k with
    | nil =>
      have h' : s.drop (k + 1) = [] := by
        rw [List.drop_eq_nil_iff] at h ⊢
        omega
      rw [h']
      simp
    | cons a l =>
      have h' : s.drop (k + 1) = l := by
        rw [← List.drop_drop, h]
        rfl
      rw [h', List.zip_cons_cons, List.filterMap_cons]
      have : bothPresent (a, none) = none := by cases a <;> rfl
      rw [this]

/-- Missing values do not matter: the autocorrelation is that of the known values. -/
def AutocorrOfKnown : Prop :=
  ∀ (s : List (Option ℝ)) (lag : ℕ), pearsonAutocorr s lag = pearsonAutocorr (s.filter fun o => o.isSome) lag

/-- C370.  Missing values before and after the known ones do not matter for the autocorrelation.  Missing: values missing in
between, C370_autocorr_counterexample. -/
theorem C370_autocorr_partial (m n lag : ℕ) (s : List (Option ℝ)) :
    pearsonAutocorr (List.replicate m none ++ s ++ List.replicate n none) lag = pearsonAutocorr s lag := by
  have front : ∀ (m : ℕ) (s : List (Option ℝ)),
      pearsonAutocorr (List.replicate m none ++ s) lag = pearsonAutocorr s lag := by
    intro m s
    induction m with
    | zero => simp
    | succ m ih =>
      rw [List.replicate_succ, List.cons_append]
      unfold pearsonAutocorr at ih ⊢
      rw [lagPairs_none_cons, ih]
  rw [List.append_assoc, front, ← C255_autocorr_reverse, List.reverse_append, List.reverse_replicate, front,
    C255_autocorr_reverse]

/-- C370.  The autocorrelation at lag one of an alternating series every second value of which is missing is missing, that
of the known values is -1. -/
theorem C370_autocorr_counterexample : ¬ AutocorrOfKnown := by
  intro h
  have h1 := h [some 1, none, some (-1), none, some 1] 1
  have hk : ([some 1, none, some (-1), none, some 1] : List (Option ℝ)).filter (fun o => o.isSome) =
      [some 1, some (-1), some 1] := by simp
  have hl : pearsonAutocorr [some 1, none, some (-1), none, some 1] 1 = none := by
    unfold pearsonAutocorr
    have : lagPairs [some 1, none, some (-1), none, some 1] 1 = [] := by simp [lagPairs, bothPresent]
    rw [this]
    simp [corrcoef]
  have hr : pearsonAutocorr [some 1, some (-1), some 1] 1 ≠ none := by
    unfold pearsonAutocorr
    have : lagPairs [some 1, some (-1), some 1] 1 = [(-1, 1), (1, -1)] := by simp [lagPairs, bothPresent]
    rw [this]
    simp [corrcoef, mean]
  rw [hk, hl] at h1
  exact hr h1.symm

/-- A known value with missing ones around it. -/
example : pearsonAutocorr (List.replicate 2 none ++ [some 1, some (-1), some 1] ++ List.replicate 3 none) 1 =
    pearsonAutocorr [some 1, some (-1), some 1] 1 := C370_autocorr_partial 2 3 1 _

example : durbinWatsonM [some 1, none, some 2] = none := C370_durbin_watson.1 _ (by simp)

end FinML.Stats
