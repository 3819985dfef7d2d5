import Verif.CV.CombiProps
import Mathlib.Data.List.GetD
import Mathlib.Algebra.BigOperators.Group.List.Basic

/-! # C47: iterating over the splits several times -/

set_option linter.unusedSectionVars false

namespace FinML.CV

variable {K : Type} [Field K] [LinearOrder K] [IsStrictOrderedRing K] [FloorRing K]

/-- The calls of `m` iterations over all splits, one after the other. -/
def Cpcv.passes (c : Cpcv K) (m : ℕ) : List Op := (List.range m).flatMap c.pass

theorem run_passes (c : Cpcv K) (hok : ∀ grps ∈ c.choices, ∃ r, c.splitOne grps = .ok r) (m : ℕ) :
    c.run (c.passes m) ⟨List.replicate c.nGroups [], []⟩ =
      ⟨(List.range c.nGroups).map fun g => (List.replicate m (c.splitsOf g)).flatten, List.replicate m []⟩ := by
  induction m with
  | zero =>
    unfold Cpcv.passes Cpcv.run
    simp only [List.range_zero, List.flatMap_nil, List.foldl_nil, List.replicate_zero, List.flatten_nil,
      List.map_const', List.length_range]
  | succ m ih =>
    have hp : c.passes (m + 1) = c.passes m ++ c.pass m := by
      unfold Cpcv.passes
      rw [List.range_succ, List.flatMap_append]
      simp
    rw [hp]
    have happ : ∀ s, c.run (c.passes m ++ c.pass m) s = c.run (c.pass m) (c.run (c.passes m) s) := by
      intro s
      unfold Cpcv.run
      rw [List.foldl_append]
    rw [happ, ih]
    have h := run_pass c hok ⟨(List.range c.nGroups).map fun g => (List.replicate m (c.splitsOf g)).flatten,
      List.replicate m []⟩
    simp only [List.length_replicate] at h
    rw [h]
    congr 1
    · apply List.ext_getElem?
      intro g
      rw [record_fold _ (schedule_nodup c), List.getElem?_map, List.getElem?_map]
      by_cases hg : g < c.nGroups
      · rw [List.getElem?_range hg]
        simp only [Option.map_some, List.replicate_succ', List.flatten_append, List.flatten_singleton]
        rfl
      · rw [List.getElem?_eq_none (by simp; omega)]
        rfl
    · rw [List.replicate_succ']

/-- The paths when all groups have been tested equally often. -/
theorem paths_eq (c : Cpcv K) (hN : 1 ≤ c.nGroups) (L : ℕ → List ℕ) (n : ℕ)
    (hL : ∀ g < c.nGroups, (L g).length = n) :
    c.paths ((List.range c.nGroups).map L) =
      .ok ((List.range n).map fun i => (List.range c.nGroups).map fun g => (c.grp g, (L g).getD i 0)) := by
  have hmin : npMin (((List.range c.nGroups).map L).map List.length) = .ok n := by
    rw [npMin_eq_ok_iff]
    constructor
    · simp only [Set.mem_ofPred_eq, List.map_map, List.mem_map, List.mem_range, Function.comp]
      exact ⟨0, by omega, hL 0 (by omega)⟩
    · intro y hy
      simp only [Set.mem_ofPred_eq, List.map_map, List.mem_map, List.mem_range, Function.comp] at hy
      obtain ⟨g, hg, rfl⟩ := hy
      rw [hL g hg]
  unfold Cpcv.paths
  rw [hmin, py_bind_ok]
  apply mapM_ok_of_forall
  intro i hi
  rw [List.mem_range] at hi
  unfold Cpcv.path
  have h1 : (((List.range c.nGroups).map L).mapM fun l => pyGet l i) =
      .ok ((List.range c.nGroups).map fun g => (L g).getD i 0) := by
    rw [mapM_eq_ok_iff, List.forall₂_map_left_iff, List.forall₂_map_right_iff, List.forall₂_same]
    intro g hg
    rw [pyGet_eq_ok_iff, List.getD_eq_getElem?_getD,
      List.getElem?_eq_getElem (by rw [hL g (List.mem_range.1 hg)]; exact hi)]
    rfl
  rw [h1, py_bind_ok, List.zip_map']
  rfl

/-- C47. What is missing: the paths should be those of one iteration.  After `m` iterations over all splits they
are `m` copies of them, one after the other. -/
theorem C47_passes_partial (c : Cpcv K) (s0 : State) (hinit : c.init = .ok s0) (hk : 1 ≤ c.nTest)
    (hok : ∀ grps ∈ c.choices, ∃ r, c.splitOne grps = .ok r) (m : ℕ) :
    ∃ paths, c.paths (c.run (c.pass 0) s0).lists = .ok paths ∧
      c.paths (c.run (c.passes m) s0).lists = .ok (List.replicate m paths).flatten := by
  have hN : 1 ≤ c.nGroups := by
    unfold Cpcv.init at hinit
    by_contra h
    rw [if_pos (by omega)] at hinit
    cases hinit
  have hs0 : s0 = ⟨List.replicate c.nGroups [], []⟩ := by
    unfold Cpcv.init at hinit
    rw [if_neg (by omega)] at hinit
    cases hinit
    rfl
  subst hs0
  have hone : c.pass 0 = c.passes 1 := by
    unfold Cpcv.passes
    simp
  have hlen : ∀ g < c.nGroups, (c.splitsOf g).length = (c.nGroups - 1).choose (c.nTest - 1) :=
    fun g hg => splitsOf_length c hk g hg
  generalize (c.nGroups - 1).choose (c.nTest - 1) = n at hlen
  refine ⟨(List.range n).map fun i => (List.range c.nGroups).map fun g => (c.grp g, (c.splitsOf g).getD i 0), ?_, ?_⟩
  · rw [hone, run_passes c hok]
    simp only [List.replicate_one, List.flatten_singleton]
    exact paths_eq c hN c.splitsOf n hlen
  · rw [run_passes c hok]
    have hlm : ∀ m, ∀ g < c.nGroups, ((List.replicate m (c.splitsOf g)).flatten).length = m * n := by
      intro m g hg
      rw [List.length_flatten, List.map_replicate, List.sum_replicate, hlen g hg, nsmul_eq_mul, Nat.cast_id]
    rw [paths_eq c hN _ (m * n) (hlm m)]
    congr 1
    induction m with
    | zero => simp
    | succ m ih =>
      rw [List.replicate_succ, List.flatten_cons, ← ih, Nat.succ_mul, Nat.add_comm (m * n) n, List.range_add, List.map_append,
        List.map_map]
      congr 1
      · apply List.map_congr_left
        intro i hi
        apply List.map_congr_left
        intro g hg
        rw [List.replicate_succ, List.flatten_cons, List.getD_append]
        rw [hlen g (List.mem_range.1 hg)]
        exact List.mem_range.1 hi
      · apply List.map_congr_left
        intro i hi
        simp only [Function.comp]
        apply List.map_congr_left
        intro g hg
        rw [List.replicate_succ, List.flatten_cons, List.getD_append_right _ _ _ _
          (by rw [hlen g (List.mem_range.1 hg)]; omega), hlen g (List.mem_range.1 hg), Nat.add_sub_cancel_left]

example : (c : Cpcv ℚ) → c = exampleCpcv →
    c.paths (c.run (c.passes 2) ⟨List.replicate 3 [], []⟩).lists =
      .ok [[([0], 0), ([1, 2], 0), ([3, 4], 1)], [([0], 1), ([1, 2], 2), ([3, 4], 2)],
        [([0], 0), ([1, 2], 0), ([3, 4], 1)], [([0], 1), ([1, 2], 2), ([3, 4], 2)]] := by
  rintro c rfl; decide +kernel

end FinML.CV
