import Verif.Weights.MissModel
import Verif.Weights.DecayProps
import Mathlib.Data.Rat.Floor

/-! # Property C304: events without label in drop_rare_labels -/

namespace FinML.Weights

set_option linter.unusedSectionVars false

variable {K : Type} [Field K] [LinearOrder K] [IsStrictOrderedRing K]

theorem filterMap_filter_ne {α : Type} [DecidableEq α] (rows : List (Option α)) (x : α) :
    (rows.filter fun a => a ≠ some x).filterMap id = (rows.filterMap id).filter fun a => a ≠ x := by
  induction rows with
  | nil => rfl
  | cons r rows ih =>
    cases r with
    | none => simpa using ih
    | some a =>
      by_cases h : a = x
      · subst h; simpa using ih
      · simp [h]
        simpa using ih

theorem dropRareLoop_subset {α : Type} [DecidableEq α] (argmin : List α → α) (minPct : K) (minClasses : ℤ) (fuel : ℕ)
    (labels out : List α) (h : dropRareLoop argmin minPct minClasses fuel labels = .ok out) : out ⊆ labels := by
  induction fuel generalizing labels with
  | zero => simp [dropRareLoop] at h
  | succ n ih =>
    unfold dropRareLoop at h
    split at h
    · cases h; exact fun _ h => h
    · split at h
      · cases h
      · exact fun a ha => (List.mem_filter.1 (ih _ h ha)).1

theorem dropRareLoopM_eq {α : Type} [DecidableEq α] (argmin : List α → α) (minPct : K) (minClasses : ℤ) (fuel : ℕ)
    (rows : List (Option α)) :
    dropRareLoopM argmin minPct minClasses fuel rows =
      (dropRareLoop argmin minPct minClasses fuel (rows.filterMap id)).map
        fun out => rows.filter fun r => r.elim true fun a => a ∈ out := by
  induction fuel generalizing rows with
  | zero => rfl
  | succ n ih =>
    unfold dropRareLoopM dropRareLoop
    simp only
    split
    · simp only [Except.map]
      congr 1
      symm
      rw [List.filter_eq_self]
      intro r hr
      cases r with
      | none => rfl
      | some a => simpa using hr
    · split
      · rfl
      · rw [ih, filterMap_filter_ne]
        cases hd : dropRareLoop argmin minPct minClasses n
            ((rows.filterMap id).filter fun a => a ≠ argmin (rows.filterMap id)) with
        | error e => rfl
        | ok out =>
          simp only [Except.map]
          congr 1
          rw [List.filter_filter]
          apply List.filter_congr
          intro r _
          cases r with
          | none => simp
          | some a =>
            have hs := dropRareLoop_subset _ _ _ _ _ _ hd
            by_cases ha : a ∈ out
            · have := (List.mem_filter.1 (hs ha)).2
              simp only [decide_eq_true_eq] at this
              have hne : (some a : Option α) ≠ some (argmin (rows.filterMap id)) := fun hh => this (Option.some.inj hh)
              rw [decide_eq_true hne, Bool.and_true]
            · have : (some a : Option α).elim true (fun a => decide (a ∈ out)) = false := by simp [ha]
              rw [this, Bool.false_and]

/-- C304: the labelled events are treated as if the others were not there, and every event without label is kept: an event
remains exactly if it has no label or its label is among those that remain. -/
theorem C304_unlabelled {α : Type} [DecidableEq α] (argmin : List α → α) (rows : List (Option α)) (minPct : K)
    (minClasses : ℤ) :
    dropRareLabelsM argmin rows minPct minClasses =
      (dropRareLabels argmin (rows.filterMap id) minPct minClasses).map
        fun out => rows.filter fun r => r.elim true fun a => a ∈ out :=
  dropRareLoopM_eq ..

/-- C304, the full claim: if more than `minClasses` labels remain, each of them has more than the share `minPct` of the
events returned. -/
def MinShareOfEvents : Prop :=
  ∀ (argmin : List ℕ → ℕ) (rows out : List (Option ℕ)) (minPct : ℚ) (minClasses : ℤ),
    IsArgmin argmin → 0 ≤ minClasses → dropRareLabelsM argmin rows minPct minClasses = .ok out →
      minClasses < (out.filterMap id).dedup.length →
        ∀ a, some a ∈ out → minPct < (out.count (some a) : ℚ) / (out.length : ℚ)

theorem count_known {α : Type} [DecidableEq α] (rows : List (Option α)) (a : α) :
    (rows.filterMap id).count a = rows.count (some a) := by
  induction rows with
  | nil => rfl
  | cons r rows ih =>
    cases r with
    | none => simpa using ih
    | some b =>
      by_cases h : b = a
      · subst h; simpa using ih
      · have : (some b : Option α) ≠ some a := fun hh => h (Option.some.inj hh)
        simpa [h] using ih

/-- C304, part: each remaining label has more than that share of the events returned that have a label.  Missing from the
full claim: with the events without label counted the share can be as small as one likes. -/
theorem C304_share_partial {α : Type} [DecidableEq α] (argmin : List α → α) (ha : IsArgmin argmin)
    (rows : List (Option α)) (minPct : K) (minClasses : ℤ) (hm : 0 ≤ minClasses) :
    ∃ out, dropRareLabelsM argmin rows minPct minClasses = .ok out ∧ out.count none = rows.count none ∧
      (minClasses < (out.filterMap id).dedup.length →
        ∀ a, some a ∈ out → minPct < (out.count (some a) : K) / ((out.filterMap id).length : K)) := by
  obtain ⟨o, ho, ⟨keep, hk, -⟩, h3, -⟩ := C38_drop_rare argmin ha (rows.filterMap id) minPct minClasses hm
  refine ⟨_, by rw [C304_unlabelled, ho]; rfl, ?_, ?_⟩
  · rw [List.count_filter rfl]
  · have hf : (rows.filter fun r => r.elim true fun a => decide (a ∈ o)).filterMap id = o := by
      have hg : ∀ l : List (Option α), (l.filter fun r => r.elim true fun a => decide (a ∈ o)).filterMap id =
          (l.filterMap id).filter fun a => decide (a ∈ o) := by
        intro l
        induction l with
        | nil => rfl
        | cons r l ih =>
          cases r with
          | none => rw [List.filter_cons_of_pos rfl]; exact ih
          | some b => by_cases h : b ∈ o <;> simpa [h] using ih
      rw [hg, hk]
      apply List.filter_congr
      intro a hmem
      by_cases h : keep a = true
      · simp [h, List.mem_filter]
        simpa using hmem
      · simp [h, List.mem_filter]
    intro hlt a hmem
    rw [← count_known, hf] at *
    rcases h3 with h3 | h3
    · apply h3
      have := List.mem_filter.1 hmem
      simpa using this.2
    · omega

/-- C304, the full claim does not hold: of two labels once each among 18 events without label each has half of the labels and
a twentieth of the events. -/
theorem C304_share_counterexample : ¬ MinShareOfEvents := by
  intro h
  have h1 := h firstArgmin ([some 0, some 1] ++ List.replicate 18 none) ([some 0, some 1] ++ List.replicate 18 none)
    (1 / 10) 1 firstArgmin_isArgmin (by norm_num) (by decide +kernel) (by decide +kernel) 0 (by simp)
  revert h1
  decide +kernel

/-- One rare label of three and an event without label. -/
example : dropRareLabelsM firstArgmin [some 0, none, some 1, some 0, some 1, some 2, some 0] (1 / 5 : ℚ) 2 =
    .ok [some 0, none, some 1, some 0, some 1, some 0] := by
  rw [C304_unlabelled]
  decide +kernel

end FinML.Weights
