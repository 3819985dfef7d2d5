import Verif.Weights.DecayProps

/-!
# C239: dropping rare labels again, and with other bounds
-/

namespace FinML.Weights

variable {K : Type} [Field K] [LinearOrder K]

variable {α : Type} [DecidableEq α]

theorem loop_stops (argmin : List α → α) (minPct : K) (minClasses : ℤ) :
    ∀ (fuel : ℕ) (l out : List α), dropRareLoop argmin minPct minClasses fuel l = .ok out →
      (out ≠ [] ∧ minPct < share out (argmin out)) ∨ (out.dedup.length : ℤ) ≤ minClasses := by
  intro fuel
  induction fuel with
  | zero => intro l out h; cases h
  | succ fuel ih =>
    intro l out h
    unfold dropRareLoop at h
    split_ifs at h with h1 h2
    · cases h; exact h1
    · exact ih _ _ h

theorem loop_nested (argmin : List α → α) (p p' : K) (m m' : ℤ) (hp : p ≤ p') (hm : m' ≤ m) :
    ∀ (fuel fuel' : ℕ) (l out out' : List α), dropRareLoop argmin p m fuel l = .ok out →
      dropRareLoop argmin p' m' fuel' l = .ok out' →
      dropRareLoop argmin p' m' fuel' out = .ok out' ∨ ∃ f < fuel', dropRareLoop argmin p' m' f out = .ok out' := by
  intro fuel
  induction fuel with
  | zero => intro fuel' l out out' h; cases h
  | succ fuel ih =>
    intro fuel' l out out' h h'
    unfold dropRareLoop at h
    split_ifs at h with h1 h2
    · cases h; exact Or.inl h'
    · cases fuel' with
      | zero => cases h'
      | succ f =>
        have hnot : ¬ ((l ≠ [] ∧ p' < share l (argmin l)) ∨ (l.dedup.length : ℤ) ≤ m') := by
          rintro (⟨h3, h4⟩ | h3)
          · exact h1 (Or.inl ⟨h3, lt_of_le_of_lt hp h4⟩)
          · exact h1 (Or.inr (le_trans h3 hm))
        unfold dropRareLoop at h'
        rw [if_neg hnot, if_neg h2] at h'
        right
        rcases ih f _ out out' h h' with h5 | ⟨g, hg, h5⟩
        · exact ⟨f, by omega, h5⟩
        · exact ⟨g, by omega, h5⟩

theorem loop_filter (argmin : List α → α) (p : K) (m : ℤ) :
    ∀ (fuel : ℕ) (l out : List α), dropRareLoop argmin p m fuel l = .ok out →
      ∃ keep : α → Bool, out = l.filter keep := by
  intro fuel
  induction fuel with
  | zero => intro l out h; cases h
  | succ fuel ih =>
    intro l out h
    unfold dropRareLoop at h
    split_ifs at h with h1 h2
    · cases h; exact ⟨fun _ => true, by simp⟩
    · obtain ⟨keep, hk⟩ := ih _ _ h
      rw [List.filter_filter] at hk
      exact ⟨_, hk⟩

/-- C239.  Dropping rare labels from the result changes nothing. -/
theorem C239_idempotent (argmin : List α → α) (labels out : List α) (minPct : K) (minClasses : ℤ)
    (h : dropRareLabels argmin labels minPct minClasses = .ok out) :
    dropRareLabels argmin out minPct minClasses = .ok out := by
  unfold dropRareLabels at h ⊢
  unfold dropRareLoop
  rw [if_pos (loop_stops argmin minPct minClasses _ _ _ h)]

/-- C239.  With a higher minimal share and a lower minimal number of classes, what is kept is part of what is
kept otherwise, in the same order and by whole classes. -/
theorem C239_nested (argmin : List α → α) (labels out out' : List α) (p p' : K) (m m' : ℤ)
    (hp : p ≤ p') (hm : m' ≤ m) (h : dropRareLabels argmin labels p m = .ok out)
    (h' : dropRareLabels argmin labels p' m' = .ok out') :
    ∃ keep : α → Bool, out' = out.filter keep := by
  unfold dropRareLabels at h h'
  rcases loop_nested argmin p p' m m' hp hm _ _ _ _ _ h h' with h1 | ⟨f, -, h1⟩
  · exact loop_filter argmin p' m' _ _ _ h1
  · exact loop_filter argmin p' m' _ _ _ h1

/-- C239.  Dropping in two steps, first with the weaker bounds, is dropping at once. -/
theorem C239_two_steps [IsStrictOrderedRing K] (argmin : List α → α) (ha : IsArgmin argmin) (labels out out' : List α) (p p' : K)
    (m m' : ℤ) (hp : p ≤ p') (hm : m' ≤ m) (hm0 : 0 ≤ m') (h : dropRareLabels argmin labels p m = .ok out)
    (h' : dropRareLabels argmin labels p' m' = .ok out') : dropRareLabels argmin out p' m' = .ok out' := by
  obtain ⟨o, ho, -⟩ := C38_drop_rare argmin ha out p' m' hm0
  have mono : ∀ (f g : ℕ) (l x y : List α), dropRareLoop argmin p' m' f l = .ok x →
      dropRareLoop argmin p' m' g l = .ok y → x = y := by
    intro f
    induction f with
    | zero => intro g l x y h; cases h
    | succ f ih =>
      intro g l x y hx hy
      cases g with
      | zero => cases hy
      | succ g =>
        unfold dropRareLoop at hx hy
        split_ifs at hx hy with h1 h2
        · cases hx; cases hy; rfl
        · exact ih g _ _ _ hx hy
  rw [ho]
  unfold dropRareLabels at h h' ho
  rcases loop_nested argmin p p' m m' hp hm _ _ _ _ _ h h' with h1 | ⟨f, -, h1⟩
  · rw [mono _ _ _ _ _ ho h1]
  · rw [mono _ _ _ _ _ ho h1]

/-- The label that comes first among the rarest. -/
def rarest (l : List ℤ) : ℤ := (l.argmin fun a => l.count a).getD 0

/-- A case: three labels; the share 1/4 drops one, the share 2/5 two. -/
example : dropRareLabels rarest [1, 1, 1, 0, 0, -1] (1 / 4 : ℚ) 1 = .ok [1, 1, 1, 0, 0] ∧
    dropRareLabels rarest [1, 1, 1, 0, 0, -1] (2 / 5 : ℚ) 1 = .ok [1, 1, 1] := by
  constructor <;> decide +kernel

end FinML.Weights
