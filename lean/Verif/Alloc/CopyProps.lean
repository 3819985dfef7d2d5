import Verif.Alloc.HrpInvProps

/-! # Copies of an instrument (C263)

Clustering is meant to keep several versions of the same instrument from being counted several times. -/

namespace FinML.Alloc

set_option linter.unusedSectionVars false

variable {K : Type} [Field K] [LinearOrder K] [IsStrictOrderedRing K]

/-- All instruments of `g` are the same one, with variance `v`. -/
def Copies (cov : ℕ → ℕ → K) (v : K) (g : List ℕ) : Prop := ∀ i ∈ g, ∀ j ∈ g, cov i j = v

/-- C263, full claim: next to `n` copies of one instrument, which the clustering puts together first, an
uncorrelated instrument gets the weight it has next to a single copy. -/
def CopiesCountOnce : Prop := ∀ (cov : ℕ → ℕ → ℚ) (v u : ℚ) (n : ℕ) (rows : List Row) (ws : Labelled ℚ), 0 < v → 0 < u →
  ValidLinkage (n + 1) rows → (∃ k l, l.Perm (List.range n) ∧ Leaves (n + 1) rows k l) →
  Copies cov v (List.range n) → cov n n = u → (∀ i < n, cov i n = 0 ∧ cov n i = 0) →
  allocate cov rows = .ok ws → (n, v / (u + v)) ∈ ws

/-- Instruments 0, 1 and 2 are the same, instrument 3 is uncorrelated with them, all have variance 1. -/
def threeCopies (i j : ℕ) : ℚ := if i = 3 ∧ j = 3 ∨ i ≠ 3 ∧ j ≠ 3 then 1 else 0

/-- C263, counterexample: next to three copies an uncorrelated instrument gets 1/3 instead of 1/2, because the
list is cut in the middle and one copy ends up on its side. -/
theorem C263_copies_counterexample : ¬ CopiesCountOnce := by
  intro h
  have hv : ValidLinkage 4 [⟨0, 1, 2⟩, ⟨2, 4, 3⟩, ⟨3, 5, 4⟩] := by
    refine ⟨by norm_num, rfl, ?_, by decide, ?_⟩
    · intro k r hr
      match k, hr with
      | 0, hr => simp at hr; subst hr; decide
      | 1, hr => simp at hr; subst hr; decide
      | 2, hr => simp at hr; subst hr; decide
      | k + 3, hr => simp at hr
    · intro k r hr
      match k, hr with
      | 0, hr => simp at hr; subst hr; decide
      | 1, hr => simp at hr; subst hr; decide
      | 2, hr => simp at hr; subst hr; decide
      | k + 3, hr => simp at hr
  have h1 : allocate threeCopies [⟨0, 1, 2⟩, ⟨2, 4, 3⟩, ⟨3, 5, 4⟩] =
      .ok [(3, 1 / 3), (2, 1 / 3), (0, 1 / 6), (1, 1 / 6)] := by
    decide +kernel
  have hl : Leaves 4 [⟨0, 1, 2⟩, ⟨2, 4, 3⟩, ⟨3, 5, 4⟩] 5 [2, 0, 1] :=
    .merge 1 ⟨2, 4, 3⟩ [2] [0, 1] rfl (.item 2 (by norm_num))
      (.merge 0 ⟨0, 1, 2⟩ [0] [1] rfl (.item 0 (by norm_num)) (.item 1 (by norm_num)))
  have := h threeCopies 1 1 3 _ _ one_pos one_pos hv ⟨5, [2, 0, 1], by decide, hl⟩
    (by
      intro i hi j hj
      have hi := List.mem_range.1 hi
      have hj := List.mem_range.1 hj
      unfold threeCopies
      rw [if_pos (.inr ⟨by omega, by omega⟩)])
    rfl (by
      intro i hi
      unfold threeCopies
      constructor
      · rw [if_neg (by omega)]
      · rw [if_neg (by omega)]) h1
  revert this
  decide +kernel

theorem groupVar_copies (cov : ℕ → ℕ → K) (v : K) (hv : v ≠ 0) (g : List ℕ) (hne : g ≠ []) (hc : Copies cov v g) :
    groupVar cov g = v := by
  have hlen : (g.length : K) ≠ 0 := by
    have := List.length_pos_of_ne_nil hne
    positivity
  have e1 : (g.map fun i => 1 / cov i i) = g.map fun _ => 1 / v :=
    List.map_congr_left fun i hi => by rw [hc i hi i hi]
  have e2 : (g.map fun j => (g.map fun i => (1 / cov i i) * cov i j * (1 / cov j j)).sum) =
      g.map fun _ => (g.length : K) * (1 / v) := by
    refine List.map_congr_left fun j hj => ?_
    have : (g.map fun i => (1 / cov i i) * cov i j * (1 / cov j j)) = g.map fun _ => 1 / v :=
      List.map_congr_left fun i hi => by
        rw [hc i hi i hi, hc i hi j hj, hc j hj j hj]; field_simp
    rw [this, List.map_const', List.sum_replicate, nsmul_eq_mul]
  unfold groupVar
  rw [e1, e2, List.map_const', List.map_const', List.sum_replicate, List.sum_replicate, nsmul_eq_mul, nsmul_eq_mul]
  field_simp

theorem Bisect.labels {cov : ℕ → ℕ → K} {w : K} {g : List ℕ} {r : List (ℕ × K)} (h : Bisect cov w g r) :
    r.map Prod.fst = g := by
  induction h with
  | nil w => rfl
  | one w i => rfl
  | split w a b ra rb ha hlen hba hbb iha ihb => rw [List.map_append, iha, ihb]

/-- The shares of the two halves. -/
theorem Bisect.shares {cov : ℕ → ℕ → K} {w : K} {a b : List ℕ} {r : List (ℕ × K)} (h : Bisect cov w (a ++ b) r)
    (ha : a ≠ []) (hlen : b.length = a.length ∨ b.length = a.length + 1) (hpos : PosVar cov (a ++ b)) :
    ∃ ra rb, r = ra ++ rb ∧ ra.map Prod.fst = a ∧ rb.map Prod.fst = b ∧
      (ra.map Prod.snd).sum = w * (groupVar cov b / (groupVar cov a + groupVar cov b)) ∧
      (rb.map Prod.snd).sum = w * (groupVar cov a / (groupVar cov a + groupVar cov b)) := by
  have hl := List.length_pos_of_ne_nil ha
  generalize ho : a ++ b = o at h
  have hol : o.length = a.length + b.length := by rw [← ho, List.length_append]
  cases h with
  | nil => simp at hol; omega
  | one _ i => simp at hol; omega
  | split _ a' b' ra rb ha' hlen' hba hbb =>
    have h2 : a'.length + b'.length = a.length + b.length := by rw [← hol, List.length_append]
    obtain ⟨rfl, rfl⟩ := List.append_inj ho (by omega)
    have hb : b ≠ [] := by
      rintro rfl
      simp at hlen
      omega
    exact ⟨ra, rb, rfl, hba.labels, hbb.labels,
      (hba.sum_eq (hpos.infix (List.prefix_append a b).isInfix) ha).1,
      (hbb.sum_eq (hpos.infix (List.suffix_append a b).isInfix) hb).1⟩

/-- C263 (partial).  What holds instead: if the cut in the middle of the order separates the copies from the
rest, whichever side they are on, then together they get what a single copy would get, however many they are.
Missing: orders whose middle cut falls among the copies, or leaves other instruments with them. -/
theorem C263_copies_partial (cov : ℕ → ℕ → K) (v : K) (hv : 0 < v) (a b : List ℕ) (hnd : (a ++ b).Nodup) (ha : a ≠ [])
    (hlen : b.length = a.length ∨ b.length = a.length + 1) (hpos : PosVar cov (a ++ b)) :
    ∃ ra rb, recursiveBisection cov (a ++ b) = .ok (ra ++ rb) ∧ ra.map Prod.fst = a ∧ rb.map Prod.fst = b ∧
      (Copies cov v a → (ra.map Prod.snd).sum = groupVar cov b / (v + groupVar cov b) ∧
        (rb.map Prod.snd).sum = v / (v + groupVar cov b)) ∧
      (Copies cov v b → (rb.map Prod.snd).sum = groupVar cov a / (v + groupVar cov a) ∧
        (ra.map Prod.snd).sum = v / (v + groupVar cov a)) := by
  obtain ⟨ws, h1, -, h3⟩ := C80_bisection cov (a ++ b) hnd hpos
  obtain ⟨ra, rb, rfl, e1, e2, e3, e4⟩ := h3.shares ha hlen hpos
  have hb : b ≠ [] := by
    rintro rfl
    have := List.length_pos_of_ne_nil ha
    simp at hlen
    omega
  refine ⟨ra, rb, h1, e1, e2, fun hc => ?_, fun hc => ?_⟩
  · rw [groupVar_copies cov v hv.ne' a ha hc] at e3 e4
    rw [e3, e4, one_mul, one_mul]
    exact ⟨rfl, rfl⟩
  · rw [groupVar_copies cov v hv.ne' b hb hc] at e3 e4
    rw [e3, e4, one_mul, one_mul, add_comm v]
    exact ⟨rfl, rfl⟩

/-- Next to two copies, the uncorrelated instrument 3 gets 1/2. -/
example : Copies threeCopies 1 [0, 1] ∧ recursiveBisection threeCopies [3, 0, 1] = .ok [(3, 1 / 2), (0, 1 / 4), (1, 1 / 4)] := by
  constructor
  · intro i hi j hj
    simp at hi hj
    rcases hi with rfl | rfl <;> rcases hj with rfl | rfl <;> rfl
  · decide +kernel

end FinML.Alloc
