import Verif.Bars.LoopSpec
import Verif.Bars.EwmaLemmas
import Verif.Bars.Lemmas

/-! # The abstract closing loop -/

set_option linter.unusedSectionVars false

namespace FinML.Bars

variable {K : Type} [Field K] [LinearOrder K] [IsStrictOrderedRing K] {Θ : Type}

/-- The part of the loop state that decides where bars close. -/
structure Skel (Θ : Type) where
  ends : List ℕ
  padding : Bool
  thr : Θ

open Classical in
/-- Abstract loop body. -/
noncomputable def genStep (R : BarRule Θ K) (s : Skel Θ) (i : ℕ) : Py (Skel Θ) :=
  if R.trig s.thr (startAfter s.ends) i ∨ s.padding = true then
    if R.size (startAfter s.ends) i < R.minSize then .ok { s with padding := true }
    else do
      let thr ← R.thrOf (s.ends ++ [i])
      return ⟨s.ends ++ [i], false, thr⟩
  else .ok s

theorem genStep_pad (R : BarRule Θ K) (s : Skel Θ) (i : ℕ)
    (h : R.trig s.thr (startAfter s.ends) i ∨ s.padding = true)
    (hs : R.size (startAfter s.ends) i < R.minSize) :
    genStep R s i = .ok { s with padding := true } := by
  unfold genStep; rw [if_pos h, if_pos hs]

theorem genStep_close (R : BarRule Θ K) (s : Skel Θ) (i : ℕ)
    (h : R.trig s.thr (startAfter s.ends) i ∨ s.padding = true)
    (hs : ¬ R.size (startAfter s.ends) i < R.minSize) :
    genStep R s i = (R.thrOf (s.ends ++ [i]) >>= fun thr => .ok ⟨s.ends ++ [i], false, thr⟩) := by
  unfold genStep; rw [if_pos h, if_neg hs]; rfl

theorem genStep_skip (R : BarRule Θ K) (s : Skel Θ) (i : ℕ)
    (h : ¬ (R.trig s.thr (startAfter s.ends) i ∨ s.padding = true)) :
    genStep R s i = .ok s := by
  unfold genStep; rw [if_neg h]

@[simp] theorem startAfter_nil : startAfter [] = 0 := rfl
@[simp] theorem startAfter_snoc (es : List ℕ) (e : ℕ) : startAfter (es ++ [e]) = e + 1 := by
  simp [startAfter]

/-- Invariant after tick `t` has been processed. -/
structure GenInv (R : BarRule Θ K) (t : ℕ) (s : Skel Θ) : Prop where
  valid : ValidClosed R s.ends
  thr : R.thrOf s.ends = .ok s.thr
  start_le : startAfter s.ends ≤ t + 1
  inc : s.ends.Pairwise (· < ·)
  bound : ∀ e ∈ s.ends, 1 ≤ e ∧ e ≤ t
  pad : s.padding = true ↔ ∃ u, max (startAfter s.ends) 1 ≤ u ∧ u ≤ t ∧
    R.trig s.thr (startAfter s.ends) u
  none : NoClose R s.thr (startAfter s.ends) (t + 1)

theorem validClosed_snoc (R : BarRule Θ K) (es : List ℕ) (e : ℕ) (thr : Θ)
    (h : ValidClosed R es) (ht : R.thrOf es = .ok thr) (hf : FirstClose R thr (startAfter es) e) :
    ValidClosed R (es ++ [e]) := by
  intro j hj
  rw [List.length_append, List.length_singleton] at hj
  by_cases hlt : j < es.length
  · rw [List.take_append_of_le_length (by omega), List.getElem_append_left hlt]
    exact h j hlt
  · have : j = es.length := by omega
    subst this
    refine ⟨thr, by simpa using ht, by simpa using hf⟩

theorem genStep_inv (R : BarRule Θ K) (t : ℕ) (s : Skel Θ) (h : GenInv R t s) :
    (∀ s', genStep R s (t + 1) = .ok s' → GenInv R (t + 1) s') ∧
    (∀ err, genStep R s (t + 1) = .error err →
      FirstClose R s.thr (startAfter s.ends) (t + 1) ∧
      R.thrOf (s.ends ++ [t + 1]) = .error err) := by
  have hst : max (startAfter s.ends) 1 ≤ t + 1 := by have := h.start_le; omega
  have hfire : (R.trig s.thr (startAfter s.ends) (t + 1) ∨ s.padding = true) ↔
      ∃ u, max (startAfter s.ends) 1 ≤ u ∧ u ≤ t + 1 ∧ R.trig s.thr (startAfter s.ends) u := by
    rw [h.pad]
    constructor
    · rintro (hu | ⟨u, h1, h2, h3⟩)
      · exact ⟨t + 1, hst, le_refl _, hu⟩
      · exact ⟨u, h1, by omega, h3⟩
    · rintro ⟨u, h1, h2, h3⟩
      by_cases hu : u = t + 1
      · left; rw [← hu]; exact h3
      · right; exact ⟨u, h1, by omega, h3⟩
  unfold genStep
  by_cases hc : R.trig s.thr (startAfter s.ends) (t + 1) ∨ s.padding = true
  · rw [if_pos hc]
    by_cases hs : R.size (startAfter s.ends) (t + 1) < R.minSize
    · rw [if_pos hs]
      refine ⟨?_, by intro err he; cases he⟩
      intro s' he
      cases he
      refine ⟨h.valid, h.thr, by have := h.start_le; simp only; omega, h.inc, ?_, ?_, ?_⟩
      · intro e he; have := h.bound e he; omega
      · simp only [true_iff]
        exact hfire.1 hc
      · intro u hu1 hu2
        by_cases hu : u = t + 1
        · intro hcl
          rw [hu] at hcl
          exact absurd hcl.2 (not_le.2 hs)
        · exact h.none u hu1 (by omega)
    · rw [if_neg hs]
      have hfc : FirstClose R s.thr (startAfter s.ends) (t + 1) :=
        ⟨hst, ⟨hfire.1 hc, not_lt.1 hs⟩, fun u hu1 hu2 => h.none u hu1 hu2⟩
      cases hthr : R.thrOf (s.ends ++ [t + 1]) with
      | error e =>
        refine ⟨fun s' he => (by cases he), ?_⟩
        intro err he
        cases he
        exact ⟨hfc, rfl⟩
      | ok thr =>
        refine ⟨?_, by intro err he; cases he⟩
        intro s' he
        cases he
        refine ⟨validClosed_snoc R _ _ _ h.valid h.thr hfc, hthr, by simp, ?_, ?_, ?_, ?_⟩
        · rw [List.pairwise_append]
          refine ⟨h.inc, by simp, ?_⟩
          intro a ha b hb
          have := h.bound a ha
          simp at hb
          omega
        · intro e he
          rw [List.mem_append, List.mem_singleton] at he
          rcases he with he | rfl
          · have := h.bound e he; omega
          · omega
        · simp only [startAfter_snoc]
          constructor
          · intro hh; cases hh
          · rintro ⟨u, h1, h2, _⟩; omega
        · intro u hu1 hu2
          simp only [startAfter_snoc] at hu1
          omega
  · rw [if_neg hc]
    refine ⟨?_, by intro err he; cases he⟩
    intro s' he
    cases he
    refine ⟨h.valid, h.thr, by have := h.start_le; omega, h.inc, ?_, ?_, ?_⟩
    · intro e he; have := h.bound e he; omega
    · rw [← hfire]
      constructor
      · intro hp; exact Or.inr hp
      · rintro (hu | hp)
        · exact absurd (Or.inl hu) hc
        · exact hp
    · intro u hu1 hu2
      by_cases hu : u = t + 1
      · intro hcl
        rw [hu] at hcl
        exact absurd (hfire.2 hcl.1) hc
      · exact h.none u hu1 (by omega)

/-- Initial state of the abstract loop. -/
theorem genInv_init (R : BarRule Θ K) (thr : Θ) (h : R.thrOf [] = .ok thr) :
    GenInv R 0 ⟨[], false, thr⟩ := by
  refine ⟨?_, h, by simp, by simp, by simp, ?_, ?_⟩
  · intro j hj; simp at hj
  · constructor
    · intro hh; cases hh
    · rintro ⟨u, h1, h2, _⟩; omega
  · intro u h1 h2; omega

/-- Running the abstract loop over ticks `t+1, ..., t+k`. -/
theorem genLoop_inv (R : BarRule Θ K) (k t : ℕ) (s : Skel Θ) (h : GenInv R t s) :
    (∀ s', (List.range' (t + 1) k).foldlM (genStep R) s = .ok s' → GenInv R (t + k) s' ∧
        s.ends <+: s'.ends ∧ (∀ e ∈ s'.ends, e ≤ t → e ∈ s.ends)) ∧
    (∀ err, (List.range' (t + 1) k).foldlM (genStep R) s = .error err →
      ∃ t' s', t ≤ t' ∧ t' < t + k ∧ GenInv R t' s' ∧
        FirstClose R s'.thr (startAfter s'.ends) (t' + 1) ∧
        R.thrOf (s'.ends ++ [t' + 1]) = .error err) := by
  induction k generalizing t s with
  | zero =>
    constructor
    · intro s' he
      cases he
      exact ⟨h, List.prefix_refl _, fun e he _ => he⟩
    · intro err he; cases he
  | succ k ih =>
    rw [List.range'_succ, List.foldlM_cons]
    obtain ⟨i1, i2⟩ := genStep_inv R t s h
    cases hstep : genStep R s (t + 1) with
    | error e =>
      rw [py_bind_error]
      refine ⟨fun s' he => (by cases he), ?_⟩
      intro err he
      cases he
      exact ⟨t, s, le_refl _, by omega, h, i2 e hstep⟩
    | ok s1 =>
      rw [py_bind_ok]
      obtain ⟨j1, j2⟩ := ih (t + 1) s1 (i1 s1 hstep)
      have hpre : s.ends <+: s1.ends ∧ (∀ e ∈ s1.ends, e ≤ t → e ∈ s.ends) := by
        unfold genStep at hstep
        split at hstep
        · split at hstep
          · cases hstep; exact ⟨List.prefix_refl _, fun e he _ => he⟩
          · rw [py_bind_eq_ok] at hstep
            obtain ⟨thr, _, he⟩ := hstep
            cases he
            refine ⟨List.prefix_append _ _, ?_⟩
            intro e he hle
            rw [List.mem_append, List.mem_singleton] at he
            rcases he with he | rfl
            · exact he
            · omega
        · cases hstep; exact ⟨List.prefix_refl _, fun e he _ => he⟩
      constructor
      · intro s' he
        obtain ⟨a1, a2, a3⟩ := j1 s' he
        refine ⟨by rw [show t + (k + 1) = t + 1 + k by omega]; exact a1,
          hpre.1.trans a2, ?_⟩
        intro e he hle
        exact hpre.2 e (a3 e he (by omega)) hle
      · intro err he
        obtain ⟨t', s', b1, b2, b3⟩ := j2 err he
        exact ⟨t', s', by omega, by omega, b3⟩

/-! ### Bar lengths -/

theorem barLens_snoc (s : ℕ) (es : List ℕ) (e : ℕ) :
    barLens s (es ++ [e]) = barLens s es ++
      [e + 1 - (match es.getLast? with | none => s | some l => l + 1)] := by
  induction es generalizing s with
  | nil => simp [barLens]
  | cons a es ih =>
    simp only [List.cons_append, barLens, ih]
    cases es with
    | nil => simp
    | cons b es => simp [List.getLast?_cons]

theorem barLens_snoc_zero (es : List ℕ) (e : ℕ) :
    barLens 0 (es ++ [e]) = barLens 0 es ++ [e + 1 - startAfter es] := by
  rw [barLens_snoc]
  cases h : es.getLast? <;> simp [startAfter, h]

@[simp] theorem barLens_length (s : ℕ) (es : List ℕ) : (barLens s es).length = es.length := by
  induction es generalizing s with
  | nil => rfl
  | cons a es ih => simp [barLens, ih]

theorem effTSpan_eq (TSpan : Option ℕ) (m : ℕ) : effTSpan TSpan m = lenSpan TSpan m := by
  cases TSpan with
  | none => rfl
  | some k => cases k <;> simp [effTSpan, lenSpan]

theorem lenSpan_pos (TSpan : Option ℕ) (m : ℕ) (h : 1 ≤ m) : 1 ≤ lenSpan TSpan m := by
  cases TSpan with
  | none => exact h
  | some k =>
    unfold lenSpan
    by_cases hk : k = 0
    · simp [hk, h]
    · simp [hk]; omega

/-! ### Sums over tick ranges -/

theorem sumOver_succ (f : ℕ → K) (s t : ℕ) (h : s ≤ t + 1) :
    sumOver f s (t + 1) = sumOver f s t + f (t + 1) := by
  unfold sumOver
  rw [Finset.sum_Icc_succ_top h]

theorem sumOver_empty (f : ℕ → K) (t : ℕ) : sumOver f (t + 1) t = 0 := by
  simp [sumOver]

/-! ### Refinement of a concrete loop to the abstract one -/

/-- If one iteration of a concrete loop follows the abstract loop, so do all iterations. -/
theorem loop_refine {S : Type} (R : BarRule Θ K) (step : S → ℕ → Py S)
    (Rel : ℕ → S → Skel Θ → Prop) (n : ℕ)
    (hstep : ∀ t s g, t + 1 < n → Rel t s g → GenInv R t g →
      (∃ s' g', step s (t + 1) = .ok s' ∧ genStep R g (t + 1) = .ok g' ∧ Rel (t + 1) s' g') ∨
      (∃ err, step s (t + 1) = .error err ∧ genStep R g (t + 1) = .error err))
    (k t : ℕ) (hk : t + k < n) (s : S) (g : Skel Θ) (hrel : Rel t s g) (hinv : GenInv R t g) :
    (∃ s' g', (List.range' (t + 1) k).foldlM step s = .ok s' ∧
        (List.range' (t + 1) k).foldlM (genStep R) g = .ok g' ∧ Rel (t + k) s' g') ∨
    (∃ err, (List.range' (t + 1) k).foldlM step s = .error err ∧
        (List.range' (t + 1) k).foldlM (genStep R) g = .error err) := by
  induction k generalizing t s g with
  | zero => exact Or.inl ⟨s, g, rfl, rfl, hrel⟩
  | succ k ih =>
    rw [List.range'_succ, List.foldlM_cons, List.foldlM_cons]
    rcases hstep t s g (by omega) hrel hinv with ⟨s', g', h1, h2, h3⟩ | ⟨err, h1, h2⟩
    · rw [h1, h2, py_bind_ok, py_bind_ok]
      have := ih (t + 1) (by omega) s' g' h3 ((genStep_inv R t g hinv).1 g' h2)
      rw [show t + (k + 1) = t + 1 + k by omega]
      exact this
    · right
      exact ⟨err, by rw [h1]; rfl, by rw [h2]; rfl⟩

/-- What a finished abstract run means. -/
structure GenDone (R : BarRule Θ K) (n : ℕ) (closed : List ℕ) : Prop where
  valid : ValidClosed R closed
  rest : ∃ thr, R.thrOf closed = .ok thr ∧ NoClose R thr (startAfter closed) n
  inc : closed.Pairwise (· < ·)
  bound : ∀ e ∈ closed, 1 ≤ e ∧ e < n

theorem GenInv.done {R : BarRule Θ K} {t : ℕ} {g : Skel Θ} (h : GenInv R t g) :
    GenDone R (t + 1) g.ends :=
  ⟨h.valid, ⟨_, h.thr, h.none⟩, h.inc, fun e he => ⟨(h.bound e he).1, by
    have := (h.bound e he).2; omega⟩⟩

/-! ### Ends with the forced last bar -/

/-- Bar ends including the forced last one. -/
def withLast (n : ℕ) (closed : List ℕ) : List ℕ :=
  if startAfter closed < n then closed ++ [n - 1] else closed

theorem startAfter_le_of {n : ℕ} {closed : List ℕ} (hb : ∀ e ∈ closed, e < n) :
    startAfter closed ≤ n := by
  unfold startAfter
  cases h : closed.getLast? with
  | none => simp
  | some e => exact hb e (List.mem_of_getLast? h)

theorem mem_lt_startAfter {closed : List ℕ} (hi : closed.Pairwise (· < ·)) :
    ∀ e ∈ closed, e < startAfter closed := by
  intro e he
  rcases List.eq_nil_or_concat closed with rfl | ⟨l, a, rfl⟩
  · simp at he
  · rw [List.concat_eq_append] at *
    rw [startAfter_snoc]
    rw [List.mem_append, List.mem_singleton] at he
    rcases he with he | rfl
    · rw [List.pairwise_append] at hi
      have := hi.2.2 e he a (by simp)
      omega
    · omega

theorem withLast_inc {n : ℕ} {closed : List ℕ} (hi : closed.Pairwise (· < ·)) :
    (withLast n closed).Pairwise (· < ·) := by
  unfold withLast
  split
  · next h =>
    rw [List.pairwise_append]
    refine ⟨hi, by simp, ?_⟩
    intro a ha b hb
    rw [List.mem_singleton] at hb
    have := mem_lt_startAfter hi a ha
    omega
  · exact hi

theorem withLast_getLast {n : ℕ} (hn : 0 < n) {closed : List ℕ} (hb : ∀ e ∈ closed, e < n) :
    (withLast n closed).getLast? = some (n - 1) := by
  unfold withLast
  split
  · simp
  · next h =>
    have hle := startAfter_le_of hb
    have heq : startAfter closed = n := by omega
    unfold startAfter at heq
    cases hg : closed.getLast? with
    | none => rw [hg] at heq; simp at heq; omega
    | some e => rw [hg] at heq; simp at heq; congr 1; omega

theorem barLens_sum (s : ℕ) (es : List ℕ) (hi : es.Pairwise (· < ·)) (hs : ∀ e ∈ es, s ≤ e) :
    s + (barLens s es).sum = (match es.getLast? with | none => s | some l => l + 1) := by
  induction es generalizing s with
  | nil => simp [barLens]
  | cons a es ih =>
    have ha := hs a (by simp)
    rw [List.pairwise_cons] at hi
    have := ih (a + 1) hi.2 (fun e he => hi.1 e he)
    simp only [barLens, List.sum_cons]
    cases es with
    | nil => simp [barLens]; omega
    | cons b es =>
      rw [List.getLast?_cons_cons]
      have hl : (b :: es).getLast? = some ((b :: es).getLast (by simp)) := List.getLast?_eq_some_getLast _
      rw [hl] at this ⊢
      simp only at this ⊢
      omega

theorem barLens_pos (s : ℕ) (es : List ℕ) (hi : es.Pairwise (· < ·)) (hs : ∀ e ∈ es, s ≤ e) :
    ∀ T ∈ barLens s es, 0 < T := by
  induction es generalizing s with
  | nil => simp [barLens]
  | cons a es ih =>
    have ha := hs a (by simp)
    rw [List.pairwise_cons] at hi
    intro T hT
    simp only [barLens, List.mem_cons] at hT
    rcases hT with rfl | hT
    · omega
    · exact ih (a + 1) hi.2 (fun e he => hi.1 e he) T hT

/-! ### Bar ids from bar ends -/

/-- Number of bars that ended before tick `i`. -/
def barOf (ends : List ℕ) (i : ℕ) : ℕ := (ends.filter (· < i)).length

theorem filter_lt_append {ends pre suf : List ℕ} (h : ends = pre ++ suf) (i : ℕ)
    (h1 : ∀ e ∈ pre, e < i) (h2 : ∀ e ∈ suf, i ≤ e) : barOf ends i = pre.length := by
  subst h
  unfold barOf
  rw [List.filter_append, List.filter_eq_self.2 (by simpa using h1),
    List.filter_eq_nil_iff.2 (by simpa using h2), List.append_nil]

theorem split_at (ends : List ℕ) (hi : ends.Pairwise (· < ·)) (j : ℕ) (h : ∃ e ∈ ends, j ≤ e) :
    ∃ pre e suf, ends = pre ++ e :: suf ∧ (∀ x ∈ pre, x < j) ∧ j ≤ e ∧ ∀ x ∈ suf, e < x := by
  induction ends with
  | nil => simp at h
  | cons a ends ih =>
    rw [List.pairwise_cons] at hi
    by_cases ha : j ≤ a
    · exact ⟨[], a, ends, rfl, by simp, ha, hi.1⟩
    · obtain ⟨e, he, hje⟩ := h
      rw [List.mem_cons] at he
      rcases he with rfl | he
      · exact absurd hje ha
      · obtain ⟨pre, e', suf, h1, h2, h3, h4⟩ := ih hi.2 ⟨e, he, hje⟩
        refine ⟨a :: pre, e', suf, by rw [h1]; rfl, ?_, h3, h4⟩
        intro x hx
        rw [List.mem_cons] at hx
        rcases hx with rfl | hx
        · omega
        · exact h2 x hx

theorem tickBarIdLoop_spec (ends : List ℕ) (hi : ends.Pairwise (· < ·)) (k i cur : ℕ)
    (hcur : cur = barOf ends (i - 1)) (hlast : k ≠ 0 → ∃ e ∈ ends, i + k ≤ e + 1) :
    tickBarIdLoop ends k i cur = .ok ((List.range' i k).map (barOf ends)) := by
  induction k generalizing i cur with
  | zero => rfl
  | succ k ih =>
    obtain ⟨m, hm, hmk⟩ := hlast (by omega)
    obtain ⟨pre, e, suf, h1, h2, h3, h4⟩ := split_at ends hi (i - 1) ⟨m, hm, by omega⟩
    have hc : cur = pre.length := by
      rw [hcur]
      refine filter_lt_append h1 _ h2 ?_
      intro x hx
      rw [List.mem_cons] at hx
      rcases hx with rfl | hx
      · exact h3
      · have := h4 x hx; omega
    have hget : pyGet ends cur = .ok e := by
      rw [pyGet_eq_ok_iff, h1, hc]
      simp
    have hnext : (if i > e then cur + 1 else cur) = barOf ends i := by
      split
      · next hgt =>
        symm
        rw [hc, show pre.length + 1 = (pre ++ [e]).length by simp]
        refine filter_lt_append (suf := suf) (by rw [h1]; simp) _ ?_ ?_
        · intro x hx
          rw [List.mem_append, List.mem_singleton] at hx
          rcases hx with hx | rfl
          · have := h2 x hx; omega
          · exact hgt
        · intro x hx; have := h4 x hx; omega
      · next hgt =>
        symm
        rw [hc]
        refine filter_lt_append h1 _ ?_ ?_
        · intro x hx; have := h2 x hx; omega
        · intro x hx
          rw [List.mem_cons] at hx
          rcases hx with rfl | hx
          · omega
          · have := h4 x hx; omega
    unfold tickBarIdLoop
    rw [hget, py_bind_ok]
    simp only [hnext]
    rw [ih (i + 1) (barOf ends i) (by simp) (fun _ => ⟨m, hm, by omega⟩), List.range'_succ]
    rfl

/-- `_compute_tick_bar_id` numbers the ticks by the number of bars that ended before. -/
theorem computeTickBarId_spec (n : ℕ) (ends : List ℕ) (hi : ends.Pairwise (· < ·))
    (hl : ends.getLast? = some (n - 1)) :
    computeTickBarId n ends = .ok ((List.range n).map (barOf ends)) := by
  unfold computeTickBarId
  rw [tickBarIdLoop_spec ends hi n 0 0, List.range_eq_range']
  · simp [barOf]
  · intro hn
    exact ⟨n - 1, List.mem_of_getLast? hl, by omega⟩

theorem barOf_mono (ends : List ℕ) {i j : ℕ} (h : i ≤ j) : barOf ends i ≤ barOf ends j := by
  unfold barOf
  induction ends with
  | nil => simp
  | cons a ends ih =>
    simp only [List.filter_cons]
    by_cases h1 : a < i
    · have h2 : a < j := by omega
      simp [h1, h2, ih]
    · by_cases h2 : a < j
      · simp [h1, h2]; omega
      · simp [h1, h2, ih]

theorem barIds_sorted (n : ℕ) (ends : List ℕ) :
    ((List.range n).map (barOf ends)).Pairwise (· ≤ ·) := by
  rw [List.pairwise_map]
  exact (List.pairwise_lt_range (n := n)).imp fun h => barOf_mono ends h.le

theorem barOf_cons_le (a : ℕ) (es : List ℕ) (h : ∀ e ∈ es, a < e) (i : ℕ) (hi : i ≤ a) :
    barOf (a :: es) i = 0 := by
  unfold barOf
  rw [List.length_eq_zero_iff, List.filter_eq_nil_iff]
  intro x hx
  rw [List.mem_cons] at hx
  rcases hx with rfl | hx
  · simp; omega
  · have := h x hx; simp; omega

theorem barOf_cons_gt (a : ℕ) (es : List ℕ) (i : ℕ) (hi : a < i) :
    barOf (a :: es) i = 1 + barOf es i := by
  unfold barOf
  rw [List.filter_cons_of_pos (by simpa using hi), List.length_cons, add_comm]

@[simp] theorem cutLens_length {α : Type} (Ts : List ℕ) (l : List α) :
    (cutLens Ts l).length = Ts.length := by
  induction Ts generalizing l with
  | nil => rfl
  | cons T Ts ih => simp [cutLens, ih]

/-- Bar ids computed from bar ends cut the stream into pieces of the bar lengths. -/
theorem cut_ids {α : Type} (k0 s : ℕ) (ends : List ℕ) (l : List α) (hi : ends.Pairwise (· < ·))
    (hs : ∀ e ∈ ends, s ≤ e) (hsum : (barLens s ends).sum = l.length) :
    (List.range' s l.length).map (fun i => k0 + barOf ends i) =
      ((List.range' k0 ends.length).zip (cutLens (barLens s ends) l)).flatMap
        (fun p => List.replicate p.2.length p.1) ∧
    l = ((List.range' k0 ends.length).zip (cutLens (barLens s ends) l)).flatMap Prod.snd ∧
    ∀ p ∈ cutLens (barLens s ends) l, p ≠ [] := by
  induction ends generalizing k0 s l with
  | nil =>
    have : l = [] := by
      rw [← List.length_eq_zero_iff, ← hsum]; rfl
    subst this
    exact ⟨rfl, rfl, by simp [barLens, cutLens]⟩
  | cons a es ih =>
    rw [List.pairwise_cons] at hi
    have ha : s ≤ a := hs a (by simp)
    simp only [barLens, List.sum_cons] at hsum
    have hlen : (l.drop (a + 1 - s)).length = l.length - (a + 1 - s) := List.length_drop
    obtain ⟨i1, i2, i3⟩ := ih (k0 + 1) (a + 1) (l.drop (a + 1 - s)) hi.2 (fun e he => hi.1 e he)
      (by rw [hlen]; omega)
    have hT : (l.take (a + 1 - s)).length = a + 1 - s := by
      rw [List.length_take]; omega
    refine ⟨?_, ?_, ?_⟩
    · simp only [barLens, cutLens, List.length_cons, List.range'_succ, List.zip_cons_cons,
        List.flatMap_cons]
      rw [← i1, hT, hlen]
      have hsplit : List.range' s l.length =
          List.range' s (a + 1 - s) ++ List.range' (a + 1) (l.length - (a + 1 - s)) := by
        have := List.range'_append_1 (s := s) (m := a + 1 - s) (n := l.length - (a + 1 - s))
        rw [show s + (a + 1 - s) = a + 1 by omega] at this
        rw [this]
        congr 1; omega
      rw [hsplit, List.map_append]
      congr 1
      · rw [List.eq_replicate_iff]
        refine ⟨by simp, ?_⟩
        intro b hb
        rw [List.mem_map] at hb
        obtain ⟨i, hi', rfl⟩ := hb
        rw [List.mem_range'_1] at hi'
        rw [barOf_cons_le a es hi.1 i (by omega), Nat.add_zero]
      · apply List.map_congr_left
        intro i hi'
        rw [List.mem_range'_1] at hi'
        rw [barOf_cons_gt a es i (by omega)]
        omega
    · simp only [barLens, cutLens, List.length_cons, List.range'_succ, List.zip_cons_cons,
        List.flatMap_cons]
      rw [← i2, List.take_append_drop]
    · intro p hp
      simp only [barLens, cutLens, List.mem_cons] at hp
      rcases hp with rfl | hp
      · intro h0
        rw [h0] at hT
        simp at hT
        omega
      · exact i3 p hp

/-- Bars built from bar ends are the bars of the pieces between them. -/
theorem bars_of_ends (ticks : List (Tick K)) (ends : List ℕ) (hi : ends.Pairwise (· < ·))
    (hl : ends.getLast? = some (ticks.length - 1)) (hn : ticks ≠ []) :
    ∃ bars, groupTicksToBars ((List.range ticks.length).map (barOf ends)) ticks = .ok bars ∧
      IsCut ticks (cutLens (barLens 0 ends) ticks) bars := by
  have hpos : 0 < ticks.length := List.length_pos_iff.2 hn
  have hsum := barLens_sum 0 ends hi (by simp)
  rw [hl] at hsum
  simp only [zero_add] at hsum
  obtain ⟨h1, h2, h3⟩ := cut_ids 0 0 ends ticks hi (by simp) (by omega)
  simp only [zero_add, ← List.range_eq_range'] at h1 h2
  set ps := (List.range ends.length).zip (cutLens (barLens 0 ends) ticks) with hps
  have hfst : ps.map Prod.fst = List.range ends.length := by
    rw [hps, List.map_fst_zip]; simp
  have hsnd : ps.map Prod.snd = cutLens (barLens 0 ends) ticks := by
    rw [hps, List.map_snd_zip]; simp
  have hg : groupBy ((List.range ticks.length).map (barOf ends)) ticks = ps := by
    rw [h1]
    conv_lhs => rw [h2]
    apply groupBy_pieces
    · rw [hfst]; exact List.pairwise_lt_range
    · intro p hp
      exact h3 p.2 (by rw [← hsnd]; exact List.mem_map_of_mem hp)
  obtain ⟨bars, hb⟩ := groupTicksToBars_ok ((List.range ticks.length).map (barOf ends)) ticks
    (by simp)
  refine ⟨bars, hb, ?_, h3, ?_⟩
  · rw [← hsnd, ← List.flatMap_def]; exact h2.symm
  · rw [groupTicksToBars_iff, hg] at hb
    rw [← hsnd, List.forall₂_map_left_iff]
    exact hb

end FinML.Bars
