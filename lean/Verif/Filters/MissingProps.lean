import Verif.Filters.MissingModel
import Verif.Filters.Props
import Verif.Py.Lemmas
import Mathlib.Data.Rat.Floor

/-! # Property C198: missing values in the CUSUM filter; C55: units and clocks -/

set_option linter.unusedSectionVars false

namespace FinML.Filters

variable {K : Type} [Field K] [LinearOrder K] [IsStrictOrderedRing K]

/-! ## The loop by position -/

/-- The loop over labelled differences. -/
def foldO (thr : K) (s : Cusum K) (l : List (ℤ × Option K)) : Cusum K :=
  l.foldl (fun s p => cusumStepO thr s p.1 p.2) s

theorem cusumLoopO_eq (index : List ℤ) (d : List (Option K)) (hlen : d.length = index.length)
    (hn : index.Nodup) (thr : K) (k : ℕ) (s : Cusum K) :
    cusumLoopO index d thr (index.drop k) s = .ok (foldO thr s ((index.drop k).zip (d.drop k))) := by
  induction hm : index.length - k generalizing k s with
  | zero =>
    rw [List.drop_eq_nil_of_le (by omega)]
    rfl
  | succ m ih =>
    have hk : k < index.length := by omega
    have hk' : k < d.length := by omega
    rw [List.drop_eq_getElem_cons hk, List.drop_eq_getElem_cons hk']
    have hl : locDiffO index d index[k] = .ok d[k] := by
      unfold locDiffO
      rw [filter_label index d hn k index[k] d[k] (List.getElem?_eq_getElem hk)
        (List.getElem?_eq_getElem hk')]
    rw [cusumLoopO, hl, py_bind_ok, ih (k + 1) _ (by omega), List.zip_cons_cons]
    rfl

theorem diffsO_length (l : List (Option K)) : (diffsO l).length = l.length := by
  cases l <;> simp [diffsO]

theorem filterCusumO_eq (index : List ℤ) (series : List (Option K)) (thr : K)
    (hlen : index.length = series.length) (hn : index.Nodup) :
    filterCusumO index series thr =
      .ok (foldO thr ⟨0, 0, []⟩ (index.tail.zip (diffsO series).tail)).events := by
  unfold filterCusumO
  have h := cusumLoopO_eq index (diffsO series) (by rw [diffsO_length, hlen]) hn thr 1 ⟨0, 0, []⟩
  rw [List.drop_one, List.drop_one] at h
  rw [h, py_bind_ok]
  rfl

theorem foldO_events (thr : K) (l : List (ℤ × Option K)) (s : Cusum K) (pre : List ℤ) :
    foldO thr ⟨s.pos, s.neg, pre ++ s.events⟩ l =
      ⟨(foldO thr s l).pos, (foldO thr s l).neg, pre ++ (foldO thr s l).events⟩ := by
  induction l generalizing s with
  | nil => rfl
  | cons p l ih =>
    unfold foldO at ih ⊢
    rw [List.foldl_cons, List.foldl_cons, ← ih]
    congr 1
    unfold cusumStepO
    simp only
    split_ifs <;> simp

theorem step_none (thr : K) (hthr : 0 ≤ thr) (s : Cusum K) (t : ℤ) :
    cusumStepO thr s t none = ⟨0, 0, s.events⟩ := by
  have h1 : ¬ (0 : K) < -thr := by linarith
  have h2 : ¬ (0 : K) > thr := by simpa using hthr
  change (if (0 : K) < -thr then _ else if (0 : K) > thr then _ else _) = _
  rw [if_neg h1, if_neg h2]
  rfl

theorem foldO_skip (thr : K) (hthr : 0 ≤ thr) (t : ℤ) (ev : List ℤ) (l : List (ℤ × Option K)) :
    foldO thr ⟨0, 0, ev⟩ ((t, none) :: l) = foldO thr ⟨0, 0, ev⟩ l := by
  unfold foldO
  rw [List.foldl_cons]
  simp only [step_none thr hthr]

/-- With a threshold that is not negative the first label need not be left out. -/
theorem foldO_tail (thr : K) (hthr : 0 ≤ thr) (index : List ℤ) (series : List (Option K))
    (hlen : index.length = series.length) :
    foldO thr ⟨0, 0, []⟩ (index.tail.zip (diffsO series).tail) =
      foldO thr ⟨0, 0, []⟩ (index.zip (diffsO series)) := by
  cases index with
  | nil => cases series with
    | nil => rfl
    | cons => simp at hlen
  | cons t index => cases series with
    | nil => simp at hlen
    | cons x series =>
      unfold diffsO
      rw [List.zip_cons_cons, foldO_skip thr hthr]
      rfl

theorem diffsO_append_none (a b : List (Option K)) :
    diffsO (a ++ none :: b) = diffsO a ++ none :: diffsO b := by
  have key : ∀ (x : Option K) (l : List (Option K)),
      List.zipWith subO (l ++ none :: b) (x :: (l ++ none :: b)) =
        List.zipWith subO l (x :: l) ++ none :: diffsO b := by
    intro x l
    induction l generalizing x with
    | nil =>
      cases b with
      | nil => simp [diffsO, subO]
      | cons y b =>
        simp only [List.nil_append, List.zipWith_cons_cons, List.zipWith_nil_left, diffsO]
        have h1 : subO none x = none := rfl
        have h2 : subO y none = none := by cases y <;> rfl
        rw [h1, h2]
    | cons y l ih =>
      simp only [List.cons_append, List.zipWith_cons_cons]
      rw [ih y]
  cases a with
  | nil =>
    cases b with
    | nil => rfl
    | cons y b =>
      simp only [List.nil_append, diffsO, List.zipWith_cons_cons]
      have h2 : subO y none = none := by cases y <;> rfl
      rw [h2]
  | cons x a =>
    simp only [List.cons_append, diffsO]
    rw [key x a]
    rfl

/-! ## C198 -/

/-- Rows with a value. -/
def dropMissing (index : List ℤ) (series : List (Option K)) : List (ℤ × K) :=
  (index.zip series).filterMap fun p => p.2.map fun v => (p.1, v)

/-- C198, full claim: a missing observation counts as if its row were not there. -/
def MissingIgnored : Prop := ∀ (index : List ℤ) (series : List (Option ℚ)) (thr : ℚ), 0 ≤ thr →
  index.Pairwise (· < ·) → index.length = series.length →
  filterCusumO index series thr =
    filterCusum ((dropMissing index series).map Prod.fst) ((dropMissing index series).map Prod.snd) thr

/-- C198, counterexample: a jump by ten over a missing observation is not an event for the threshold
five. -/
theorem C198_missing_counterexample : ¬ MissingIgnored := by
  intro h
  have := h [0, 1, 2] [some 0, none, some 10] 5 (by norm_num) (by decide) rfl
  revert this
  decide +kernel

theorem diffsO_some (l : List K) : diffsO (l.map some) = diffs l := by
  cases l with
  | nil => rfl
  | cons x l =>
    simp only [List.map_cons, diffsO, diffs]
    congr 1
    have : ∀ x : K, List.zipWith subO (l.map some) (some x :: l.map some) =
        List.zipWith (fun b a => some (b - a)) l (x :: l) := by
      induction l with
      | nil => intro x; rfl
      | cons y l ih =>
        intro x
        simp only [List.map_cons, List.zipWith_cons_cons]
        rw [← ih y]
        rfl
    exact this x

theorem step_some (thr : K) (s : Cusum K) (t : ℤ) (v : K) :
    cusumStepO thr s t (some v) = cusumStep thr s t v := rfl

/-- C198, without missing values the filter is that of C53-C55. -/
theorem C198_complete (index : List ℤ) (series : List K) (thr : K) (hlen : index.length = series.length)
    (hn : index.Nodup) : filterCusumO index (series.map some) thr = filterCusum index series thr := by
  rw [filterCusumO_eq index _ thr (by simpa using hlen) hn, diffsO_some]
  unfold filterCusum
  rcases List.eq_nil_or_concat series with rfl | ⟨_, _, _⟩
  · have : index = [] := List.length_eq_zero_iff.1 (by simpa using hlen)
    subst this
    rfl
  have hne : series ≠ [] := by aesop
  have hpos : 0 < series.length := List.length_pos_iff.2 hne
  have key : ∀ k (s : Cusum K), 1 ≤ k → cusumLoop index (diffs series) thr (index.drop k) s =
      .ok (foldO thr s ((index.drop k).zip ((diffs series).drop k))) := by
    intro k
    induction hm : index.length - k generalizing k with
    | zero =>
      intro s _
      rw [List.drop_eq_nil_of_le (by omega)]
      rfl
    | succ m ih =>
      intro s hk1
      have hk : k < index.length := by omega
      have hk' : k < (diffs series).length := by rw [diffs_length]; omega
      obtain ⟨j, rfl⟩ : ∃ j, k = j + 1 := ⟨k - 1, by omega⟩
      have hd := diffs_getElem series j (by omega)
      rw [List.getElem?_eq_getElem hk'] at hd
      injection hd with hd
      have hl := locDiff_eq index series hlen hn j (by omega)
      rw [List.getD_eq_getElem?_getD, List.getElem?_eq_getElem hk, Option.getD_some] at hl
      rw [List.drop_eq_getElem_cons hk, List.drop_eq_getElem_cons hk', cusumLoop, hl, py_bind_ok,
        ih (j + 1 + 1) (by omega) _ (by omega), List.zip_cons_cons, hd]
      unfold foldO
      rw [List.foldl_cons, step_some]
  have h := key 1 ⟨0, 0, []⟩ le_rfl
  rw [List.drop_one, List.drop_one] at h
  rw [h, py_bind_ok]
  rfl

/-- C198, what holds: a missing observation restarts the filter.  The events before it and after it are
those of the two parts on their own (missing: moves from one part to the other). -/
theorem C198_missing_partial (i₁ i₂ : List ℤ) (t : ℤ) (s₁ s₂ : List (Option K)) (thr : K) (hthr : 0 ≤ thr)
    (h₁ : i₁.length = s₁.length) (h₂ : i₂.length = s₂.length) (hn : (i₁ ++ t :: i₂).Nodup) :
    ∃ e₁ e₂, filterCusumO i₁ s₁ thr = .ok e₁ ∧ filterCusumO i₂ s₂ thr = .ok e₂ ∧
      filterCusumO (i₁ ++ t :: i₂) (s₁ ++ none :: s₂) thr = .ok (e₁ ++ e₂) := by
  have hn1 : i₁.Nodup := (List.nodup_append'.1 hn).1
  have hn2 : i₂.Nodup := (List.nodup_cons.1 (List.nodup_append'.1 hn).2.1).2
  have hl : (i₁ ++ t :: i₂).length = (s₁ ++ none :: s₂).length := by simp [h₁, h₂]
  refine ⟨_, _, filterCusumO_eq i₁ s₁ thr h₁ hn1, filterCusumO_eq i₂ s₂ thr h₂ hn2, ?_⟩
  rw [filterCusumO_eq _ _ thr hl hn, foldO_tail thr hthr _ _ hl, foldO_tail thr hthr _ _ h₁,
    foldO_tail thr hthr _ _ h₂, diffsO_append_none,
    List.zip_append (by rw [diffsO_length, h₁]), List.zip_cons_cons]
  have happ : ∀ (s : Cusum K) (a b : List (ℤ × Option K)), foldO thr s (a ++ b) = foldO thr (foldO thr s a) b :=
    fun s a b => List.foldl_append
  rw [happ]
  generalize foldO thr ⟨0, 0, []⟩ (i₁.zip (diffsO s₁)) = s
  have hstep : foldO thr s ((t, none) :: i₂.zip (diffsO s₂)) =
      foldO thr ⟨0, 0, s.events⟩ (i₂.zip (diffsO s₂)) := by
    unfold foldO
    rw [List.foldl_cons, step_none thr hthr]
  rw [hstep]
  have := foldO_events thr (i₂.zip (diffsO s₂)) ⟨0, 0, []⟩ s.events
  simp only [List.append_nil] at this
  rw [this]

/-- Two parts with an event each. -/
example : filterCusumO [0, 1, 2, 3, 4] [some (0 : ℚ), some 3, none, some 9, some 6] 2 = .ok [1, 4] := by
  decide +kernel

/-! ## C55: units and clocks -/

theorem diffs_scale (c : K) (l : List K) :
    diffs (l.map fun v => c * v) = (diffs l).map (Option.map fun v => c * v) := by
  cases l with
  | nil => rfl
  | cons x l =>
    simp only [List.map_cons, diffs, Option.map_none]
    congr 1
    have : ∀ x : K, List.zipWith (fun b a => some (b - a)) (l.map fun v => c * v)
        (c * x :: l.map fun v => c * v) =
        (List.zipWith (fun b a => some (b - a)) l (x :: l)).map (Option.map fun v => c * v) := by
      induction l with
      | nil => intro x; rfl
      | cons y l ih =>
        intro x
        simp only [List.map_cons, List.zipWith_cons_cons]
        rw [← ih y]
        simp [mul_sub]
    exact this x

theorem step_scale (c : K) (hc : 0 < c) (thr : K) (s : Cusum K) (t : ℤ) (d : Option K) :
    cusumStepO (c * thr) ⟨c * s.pos, c * s.neg, s.events⟩ t (d.map fun v => c * v) =
      ⟨c * (cusumStepO thr s t d).pos, c * (cusumStepO thr s t d).neg, (cusumStepO thr s t d).events⟩ := by
  have hmax : ∀ o : Option K, pyMax0 (o.map fun v => c * v) = c * pyMax0 o := by
    intro o
    cases o with
    | none => simp [pyMax0]
    | some v => simp [pyMax0, mul_max_of_nonneg _ _ hc.le]
  have hmin : ∀ o : Option K, pyMin0 (o.map fun v => c * v) = c * pyMin0 o := by
    intro o
    cases o with
    | none => simp [pyMin0]
    | some v => simp [pyMin0, mul_min_of_nonneg _ _ hc.le]
  have e1 : ((d.map fun v => c * v).map fun v => c * s.pos + v) = (d.map fun v => s.pos + v).map fun v => c * v := by
    cases d <;> simp [mul_add]
  have e2 : ((d.map fun v => c * v).map fun v => c * s.neg + v) = (d.map fun v => s.neg + v).map fun v => c * v := by
    cases d <;> simp [mul_add]
  unfold cusumStepO
  simp only
  rw [e1, e2, hmax, hmin, ← mul_neg]
  simp only [mul_lt_mul_iff_right₀ hc, gt_iff_lt]
  split_ifs <;> simp

/-- C55.  The events do not depend on the unit: multiplying the series and the threshold by a positive
number keeps them. -/
theorem C55_scale (index : List ℤ) (series : List K) (thr c : K) (hc : 0 < c)
    (hlen : index.length = series.length) (hn : index.Nodup) :
    filterCusum index (series.map fun v => c * v) (c * thr) = filterCusum index series thr := by
  rw [← C198_complete index _ _ (by simpa using hlen) hn, ← C198_complete index series thr hlen hn,
    filterCusumO_eq _ _ _ (by simpa using hlen) hn, filterCusumO_eq _ _ _ (by simpa using hlen) hn,
    diffsO_some, diffsO_some, diffs_scale, ← List.map_tail]
  generalize (diffs series).tail = d
  have key : ∀ (l : List ℤ) (d : List (Option K)) (s : Cusum K),
      foldO (c * thr) ⟨c * s.pos, c * s.neg, s.events⟩ (l.zip (d.map (Option.map fun v => c * v))) =
        ⟨c * (foldO thr s (l.zip d)).pos, c * (foldO thr s (l.zip d)).neg, (foldO thr s (l.zip d)).events⟩ := by
    intro l
    induction l with
    | nil => intro d s; rfl
    | cons t l ih =>
      intro d s
      cases d with
      | nil => rfl
      | cons v d =>
        unfold foldO at ih ⊢
        rw [List.map_cons, List.zip_cons_cons, List.zip_cons_cons, List.foldl_cons, List.foldl_cons]
        simp only
        rw [step_scale c hc, ih]
  have := key index.tail d ⟨0, 0, []⟩
  simp only [mul_zero] at this
  rw [this]

/-- C55.  The events do not depend on the clock: other names for the times rename the events. -/
theorem C55_clock (g : ℤ → ℤ) (hg : Function.Injective g) (index : List ℤ) (series : List K) (thr : K)
    (hlen : index.length = series.length) (hn : index.Nodup) :
    filterCusum (index.map g) series thr = (filterCusum index series thr).map (List.map g) := by
  rw [← C198_complete (index.map g) _ _ (by simpa using hlen) (hn.map hg),
    ← C198_complete index series thr hlen hn,
    filterCusumO_eq _ _ _ (by simpa using hlen) (hn.map hg), filterCusumO_eq _ _ _ (by simpa using hlen) hn]
  generalize (diffsO (series.map some)).tail = d
  have key : ∀ (l : List ℤ) (d : List (Option K)) (s : Cusum K),
      foldO thr ⟨s.pos, s.neg, s.events.map g⟩ ((l.map g).zip d) =
        ⟨(foldO thr s (l.zip d)).pos, (foldO thr s (l.zip d)).neg, (foldO thr s (l.zip d)).events.map g⟩ := by
    intro l
    induction l with
    | nil => intro d s; rfl
    | cons t l ih =>
      intro d s
      cases d with
      | nil => rfl
      | cons v d =>
        unfold foldO at ih ⊢
        rw [List.map_cons, List.zip_cons_cons, List.zip_cons_cons, List.foldl_cons, List.foldl_cons, ← ih]
        congr 1
        unfold cusumStepO
        simp only
        split_ifs <;> simp
  have := key index.tail d ⟨0, 0, []⟩
  simp only [List.map_nil] at this
  rw [← List.map_tail, this]
  rfl

end FinML.Filters
