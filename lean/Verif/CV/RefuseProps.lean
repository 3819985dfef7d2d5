import Verif.CV.Props
import Verif.CV.CombiModel
import Verif.CV.ScoreProps

/-! # Refusals of the splitters: repeated bar times (C40), no groups (C44), numbers of
partitions (C48), unknown features and wrong names (C50, C51) and events that are not a series (C192) -/

namespace FinML.CV

set_option linter.unusedSectionVars false

variable {K : Type} [Field K] [LinearOrder K] [IsStrictOrderedRing K] [FloorRing K]

theorem lookup_length (bars : List ℤ) (f : ℕ → ℤ) (e : ℤ) :
    (lookupAll ((List.range bars.length).map fun i : ℕ => (bars.getD i 0, f i)) (some e)).length =
      bars.count e := by
  unfold lookupAll
  rw [List.length_map, ← List.countP_eq_length_filter, List.countP_map, List.count_eq_countP]
  have : bars = (List.range bars.length).map fun i => bars.getD i 0 := by
    apply List.ext_getElem
    · simp
    · intro i h1 h2
      simp [h1]
  conv_rhs => rw [this, List.countP_map]
  apply List.countP_congr
  intro i _
  simp

/-- C40.  Repeated bar times: a test end that is the time of two bars raises ValueError. -/
theorem C40_repeated (events : List Event) (tests : List (ℤ × ℤ)) (bars : List ℤ) (pct : K) (hp : 0 ≤ pct)
    (hends : ∀ t ∈ tests, t.2 ∈ bars) (t : ℤ × ℤ) (ht : t ∈ tests) (htwo : 2 ≤ bars.count t.2) :
    applyPurging events (tests.map closeEv) (some bars) pct = .error .valueError := by
  have hb : bars ≠ [] := List.ne_nil_of_mem (hends t ht)
  have h0 : 0 ≤ (bars.length : K) * pct := mul_nonneg (Nat.cast_nonneg _) hp
  have hs : pyInt ((bars.length : K) * pct) = (⌊(bars.length : K) * pct⌋.toNat : ℕ) := by
    unfold pyInt
    rw [if_pos h0, Int.toNat_of_nonneg (Int.floor_nonneg.2 h0)]
  unfold applyPurging
  simp only [adjusted]
  rw [embargoTimes_eq bars hb pct _ hs, py_bind_ok]
  generalize hm : ((List.range bars.length).map fun i : ℕ =>
      (bars.getD i 0, bars.getD (min (i + ⌊(bars.length : K) * pct⌋.toNat) (bars.length - 1)) 0)) = m
  have hlen : ∀ u : ℤ × ℤ, (lookupAll m (closeEv u).2).length = bars.count u.2 := by
    intro u
    rw [← hm]
    exact lookup_length bars (fun i => bars.getD (min (i + ⌊(bars.length : K) * pct⌋.toNat) (bars.length - 1)) 0) u.2
  have hpos : ∀ u ∈ tests, 1 ≤ bars.count u.2 := fun u hu => List.count_pos_iff.2 (hends u hu)
  have : adjustTests m (tests.map closeEv) = .error .valueError := by
    unfold adjustTests
    rw [if_neg]
    · simp only
      rw [if_pos]
      rw [List.flatMap_map, List.length_flatMap, List.length_map]
      have e1 : (tests.map fun u => (lookupAll m (closeEv u).2).length) = tests.map fun u => bars.count u.2 :=
        List.map_congr_left fun u _ => hlen u
      rw [e1]
      clear e1 hends hm hlen
      have hge : ∀ l : List (ℤ × ℤ), (∀ u ∈ l, 1 ≤ bars.count u.2) →
          l.length ≤ (l.map fun u => bars.count u.2).sum := by
        intro l
        induction l with
        | nil => simp
        | cons a l ih =>
          intro hl
          have h1 := ih fun u hu => hl u (List.mem_cons_of_mem _ hu)
          have h2 := hl a List.mem_cons_self
          simp only [List.length_cons, List.map_cons, List.sum_cons]
          omega
      obtain ⟨l1, l2, rfl⟩ := List.append_of_mem ht
      have g1 := hge l1 fun u hu => hpos u (by simp [hu])
      have g2 := hge l2 fun u hu => hpos u (by simp [hu])
      simp only [List.map_append, List.map_cons, List.sum_append, List.sum_cons, List.length_append,
        List.length_cons]
      omega
    · rintro ⟨u, hu, hnil⟩
      obtain ⟨v, hv, rfl⟩ := List.mem_map.1 hu
      have := hlen v
      rw [hnil] at this
      have := hpos v hv
      simp only [List.length_nil] at *
      omega
  rw [this]
  rfl

/-- The hypotheses are met: two bars in the same second. -/
example : applyPurging [(0, some 1)] ([(0, 1)].map closeEv) (some [0, 1, 1, 2]) (0 : ℚ) = .error .valueError := by
  decide +kernel

/-- C44.  An object without groups cannot be made: the size of a group divides by zero.  With groups none
has been tested yet and no generator exists. -/
theorem C44_no_groups (c : Cpcv K) :
    (c.nGroups = 0 → c.init = .error .zeroDivision) ∧
    (0 < c.nGroups → ∃ s, c.init = .ok s ∧ s.lists.length = c.nGroups ∧ (∀ l ∈ s.lists, l = []) ∧ s.iters = []) := by
  unfold Cpcv.init
  refine ⟨fun h => if_pos h, fun h => ?_⟩
  rw [if_neg (by omega)]
  exact ⟨_, rfl, by simp, fun l hl => (List.mem_replicate.1 hl).2, rfl⟩

/-- C48.  An odd number of partitions fails the assertion, none is a division by zero, and a negative
even number is a ValueError, whatever the matrix and the metric. -/
theorem C48_refusals (eval : List (List ℝ) → Py (List ℝ)) (argsort : List ℝ → List ℕ)
    (M : List (List ℝ)) (N : ℤ) :
    (¬ Even N → computePbo eval argsort M N = .error .assertionError) ∧
    (N = 0 → computePbo eval argsort M N = .error .zeroDivision) ∧
    (N < 0 → Even N → computePbo eval argsort M N = .error .valueError) := by
  unfold computePbo
  refine ⟨fun h => ?_, ?_, fun h1 h2 => ?_⟩
  · rw [Int.not_even_iff_odd, Int.odd_iff] at h
    rw [if_pos (by omega)]
  · rintro rfl
    simp
  · rw [Int.even_iff] at h2
    rw [if_neg (by omega), if_neg (by omega), if_pos h1]

/-- C48.  A metric that gives no value for the train set (no strategies) raises ValueError. -/
theorem C48_no_strategies (argsort : List ℝ → List ℕ) (M : List (List ℝ)) (N : ℕ) (h0 : 0 < N) (h2 : Even N) :
    computePbo (fun _ => .ok []) argsort M N = .error .valueError := by
  have hc := C44_choices (K := ℚ) ⟨N, N / 2, none, [], 0, id⟩
  unfold Cpcv.choices at hc
  simp only at hc
  have h2' : (N : ℤ) % 2 = 0 := by obtain ⟨m, rfl⟩ := h2; omega
  unfold computePbo
  rw [if_neg (by omega), if_neg (by omega), if_neg (by omega), Int.toNat_natCast]
  have hpos : 0 < (combinations (N / 2) (List.range N)).length := by
    rw [hc.2.2]
    exact Nat.choose_pos (Nat.div_le_self _ _)
  have hone : ∀ ps ∈ combinations (N / 2) (List.range N),
      pboOne (fun _ => .ok []) argsort M (M.length / N) ps = .error .valueError := by
    intro ps hps
    obtain ⟨h3, h4, h5⟩ := (hc.1 ps).1 hps
    have hin := C48_indices M.length N ps h5
    have hget : ∀ l : List ℕ, (∀ i ∈ l, i < M.length) → l.mapM (pyGet M) = .ok (l.map fun i => M.getD i []) := by
      intro l hl
      apply mapM_ok_of_forall
      intro i hi
      rw [pyGet_eq_ok_iff, List.getD_eq_getElem?_getD, List.getElem?_eq_getElem (hl i hi)]
      rfl
    unfold pboOne
    simp only
    rw [hget _ fun i hi => (hin.2.1 i hi).2, py_bind_ok, hget _ fun i hi => ((hin.2.2.1 i).1 hi).1, py_bind_ok,
      py_bind_ok]
    rfl
  cases hl : combinations (N / 2) (List.range N) with
  | nil => rw [hl] at hpos; simp at hpos
  | cons ps rest =>
    rw [mapM_cons_py, hone ps (by rw [hl]; exact List.mem_cons_self)]
    rfl

/-- C192.  Without a splitter, and whatever `cv` and `embargo_pct`, events that are not a series raise ValueError, and so
does a series whose index is no time index. -/
theorem C192_not_series (cv : Option ℤ) (pct : Option K) (arg : SplitArg)
    (ha : ∀ events, arg ≠ .series true events) :
    (Splitter.default cv pct).run arg = .error .valueError := by
  have key : ∀ o : Splitter K, (∃ c p, o = .default c p) → o.run arg = .error .valueError := by
    rintro _ ⟨c, p, rfl⟩
    cases arg with
    | notSeries => cases c <;> cases p <;> rfl
    | series b ev =>
      cases b with
      | true => exact absurd rfl (ha ev)
      | false => cases c <;> cases p <;> rfl
  exact key _ ⟨cv, pct, rfl⟩

/-- C50.  A feature that is not a column raises KeyError, before any model is fitted. -/
theorem C50_unknown {C L P F : Type} (lib : Lib C ℝ L P) (clf : C) (X : F → Option (List ℝ)) (y : List L)
    (w : List ℝ) (scoring : String) (splitter : Splitter K) (f : F) (rest : List F) (hf : X f = none) :
    sfi lib clf X y w scoring splitter (f :: rest) = .error .keyError := by
  unfold sfi
  rw [mapM_cons_py]
  unfold sfiOne
  rw [hf]
  rfl

/-- C51.  Names that are not one per column raise ValueError, also if there is no tree at all. -/
theorem C51_refusals (trees : List (List ℝ)) (k n : ℕ) (hlen : ∀ t ∈ trees, t.length = k) :
    (trees ≠ [] → k ≠ n → mdi trees n = .error .valueError) ∧
    (trees = [] → n ≠ 0 → mdi trees n = .error .valueError) ∧
    mdi [] 0 = .ok [] := by
  refine ⟨fun hne hk => ?_, fun h hn => ?_, ?_⟩
  · unfold mdi
    obtain ⟨t, ht⟩ := List.exists_mem_of_ne_nil _ hne
    rw [if_pos (.inr ⟨t, ht, by rw [hlen t ht]; exact hk⟩)]
  · unfold mdi
    rw [if_pos (.inl ⟨h, hn⟩)]
  · unfold mdi
    rw [if_neg (by simp)]
    rfl

example : mdi [[1, 2], [0, 1]] 3 = .error .valueError := (C51_refusals _ 2 3 (by simp)).1 (by simp) (by decide)

end FinML.CV
