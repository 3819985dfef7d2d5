import Verif.CV.CombiProps

/-!
# C173: splits depend only on the order of the times
-/

namespace FinML.CV

variable {K : Type} [Field K] [LinearOrder K] [FloorRing K]

/-- An event on another clock. -/
def reclock (φ : ℤ → ℤ) (e : Event) : Event := (φ e.1, e.2.map φ)

variable {φ : ℤ → ℤ}

theorem overlaps_reclock (h : StrictMono φ) (t e : Event) :
    overlaps (reclock φ t) (reclock φ e) = overlaps t e := by
  obtain ⟨a, b⟩ := t
  obtain ⟨c, d⟩ := e
  cases b <;> cases d <;> simp [overlaps, reclock, leO, oLeO, h.le_iff_le]

theorem purged_reclock_fold (h : StrictMono φ) (tests : List Event) (rows : List (Event × ℕ)) :
    (tests.map (reclock φ)).foldl (fun rows t => rows.filter fun r => !overlaps t r.1)
        (rows.map fun r => (reclock φ r.1, r.2)) =
      (tests.foldl (fun rows t => rows.filter fun r => !overlaps t r.1) rows).map
        fun r => (reclock φ r.1, r.2) := by
  induction tests generalizing rows with
  | nil => rfl
  | cons t ts ih =>
    simp only [List.map_cons, List.foldl_cons, List.filter_map]
    rw [← ih]
    congr 2
    apply List.filter_congr
    intro r _
    simp [overlaps_reclock h]

theorem zipIdx_reclock (l : List Event) (k : ℕ) :
    (l.map (reclock φ)).zipIdx k = (l.zipIdx k).map fun r => (reclock φ r.1, r.2) := by
  induction l generalizing k with
  | nil => rfl
  | cons a l ih => simp [ih]

theorem purgedTrain_reclock (h : StrictMono φ) (events tests : List Event) :
    purgedTrain (events.map (reclock φ)) (tests.map (reclock φ)) = purgedTrain events tests := by
  unfold purgedTrain
  rw [zipIdx_reclock, purged_reclock_fold h, List.map_map]
  rfl

theorem pyLast_map {α β : Type} (f : α → β) (l : List α) : pyLast (l.map f) = (pyLast l).map f := by
  unfold pyLast
  rw [List.getLast?_map]
  cases l.getLast? <;> rfl

theorem pyGet_map {α β : Type} (f : α → β) (l : List α) (i : ℕ) :
    pyGet (l.map f) i = (pyGet l i).map f := by
  unfold pyGet
  rw [List.getElem?_map]
  cases l[i]? <;> rfl

/-- The pair on another clock. -/
def reclock2 (φ : ℤ → ℤ) (p : ℤ × ℤ) : ℤ × ℤ := (φ p.1, φ p.2)

theorem embargoTimes_reclock (φ : ℤ → ℤ) (bars : List ℤ) (pct : K) :
    embargoTimes (bars.map φ) pct = (embargoTimes bars pct).map (List.map (reclock2 φ)) := by
  unfold embargoTimes
  simp only [List.length_map]
  split_ifs
  · rw [pyLast_map]
    cases pyLast bars with
    | error e => rfl
    | ok x =>
      change Except.ok _ = Except.ok _
      rw [← List.map_take, ← List.map_drop, ← List.map_drop, List.zip_map, List.map_append, List.map_map,
        List.map_map]
      rfl
  · simp only [Except.map]
    rw [List.zip_map]
    rfl
  · rw [pyLast_map]
    cases pyLast bars with
    | error e => rfl
    | ok x =>
      change Except.ok _ = Except.ok _
      rw [← List.map_take, ← List.map_drop, ← List.map_drop, List.zip_map, List.map_append, List.map_map,
        List.map_map]
      rfl

theorem lookupAll_reclock (h : StrictMono φ) (m : List (ℤ × ℤ)) (e : Option ℤ) :
    lookupAll (m.map (reclock2 φ)) (e.map φ) = (lookupAll m e).map φ := by
  unfold lookupAll
  rw [List.filter_map, List.map_map, List.map_map]
  have : ((fun p : ℤ × ℤ => decide (some p.1 = e.map φ)) ∘ reclock2 φ) = fun p => decide (some p.1 = e) := by
    funext p
    cases e <;> simp [reclock2, h.injective.eq_iff]
  rw [this]
  rfl

theorem adjustTests_reclock (h : StrictMono φ) (m : List (ℤ × ℤ)) (tests : List Event) :
    adjustTests (m.map (reclock2 φ)) (tests.map (reclock φ)) =
      (adjustTests m tests).map (List.map (reclock φ)) := by
  unfold adjustTests
  have e : ∀ t : Event, lookupAll (m.map (reclock2 φ)) (reclock φ t).2 = (lookupAll m t.2).map φ :=
    fun t => lookupAll_reclock h m t.2
  have hc : (∃ t ∈ tests.map (reclock φ), lookupAll (m.map (reclock2 φ)) t.2 = []) ↔
      ∃ t ∈ tests, lookupAll m t.2 = [] := by
    constructor
    · rintro ⟨t, ht, h0⟩
      obtain ⟨u, hu, rfl⟩ := List.mem_map.1 ht
      rw [e, List.map_eq_nil_iff] at h0
      exact ⟨u, hu, h0⟩
    · rintro ⟨t, ht, h0⟩
      exact ⟨_, List.mem_map_of_mem ht, by rw [e, h0]; rfl⟩
  have hv : (tests.map (reclock φ)).flatMap (fun t => lookupAll (m.map (reclock2 φ)) t.2) =
      (tests.flatMap fun t => lookupAll m t.2).map φ := by
    rw [List.flatMap_map, List.map_flatMap]
    simp only [e]
  simp only [hc, hv, List.length_map]
  split_ifs
  · rfl
  · rfl
  · rename_i h1 h2
    clear h1 h2
    change Except.ok _ = Except.ok _
    congr 1
    generalize (tests.flatMap fun t => lookupAll m t.2) = v
    clear hc hv e
    induction tests generalizing v with
    | nil => simp
    | cons t ts ih =>
      cases v with
      | nil => simp
      | cons x v =>
        simp only [List.map_cons, List.zip_cons_cons, List.cons.injEq]
        exact ⟨rfl, ih v⟩

theorem adjusted_reclock (h : StrictMono φ) (tests : List Event) (pct : K) (bars : Option (List ℤ)) :
    adjusted (tests.map (reclock φ)) pct (bars.map (List.map φ)) =
      (adjusted tests pct bars).map (List.map (reclock φ)) := by
  cases bars with
  | none => rfl
  | some b =>
    simp only [adjusted, Option.map_some]
    rw [embargoTimes_reclock]
    cases embargoTimes b pct with
    | error e => rfl
    | ok m => exact adjustTests_reclock h m tests

/-- C173 (purging and embargo): on any other clock with the same order of times, the same rows are kept, and
the same errors are raised. -/
theorem C173_purging (h : StrictMono φ) (events tests : List Event) (bars : Option (List ℤ)) (pct : K) :
    applyPurging (events.map (reclock φ)) (tests.map (reclock φ)) (bars.map (List.map φ)) pct =
      applyPurging events tests bars pct := by
  unfold applyPurging
  rw [adjusted_reclock h]
  cases adjusted tests pct bars with
  | error e => rfl
  | ok a =>
    change Except.ok _ = Except.ok _
    rw [purgedTrain_reclock h]

theorem searchRight_map (h : StrictMono φ) (l : List ℤ) (v : ℤ) :
    searchRight (l.map φ) (φ v) = searchRight l v := by
  unfold searchRight
  rw [List.takeWhile_map, List.length_map]
  congr 2
  funext x
  simp [h.le_iff_le]

theorem npMax_map (h : Monotone φ) (l : List ℤ) : npMax (l.map φ) = (npMax l).map φ := by
  cases l with
  | nil => rfl
  | cons x xs =>
    change Except.ok _ = Except.ok _
    congr 1
    induction xs generalizing x with
    | nil => rfl
    | cons y ys ih => simp only [List.map_cons, List.foldl_cons, ← h.map_max]; exact ih _

theorem maxEnd_reclock (h : StrictMono φ) (evs : List Event) :
    maxEnd (evs.map (reclock φ)) = (maxEnd evs).map φ := by
  have e : (evs.map (reclock φ)).filterMap Prod.snd = (evs.filterMap Prod.snd).map φ := by
    rw [List.filterMap_map, List.map_filterMap]
    rfl
  unfold maxEnd
  rw [e, npMax_map h.monotone]
  simp only [List.map_eq_nil_iff]
  split_ifs <;> rfl

theorem mapM_map_ok {α β : Type} (f : α → β) (l : List ℕ) (g : ℕ → Py α) :
    (l.mapM fun i => (g i).map f) = (l.mapM g).map (List.map f) := by
  induction l with
  | nil => rfl
  | cons a l ih =>
    rw [List.mapM_cons, List.mapM_cons, ih]
    cases g a with
    | error e => rfl
    | ok x => cases l.mapM g <;> rfl

theorem kfoldOne_reclock (h : StrictMono φ) (events : List Event) (emb : ℤ) (b : ℕ × ℕ) :
    kfoldOne (events.map (reclock φ)) emb b = kfoldOne events emb b := by
  unfold kfoldOne
  simp only [List.length_map, pyGet_map]
  cases pyGet events b.1 with
  | error e => rfl
  | ok first =>
    simp only [Except.map]
    have e1 : ((List.take b.2 (List.range events.length)).drop b.1).mapM (pyGet (events.map (reclock φ))) =
        (((List.take b.2 (List.range events.length)).drop b.1).mapM (pyGet events)).map
          (List.map (reclock φ)) := by
      rw [← mapM_map_ok]
      congr 1
      funext i
      exact pyGet_map _ _ _
    simp only [py_bind_ok]
    rw [e1]
    cases ((List.take b.2 (List.range events.length)).drop b.1).mapM (pyGet events) with
    | error e => rfl
    | ok te =>
      simp only [Except.map, py_bind_ok]
      rw [maxEnd_reclock h]
      cases maxEnd te with
      | error e => rfl
      | ok v =>
        change Except.ok _ = Except.ok _
        have e2 : ((events.map (reclock φ)).map Prod.fst) = (events.map Prod.fst).map φ := by
          rw [List.map_map, List.map_map]; rfl
        have e3 : ((events.map (reclock φ)).zipIdx.filter fun r => oLt r.1.2 (reclock φ first).1).map
            Prod.snd = (events.zipIdx.filter fun r => oLt r.1.2 first.1).map Prod.snd := by
          rw [zipIdx_reclock, List.filter_map, List.map_map]
          have : ((fun r : Event × ℕ => oLt r.1.2 (reclock φ first).1) ∘
              fun r : Event × ℕ => (reclock φ r.1, r.2)) = fun r => oLt r.1.2 first.1 := by
            funext r
            obtain ⟨⟨a, b⟩, i⟩ := r
            cases b <;> simp [oLt, reclock, h.lt_iff_lt]
          rw [this]
          rfl
        rw [e2, searchRight_map h, e3]

/-- C173 (PurgedKFold): the folds are the same on any clock with the same order of times. -/
theorem C173_kfold (h : StrictMono φ) (nSplits : ℤ) (pct : K) (events : List Event) :
    kfoldEvents nSplits pct (events.map (reclock φ)) = kfoldEvents nSplits pct events := by
  unfold kfoldEvents
  have : kfoldOne (events.map (reclock φ)) = kfoldOne events := by
    funext e b
    exact kfoldOne_reclock h events e b
  rw [List.length_map, this]

/-- The same object on another clock. -/
def Cpcv.reclock (φ : ℤ → ℤ) (c : Cpcv K) : Cpcv K :=
  { c with events := c.events.map (CV.reclock φ), bars := c.bars.map (List.map φ) }

theorem Cpcv.grp_reclock (c : Cpcv K) (g : ℕ) : (c.reclock φ).grp g = c.grp g := by
  simp [Cpcv.grp, Cpcv.reclock]

theorem Cpcv.splitOne_reclock (h : StrictMono φ) (c : Cpcv K) (grps : List ℕ) :
    (c.reclock φ).splitOne grps = c.splitOne grps := by
  have ht : (c.reclock φ).testOf grps = c.testOf grps := by
    unfold Cpcv.testOf
    rw [funext c.grp_reclock]
  unfold Cpcv.splitOne
  rw [ht]
  have e1 : (c.testOf grps).mapM (pyGet (c.reclock φ).events) =
      ((c.testOf grps).mapM (pyGet c.events)).map (List.map (CV.reclock φ)) := by
    rw [← mapM_map_ok]
    congr 1
    funext i
    exact pyGet_map _ _ _
  rw [e1]
  cases (c.testOf grps).mapM (pyGet c.events) with
  | error e => rfl
  | ok te =>
    simp only [Except.map, py_bind_ok, Cpcv.reclock]
    rw [C173_purging h]

/-- C173 (combinatorial splits): the splits, and every history of calls with its paths, are the same on any
clock with the same order of times. -/
theorem C173_combinatorial (h : StrictMono φ) (c : Cpcv K) :
    (c.reclock φ).splitAll = c.splitAll ∧
    (∀ ops s, (c.reclock φ).run ops s = c.run ops s) ∧
    ∀ lists, (c.reclock φ).paths lists = c.paths lists := by
  refine ⟨?_, ?_, ?_⟩
  · unfold Cpcv.splitAll
    have : (c.reclock φ).splitOne = c.splitOne := by
      funext g; exact Cpcv.splitOne_reclock h c g
    rw [this]
    rfl
  · intro ops s
    have : (c.reclock φ).step = c.step := by
      funext s op
      cases op with
      | create => rfl
      | advance i =>
        simp only [Cpcv.step]
        cases s.iters.getD i [] with
        | nil => rfl
        | cons p rest => simp only [Cpcv.next, Cpcv.splitOne_reclock h]
    unfold Cpcv.run
    rw [this]
  · intro lists
    have : (c.reclock φ).path = c.path := by
      funext l i
      simp only [Cpcv.path, funext c.grp_reclock]
      rfl
    unfold Cpcv.paths
    rw [this]

/-- The hypothesis and a split that purges something: seconds instead of minutes. -/
example : StrictMono (fun t : ℤ => 60 * t + 5) ∧
    applyPurging (K := ℚ) ([(0, some 2), (2, some 3), (4, some 9), (12, some 13)].map
      (reclock fun t => 60 * t + 5)) ([(3, some 4)].map (reclock fun t => 60 * t + 5)) none 0 = .ok [0, 3] := by
  refine ⟨fun a b h => ?_, by decide +kernel⟩
  show 60 * a + 5 < 60 * b + 5
  omega

end FinML.CV
