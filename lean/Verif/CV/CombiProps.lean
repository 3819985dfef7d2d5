import Verif.CV.CombiModel
import Verif.CV.Props
import Mathlib.Data.Nat.Choose.Basic
import Mathlib.Tactic.FieldSimp

/-! # Properties C44-C47: combinatorial purged cross validation -/

set_option linter.unusedSectionVars false

namespace FinML.CV

variable {K : Type} [Field K] [LinearOrder K] [IsStrictOrderedRing K] [FloorRing K]

/-! ## Combinations -/

theorem combinations_zero {α : Type} (l : List α) : combinations 0 l = [[]] := by
  cases l <;> rfl

theorem mem_combinations {α : Type} (k : ℕ) (l c : List α) :
    c ∈ combinations k l ↔ c.Sublist l ∧ c.length = k := by
  induction l generalizing k c with
  | nil =>
    cases k with
    | zero => simp [combinations]
    | succ k =>
      simp only [combinations, List.not_mem_nil, List.sublist_nil, false_iff]
      rintro ⟨rfl, h⟩
      simp at h
  | cons x xs ih =>
    cases k with
    | zero =>
      simp only [combinations, List.mem_singleton]
      constructor
      · rintro rfl; simp
      · rintro ⟨_, h⟩; exact List.length_eq_zero_iff.1 h
    | succ k =>
      rw [combinations, List.mem_append, List.mem_map, ih]
      constructor
      · rintro (⟨d, hd, rfl⟩ | ⟨h1, h2⟩)
        · obtain ⟨h1, h2⟩ := (ih k d).1 hd
          exact ⟨h1.cons_cons x, by simp [h2]⟩
        · exact ⟨h1.cons x, h2⟩
      · rintro ⟨h1, h2⟩
        rcases List.sublist_cons_iff.1 h1 with h | ⟨d, rfl, hd⟩
        · exact Or.inr ⟨h, h2⟩
        · exact Or.inl ⟨d, (ih k d).2 ⟨hd, by simpa using h2⟩, rfl⟩

theorem combinations_length {α : Type} (k : ℕ) (l : List α) :
    (combinations k l).length = l.length.choose k := by
  induction l generalizing k with
  | nil => cases k <;> simp [combinations]
  | cons x xs ih =>
    cases k with
    | zero => simp [combinations]
    | succ k =>
      rw [combinations, List.length_append, List.length_map, ih, ih, List.length_cons,
        Nat.choose_succ_succ]

/-- Number of choices that contain a given item. -/
theorem combinations_count (k : ℕ) (l : List ℕ) (hl : l.Nodup) (x : ℕ) (hx : x ∈ l) :
    ((combinations (k + 1) l).countP fun c => decide (x ∈ c)) = (l.length - 1).choose k := by
  induction l generalizing k with
  | nil => simp at hx
  | cons y ys ih =>
    rw [List.nodup_cons] at hl
    rw [combinations, List.countP_append, List.countP_map]
    by_cases hxy : x = y
    · subst hxy
      have h1 : ((combinations k ys).countP ((fun c => decide (x ∈ c)) ∘ (x :: ·))) =
          (combinations k ys).length := by
        rw [List.countP_eq_length]; intro c _; simp
      have h2 : ((combinations (k + 1) ys).countP fun c => decide (x ∈ c)) = 0 := by
        rw [List.countP_eq_zero]
        intro c hc
        have := ((mem_combinations _ _ _).1 hc).1
        simp only [decide_eq_true_eq]
        exact fun h => hl.1 (this.subset h)
      rw [h1, h2, combinations_length]
      simp
    · have hxs : x ∈ ys := by simpa [hxy] using hx
      have h1 : ((combinations k ys).countP ((fun c => decide (x ∈ c)) ∘ (y :: ·))) =
          (combinations k ys).countP fun c => decide (x ∈ c) := by
        apply List.countP_congr
        intro c _
        simp [hxy]
      rw [h1, ih k hl.2 hxs]
      have hpos : 0 < ys.length := List.length_pos_of_mem hxs
      cases k with
      | zero => simp [combinations_zero]
      | succ k =>
        rw [ih k hl.2 hxs]
        obtain ⟨m, hm⟩ : ∃ m, ys.length = m + 1 := ⟨ys.length - 1, by omega⟩
        simp [hm, Nat.choose_succ_succ]

theorem combinations_lex (k : ℕ) (l : List ℕ) (hl : l.Pairwise (· < ·)) :
    (combinations k l).Pairwise (· < ·) := by
  induction l generalizing k with
  | nil => cases k <;> simp [combinations]
  | cons x xs ih =>
    cases k with
    | zero => simp [combinations]
    | succ k =>
      rw [List.pairwise_cons] at hl
      rw [combinations, List.pairwise_append]
      refine ⟨?_, ih _ hl.2, ?_⟩
      · rw [List.pairwise_map]
        exact (ih k hl.2).imp fun {a b} h => List.cons_lt_cons_iff.2 (Or.inr ⟨rfl, h⟩)
      · intro a ha b hb
        obtain ⟨d, _, rfl⟩ := List.mem_map.1 ha
        obtain ⟨h1, h2⟩ := (mem_combinations _ _ _).1 hb
        cases b with
        | nil => simp at h2
        | cons y ys =>
          exact List.cons_lt_cons_iff.2 (Or.inl (hl.1 y (h1.subset (by simp))))

/-! ## C44 -/

/-- C44.  The choices of test groups are exactly the increasing lists of `k` groups, in lexicographic
order (hence each once), and there are `C(N,k)` of them. -/
theorem C44_choices (c : Cpcv K) :
    (∀ grps, grps ∈ c.choices ↔ grps.Pairwise (· < ·) ∧ grps.length = c.nTest ∧
      ∀ g ∈ grps, g < c.nGroups) ∧
    c.choices.Pairwise (· < ·) ∧ c.choices.length = c.nGroups.choose c.nTest := by
  unfold Cpcv.choices
  refine ⟨?_, combinations_lex _ _ List.pairwise_lt_range, by
    rw [combinations_length, List.length_range]⟩
  intro grps
  rw [mem_combinations]
  constructor
  · rintro ⟨h1, h2⟩
    exact ⟨List.Pairwise.sublist h1 List.pairwise_lt_range, h2,
      fun g hg => List.mem_range.1 (h1.subset hg)⟩
  · rintro ⟨h1, h2, h3⟩
    refine ⟨?_, h2⟩
    have : grps.Subperm (List.range c.nGroups) :=
      List.subperm_of_subset (h1.imp fun {a b} h => h.ne) (fun g hg => List.mem_range.2 (h3 g hg))
    exact List.sublist_of_subperm_of_pairwise this h1 List.pairwise_lt_range

theorem mapM_pyGet {α : Type} (l : List α) (idx : List ℕ) (h : ∀ i ∈ idx, i < l.length) :
    ∃ vs, idx.mapM (pyGet l) = .ok vs ∧ List.Forall₂ (fun i v => l[i]? = some v) idx vs := by
  induction idx with
  | nil => exact ⟨[], rfl, List.Forall₂.nil⟩
  | cons i is ih =>
    obtain ⟨vs, h1, h2⟩ := ih (fun j hj => h j (by simp [hj]))
    have hi := h i (by simp)
    have e1 : pyGet l i = .ok l[i] := by
      rw [pyGet_eq_ok_iff, List.getElem?_eq_getElem hi]
    refine ⟨l[i] :: vs, ?_, List.Forall₂.cons (List.getElem?_eq_getElem hi) h2⟩
    rw [mapM_cons_py, e1, py_bind_ok, h1]
    rfl

theorem forall₂_exists_left {α β : Type} {R : α → β → Prop} {l : List α} {m : List β}
    (h : List.Forall₂ R l m) : ∀ a ∈ l, ∃ b ∈ m, R a b := by
  induction h with
  | nil => simp
  | @cons x y _ _ hxy _ ih =>
    intro a ha
    rcases List.mem_cons.1 ha with rfl | ha
    · exact ⟨y, by simp, hxy⟩
    · obtain ⟨b, h1, h2⟩ := ih a ha
      exact ⟨b, by simp [h1], h2⟩

theorem forall₂_exists_right {α β : Type} {R : α → β → Prop} {l : List α} {m : List β}
    (h : List.Forall₂ R l m) : ∀ b ∈ m, ∃ a ∈ l, R a b := by
  induction h with
  | nil => simp
  | @cons x y _ _ hxy _ ih =>
    intro b hb
    rcases List.mem_cons.1 hb with rfl | hb
    · exact ⟨x, by simp, hxy⟩
    · obtain ⟨a, h1, h2⟩ := ih b hb
      exact ⟨a, by simp [h1], h2⟩

/-- C44.  One split per choice, in order; the test set is the chosen groups; the train set is the
events that meet no test event extended by the embargo, and has no event in common with the test
set. -/
theorem C44_splits (c : Cpcv K) (events : List (ℤ × ℤ)) (hev : c.events = events.map closeEv)
    (he : ∀ e ∈ events, e.1 ≤ e.2) (bars : List ℤ) (hcb : c.bars = some bars)
    (hbars : bars.Pairwise (· < ·)) (hends : ∀ e ∈ events, e.2 ∈ bars) (hb : bars ≠ []) (s : ℕ)
    (hs : pyInt ((bars.length : K) * c.pct) = s)
    (hin : ∀ g < c.nGroups, ∀ i ∈ c.grp g, i < events.length) :
    ∃ res, c.splitAll = .ok res ∧
      res.map Prod.snd = c.choices.map (fun grps => grps.flatMap c.grp) ∧
      ∀ r ∈ res, ∃ tests ext, List.Forall₂ (fun i t => events[i]? = some t) r.2 tests ∧
        List.Forall₂ (Embargoed bars s) tests ext ∧ r.1 = admissible events ext ∧
        ∀ x ∈ r.1, x ∉ r.2 := by
  have hone : ∀ grps ∈ c.choices, ∃ r, c.splitOne grps = .ok r ∧ r.2 = grps.flatMap c.grp ∧
      ∃ tests ext, List.Forall₂ (fun i t => events[i]? = some t) r.2 tests ∧
        List.Forall₂ (Embargoed bars s) tests ext ∧ r.1 = admissible events ext ∧
        ∀ x ∈ r.1, x ∉ r.2 := by
    intro grps hg
    have hlt := ((C44_choices c).1 grps).1 hg
    have hidx : ∀ i ∈ c.testOf grps, i < events.length := by
      intro i hi
      obtain ⟨g, h1, h2⟩ := List.mem_flatMap.1 hi
      exact hin g (hlt.2.2 g h1) i h2
    obtain ⟨tests, ht1, ht2⟩ := mapM_pyGet events (c.testOf grps) hidx
    have htm : ∀ t ∈ tests, t ∈ events := by
      intro t ht
      obtain ⟨i, _, h⟩ := forall₂_exists_right ht2 t ht
      exact List.mem_of_getElem? h
    have hclosed : (c.testOf grps).mapM (pyGet c.events) = .ok (tests.map closeEv) := by
      rw [mapM_eq_ok_iff, hev, List.forall₂_map_right_iff]
      refine ht2.imp ?_
      intro i t h
      rw [pyGet_eq_ok_iff, List.getElem?_map, h]
      rfl
    obtain ⟨ext, hx1, hx2, hx3⟩ := C40_embargo events tests he (fun t ht => he t (htm t ht)) bars
      hbars (fun t ht => hends t (htm t ht)) hb c.pct s hs
    refine ⟨(admissible events ext, c.testOf grps), ?_, rfl, tests, ext, ht2, hx1, rfl, ?_⟩
    · unfold Cpcv.splitOne
      rw [hclosed, py_bind_ok, hcb, hev, hx3, py_bind_ok]
      rfl
    · intro x hx hxt
      obtain ⟨ev, h1, h2⟩ := (mem_admissible _ _ _).1 hx
      obtain ⟨t, ht, hxt'⟩ := forall₂_exists_left ht2 x hxt
      rw [h1] at hxt'
      cases hxt'
      obtain ⟨t', ht', hemb⟩ := forall₂_exists_left hx1 ev ht
      have h3 := hx2 t' ht'
      have h4 := he ev (htm ev ht)
      have h5 := hemb.1
      rcases h2 t' ht' with h6 | h6 <;> omega
  have key : ∀ ls : List (List ℕ), (∀ g ∈ ls, g ∈ c.choices) → ∃ res, ls.mapM c.splitOne = .ok res ∧
      res.map Prod.snd = ls.map (fun grps => grps.flatMap c.grp) ∧
      ∀ r ∈ res, ∃ tests ext, List.Forall₂ (fun i t => events[i]? = some t) r.2 tests ∧
        List.Forall₂ (Embargoed bars s) tests ext ∧ r.1 = admissible events ext ∧
        ∀ x ∈ r.1, x ∉ r.2 := by
    intro ls
    induction ls with
    | nil => intro _; exact ⟨[], rfl, rfl, by simp⟩
    | cons g gs ih =>
      intro hsub
      obtain ⟨r, h1, h2, h3⟩ := hone g (hsub g (by simp))
      obtain ⟨res, e1, e2, e3⟩ := ih (fun g hg => hsub g (by simp [hg]))
      refine ⟨r :: res, by rw [mapM_cons_py, h1, e1]; rfl, by
        rw [List.map_cons, List.map_cons, e2, h2], ?_⟩
      intro r' hr'
      rcases List.mem_cons.1 hr' with rfl | hr'
      · exact h3
      · exact e3 r' hr'
  exact key c.choices (fun g hg => hg)

/-- A concrete object. -/
def exampleCpcv : Cpcv ℚ :=
  { nGroups := 3, nTest := 2, bars := some [0, 1, 2, 3, 4, 5, 6, 7, 8],
    events := [(0, some 1), (2, some 3), (4, some 5), (6, some 7), (7, some 8)], pct := 0, rd := id }

example : exampleCpcv.splitAll =
    .ok [([3, 4], [0, 1, 2]), ([1, 2], [0, 3, 4]), ([0], [1, 2, 3, 4])] := by decide +kernel

/-! ## C45 -/

theorem tile (b : ℕ → ℕ) (hb : Monotone b) (m : ℕ) :
    ((List.range m).flatMap fun g => List.range' (b g) (b (g + 1) - b g)) =
      List.range' (b 0) (b m - b 0) := by
  induction m with
  | zero => simp
  | succ m ih =>
    rw [List.range_succ, List.flatMap_append, ih]
    simp only [List.flatMap_cons, List.flatMap_nil, List.append_nil]
    have h1 : b 0 ≤ b m := hb (Nat.zero_le _)
    have h2 : b m ≤ b (m + 1) := hb (Nat.le_succ _)
    have := List.range'_append_1 (s := b 0) (m := b m - b 0) (n := b (m + 1) - b m)
    rw [show b 0 + (b m - b 0) = b m by omega] at this
    rw [this]
    congr 1
    omega

/-- C45, full claim: with IEEE doubles the groups, one after the other, are `0, …, n-1`. -/
def GroupsTile : Prop := ∀ n N : ℕ, 0 < N →
  ((List.range N).flatMap fun g => group roundDouble n N g) = List.range n

/-- C45, counterexample: 15 events in 11 groups; `11 * (15/11)` is below 15 in doubles and the last
event is in no group. -/
theorem C45_groups_tile_counterexample : ¬ GroupsTile := by
  intro h
  have h1 := h 15 11 (by norm_num)
  have h2 : (List.range 11).flatMap (fun g => group roundDouble 15 11 g) = List.range 14 := by
    decide +kernel
  rw [h2] at h1
  have := congrArg List.length h1
  simp at this

/-- C45, what holds: in exact arithmetic the groups tile the events; with any monotone rounding they
are consecutive and start at 0 (missing: with doubles the last event may be in no group). -/
theorem C45_groups_tile_partial :
    (∀ n N : ℕ, 0 < N → ((List.range N).flatMap fun g => group (id : K → K) n N g) = List.range n) ∧
    (∀ (rd : K → K), Monotone rd → rd 0 = 0 → ∀ n N : ℕ,
      ((List.range N).flatMap fun g => group rd n N g) = List.range (groupBound rd n N N)) := by
  have hgen : ∀ (rd : K → K), Monotone rd → rd 0 = 0 → ∀ n N : ℕ,
      ((List.range N).flatMap fun g => group rd n N g) = List.range (groupBound rd n N N) := by
    intro rd hrd h0 n N
    have hnn : 0 ≤ rd ((n : K) / (N : K)) := by
      rw [← h0]; exact hrd (div_nonneg (Nat.cast_nonneg _) (Nat.cast_nonneg _))
    have hb : Monotone (groupBound rd n N) := by
      intro g g' hg
      unfold groupBound
      apply Int.toNat_le_toNat
      have h1 : (g : K) * rd ((n : K) / (N : K)) ≤ (g' : K) * rd ((n : K) / (N : K)) :=
        mul_le_mul_of_nonneg_right (by exact_mod_cast hg) hnn
      have h2 : 0 ≤ rd ((g : K) * rd ((n : K) / (N : K))) := by
        rw [← h0]; exact hrd (mul_nonneg (Nat.cast_nonneg _) hnn)
      unfold pyInt
      rw [if_pos h2, if_pos (h2.trans (hrd h1))]
      exact Int.floor_mono (hrd h1)
    have hz : groupBound rd n N 0 = 0 := by
      unfold groupBound pyInt
      simp [h0]
    have := tile (groupBound rd n N) hb N
    unfold group
    rw [this, hz, List.range_eq_range', Nat.sub_zero]
  refine ⟨?_, hgen⟩
  intro n N hN
  rw [hgen id monotone_id rfl n N]
  congr 1
  unfold groupBound pyInt
  have hN' : (N : K) ≠ 0 := by exact_mod_cast hN.ne'
  simp only [id]
  rw [mul_div_cancel₀ _ hN', if_pos (Nat.cast_nonneg _)]
  simp

/-! ## The record of splits -/

theorem record_get (ls : List (List ℕ)) (p : ℕ × List ℕ) (hn : p.2.Nodup) (g : ℕ) :
    (record ls p)[g]? = ls[g]?.map fun l => if g ∈ p.2 then l ++ [p.1] else l := by
  unfold record
  obtain ⟨s, grps⟩ := p
  simp only at hn ⊢
  induction grps generalizing ls with
  | nil => simp
  | cons x xs ih =>
    rw [List.nodup_cons] at hn
    rw [List.foldl_cons, ih _ hn.2, List.getElem?_modify]
    by_cases hgx : x = g
    · subst hgx
      cases ls[x]? <;> simp [hn.1]
    · have : g ≠ x := fun h => hgx h.symm
      cases ls[g]? <;> simp [hgx, this]

theorem record_length (ls : List (List ℕ)) (p : ℕ × List ℕ) : (record ls p).length = ls.length := by
  unfold record
  obtain ⟨s, grps⟩ := p
  induction grps generalizing ls with
  | nil => rfl
  | cons x xs ih => simp only at ih ⊢; rw [List.foldl_cons, ih, List.length_modify]

theorem record_fold (ps : List (ℕ × List ℕ)) (hn : ∀ p ∈ ps, p.2.Nodup) (ls : List (List ℕ)) (g : ℕ) :
    (ps.foldl record ls)[g]? =
      ls[g]?.map fun l => l ++ (ps.filter fun p => decide (g ∈ p.2)).map Prod.fst := by
  induction ps generalizing ls with
  | nil => simp
  | cons p ps ih =>
    rw [List.foldl_cons, ih (fun q hq => hn q (by simp [hq])), record_get _ _ (hn p (by simp))]
    cases ls[g]? with
    | none => rfl
    | some l =>
      by_cases hg : g ∈ p.2
      · simp [hg]
      · simp [hg]

/-- Split index and groups of each choice. -/
def Cpcv.schedule (c : Cpcv K) : List (ℕ × List ℕ) := c.choices.zipIdx.map fun p => (p.2, p.1)

theorem mem_schedule (c : Cpcv K) (p : ℕ × List ℕ) :
    p ∈ c.schedule ↔ c.choices[p.1]? = some p.2 := by
  unfold Cpcv.schedule
  rw [List.mem_map]
  constructor
  · rintro ⟨q, hq, rfl⟩
    exact List.mem_zipIdx_iff_getElem?.1 hq
  · intro h
    exact ⟨(p.2, p.1), List.mem_zipIdx_iff_getElem?.2 h, rfl⟩

theorem schedule_nodup (c : Cpcv K) : ∀ p ∈ c.schedule, p.2.Nodup := by
  intro p hp
  have h := List.mem_of_getElem? ((mem_schedule c p).1 hp)
  exact (((C44_choices c).1 p.2).1 h).1.imp fun {a b} h => h.ne

/-- Advancing a generator to its end. -/
theorem run_advance (c : Cpcv K) (i : ℕ) (rest : List (ℕ × List ℕ))
    (hok : ∀ p ∈ rest, ∃ r, c.splitOne p.2 = .ok r) (s : State) (hs : s.iters[i]? = some rest) :
    c.run (List.replicate rest.length (.advance i)) s =
      ⟨rest.foldl record s.lists, s.iters.set i []⟩ := by
  induction rest generalizing s with
  | nil =>
    simp only [List.length_nil, List.replicate_zero, Cpcv.run, List.foldl_nil]
    have : s.iters.set i [] = s.iters := by
      apply List.ext_getElem?
      intro j
      rw [List.getElem?_set]
      by_cases hij : i = j
      · subst hij
        rw [if_pos rfl, hs]
        simp
        by_contra h
        rw [List.getElem?_eq_none (not_lt.1 h)] at hs
        cases hs
      · rw [if_neg hij]
    rw [this]
  | cons p ps ih =>
    obtain ⟨r, hr⟩ := hok p (by simp)
    have hlt : i < s.iters.length := by
      by_contra h
      rw [List.getElem?_eq_none (not_lt.1 h)] at hs
      cases hs
    have hstep : c.step s (.advance i) = ⟨record s.lists p, s.iters.set i ps⟩ := by
      simp only [Cpcv.step]
      rw [List.getD_eq_getElem?_getD (l := s.iters), hs]
      simp [Cpcv.next, afterNext, hr]
    rw [List.length_cons, List.replicate_succ]
    unfold Cpcv.run at ih ⊢
    rw [List.foldl_cons, hstep, ih (fun q hq => hok q (by simp [hq]))]
    · simp
    · simp [hlt]

/-- A full pass over `split`: create a generator, exhaust it. -/
def Cpcv.pass (c : Cpcv K) (i : ℕ) : List Op :=
  .create :: List.replicate c.choices.length (.advance i)

theorem run_pass (c : Cpcv K) (hok : ∀ grps ∈ c.choices, ∃ r, c.splitOne grps = .ok r) (s : State) :
    c.run (c.pass s.iters.length) s = ⟨c.schedule.foldl record s.lists, s.iters ++ [[]]⟩ := by
  have h := run_advance c s.iters.length c.schedule (by
    intro p hp
    exact hok p.2 (List.mem_of_getElem? ((mem_schedule c p).1 hp)))
    ⟨s.lists, s.iters ++ [c.schedule]⟩ (by simp)
  have hlen : c.schedule.length = c.choices.length := by
    unfold Cpcv.schedule; simp
  rw [hlen] at h
  unfold Cpcv.pass Cpcv.run at *
  rw [List.foldl_cons]
  have hstep : c.step s .create = ⟨s.lists, s.iters ++ [c.schedule]⟩ := rfl
  rw [hstep, h]
  simp

/-! ## C46 -/

/-- The splits that test group `g`, in order. -/
def Cpcv.splitsOf (c : Cpcv K) (g : ℕ) : List ℕ :=
  (c.schedule.filter fun p => decide (g ∈ p.2)).map Prod.fst

theorem mem_splitsOf (c : Cpcv K) (g s : ℕ) :
    s ∈ c.splitsOf g ↔ ∃ grps, c.choices[s]? = some grps ∧ g ∈ grps := by
  unfold Cpcv.splitsOf
  rw [List.mem_map]
  constructor
  · rintro ⟨p, hp, rfl⟩
    obtain ⟨h1, h2⟩ := List.mem_filter.1 hp
    exact ⟨p.2, (mem_schedule c p).1 h1, by simpa using h2⟩
  · rintro ⟨grps, h1, h2⟩
    exact ⟨(s, grps), List.mem_filter.2 ⟨(mem_schedule c (s, grps)).2 h1, by simpa using h2⟩, rfl⟩

theorem splitsOf_nodup (c : Cpcv K) (g : ℕ) : (c.splitsOf g).Nodup := by
  unfold Cpcv.splitsOf
  have hsub : ((c.schedule.filter fun p => decide (g ∈ p.2)).map Prod.fst).Sublist
      (c.schedule.map Prod.fst) := List.Sublist.map _ List.filter_sublist
  refine List.Nodup.sublist hsub ?_
  unfold Cpcv.schedule
  rw [List.map_map]
  have : (Prod.fst ∘ fun p : List ℕ × ℕ => (p.2, p.1)) = Prod.snd := rfl
  rw [this, List.zipIdx_map_snd]
  exact List.nodup_range'

theorem splitsOf_length (c : Cpcv K) (hk : 1 ≤ c.nTest) (g : ℕ) (hg : g < c.nGroups) :
    (c.splitsOf g).length = (c.nGroups - 1).choose (c.nTest - 1) := by
  obtain ⟨k, hk'⟩ : ∃ k, c.nTest = k + 1 := ⟨c.nTest - 1, by omega⟩
  have h := combinations_count k (List.range c.nGroups) List.nodup_range g (List.mem_range.2 hg)
  rw [← hk'] at h
  rw [List.length_range] at h
  rw [hk', Nat.add_sub_cancel, ← h]
  unfold Cpcv.splitsOf Cpcv.schedule
  rw [List.length_map, ← List.countP_eq_length_filter, List.countP_map]
  have h2 : (fun p : ℕ × List ℕ => decide (g ∈ p.2)) ∘ (fun p : List ℕ × ℕ => (p.2, p.1)) =
      (fun l => decide (g ∈ l)) ∘ Prod.fst := rfl
  rw [h2, ← List.countP_map, List.zipIdx_map_fst]
  rfl

/-- C46.  After one full pass over `split` there are `C(N-1,k-1)` paths; every path has one entry per
group, in order, from a split that tests the group; and every such (group, split) pair is in exactly
one path. -/
theorem C46_paths (c : Cpcv K) (hN : 1 ≤ c.nGroups) (hk : 1 ≤ c.nTest)
    (hok : ∀ grps ∈ c.choices, ∃ r, c.splitOne grps = .ok r) :
    ∃ s0 paths, c.init = .ok s0 ∧ c.paths (c.run (c.pass 0) s0).lists = .ok paths ∧
      paths.length = (c.nGroups - 1).choose (c.nTest - 1) ∧
      (∀ p ∈ paths, p.map Prod.fst = (List.range c.nGroups).map c.grp ∧
        ∀ (g : ℕ) (q : List ℕ × ℕ), p[g]? = some q → ∃ grps, c.choices[q.2]? = some grps ∧ g ∈ grps) ∧
      (∀ g < c.nGroups, ∀ (s : ℕ) (grps : List ℕ), c.choices[s]? = some grps → g ∈ grps →
        ∃! i : ℕ, ∃ (p : List (List ℕ × ℕ)) (q : List ℕ × ℕ), paths[i]? = some p ∧ p[g]? = some q ∧ q.2 = s) := by
  have hinit : c.init = .ok ⟨List.replicate c.nGroups [], []⟩ := by
    unfold Cpcv.init; rw [if_neg (by omega)]
  have hrun := run_pass c hok ⟨List.replicate c.nGroups [], []⟩
  simp only [List.length_nil] at hrun
  have hlists : c.schedule.foldl record (List.replicate c.nGroups []) =
      (List.range c.nGroups).map c.splitsOf := by
    apply List.ext_getElem?
    intro g
    rw [record_fold _ (schedule_nodup c), List.getElem?_map, List.getElem?_replicate]
    by_cases hg : g < c.nGroups
    · rw [if_pos hg, List.getElem?_range hg]
      simp [Cpcv.splitsOf]
    · rw [if_neg hg, List.getElem?_eq_none (by simp; omega)]
      rfl
  have hmin : npMin (((List.range c.nGroups).map c.splitsOf).map List.length) =
      .ok ((c.nGroups - 1).choose (c.nTest - 1)) := by
    rw [npMin_eq_ok_iff]
    constructor
    · simp only [Set.mem_ofPred_eq, List.map_map, List.mem_map, List.mem_range, Function.comp]
      exact ⟨0, by omega, splitsOf_length c hk 0 (by omega)⟩
    · intro y hy
      simp only [Set.mem_ofPred_eq, List.map_map, List.mem_map, List.mem_range, Function.comp] at hy
      obtain ⟨g, hg, rfl⟩ := hy
      rw [splitsOf_length c hk g hg]
  have hget : ∀ g < c.nGroups, ∀ i < (c.nGroups - 1).choose (c.nTest - 1),
      (c.splitsOf g)[i]? = some ((c.splitsOf g).getD i 0) := by
    intro g hg i hi
    rw [List.getD_eq_getElem?_getD, List.getElem?_eq_getElem (by rw [splitsOf_length c hk g hg]; exact hi)]
    rfl
  have hpath : ∀ i ∈ List.range ((c.nGroups - 1).choose (c.nTest - 1)),
      c.path ((List.range c.nGroups).map c.splitsOf) i =
        .ok ((List.range c.nGroups).map fun g => (c.grp g, (c.splitsOf g).getD i 0)) := by
    intro i hi
    rw [List.mem_range] at hi
    unfold Cpcv.path
    have h1 : (((List.range c.nGroups).map c.splitsOf).mapM fun l => pyGet l i) =
        .ok ((List.range c.nGroups).map fun g => (c.splitsOf g).getD i 0) := by
      rw [mapM_eq_ok_iff, List.forall₂_map_left_iff, List.forall₂_map_right_iff, List.forall₂_same]
      intro g hg
      rw [pyGet_eq_ok_iff]
      exact hget g (List.mem_range.1 hg) i hi
    rw [h1, py_bind_ok, List.zip_map']
    rfl
  refine ⟨⟨List.replicate c.nGroups [], []⟩,
    (List.range ((c.nGroups - 1).choose (c.nTest - 1))).map fun i =>
      (List.range c.nGroups).map fun g => (c.grp g, (c.splitsOf g).getD i 0),
    hinit, ?_, by simp, ?_, ?_⟩
  · rw [hrun]
    unfold Cpcv.paths
    simp only
    rw [hlists, hmin, py_bind_ok]
    exact mapM_ok_of_forall _ _ _ hpath
  · intro p hp
    obtain ⟨i, hi, rfl⟩ := List.mem_map.1 hp
    rw [List.mem_range] at hi
    refine ⟨by rw [List.map_map]; rfl, ?_⟩
    intro g q hq
    rw [List.getElem?_map, Option.map_eq_some_iff] at hq
    obtain ⟨g', hg', rfl⟩ := hq
    have hglt : g < c.nGroups := by
      by_contra h
      rw [List.getElem?_eq_none (by simp; omega)] at hg'
      cases hg'
    rw [List.getElem?_range hglt] at hg'
    cases hg'
    exact (mem_splitsOf c g _).1 (List.mem_of_getElem? (hget g hglt i hi))
  · intro g hg s grps hs hgg
    have hmem : s ∈ c.splitsOf g := (mem_splitsOf c g s).2 ⟨grps, hs, hgg⟩
    obtain ⟨i, hi, his⟩ := List.mem_iff_getElem.1 hmem
    have hi' : i < (c.nGroups - 1).choose (c.nTest - 1) := by
      rwa [splitsOf_length c hk g hg] at hi
    refine ⟨i, ⟨_, (c.grp g, (c.splitsOf g).getD i 0), by
      rw [List.getElem?_map, List.getElem?_range hi']; rfl, by
      rw [List.getElem?_map, List.getElem?_range hg]; rfl, ?_⟩, ?_⟩
    · have := hget g hg i hi'
      rw [List.getElem?_eq_getElem hi, his] at this
      exact (Option.some.inj this).symm
    · rintro j ⟨p, q, hp, hq, hqs⟩
      rw [List.getElem?_map, Option.map_eq_some_iff] at hp
      obtain ⟨j', hj', rfl⟩ := hp
      have hjlt : j < (c.nGroups - 1).choose (c.nTest - 1) := by
        by_contra h
        rw [List.getElem?_eq_none (by simp; omega)] at hj'
        cases hj'
      rw [List.getElem?_range hjlt] at hj'
      cases hj'
      rw [List.getElem?_map, List.getElem?_range hg] at hq
      cases hq
      simp only at hqs
      have h1 := hget g hg j hjlt
      have hjl : j < (c.splitsOf g).length := by rw [splitsOf_length c hk g hg]; exact hjlt
      rw [hqs, List.getElem?_eq_getElem hjl] at h1
      exact (List.Nodup.getElem_inj_iff (splitsOf_nodup c g)).1
        ((Option.some.inj h1).trans his.symm)

example : (c : Cpcv ℚ) → c = exampleCpcv →
    c.paths (c.run (c.pass 0) ⟨List.replicate 3 [], []⟩).lists =
      .ok [[([0], 0), ([1, 2], 0), ([3, 4], 1)], [([0], 1), ([1, 2], 2), ([3, 4], 2)]] := by
  rintro c rfl; decide +kernel

/-! ## C47 -/

/-- C47, full claim: however often `split` is iterated in full, the paths are those after one
iteration. -/
def PathsStable : Prop := ∀ (c : Cpcv ℚ) (s0 : State), c.init = .ok s0 →
  (∀ grps ∈ c.choices, ∃ r, c.splitOne grps = .ok r) →
  c.paths (c.run (c.pass 0 ++ c.pass 1) s0).lists = c.paths (c.run (c.pass 0) s0).lists

/-- A small object. -/
def smallCpcv : Cpcv ℚ :=
  { nGroups := 2, nTest := 1, bars := none, events := [(0, some 1), (2, some 3)], pct := 0, rd := id }

/-- C47, counterexample: iterating twice over a two-group object gives the same path twice. -/
theorem C47_history_counterexample : ¬ PathsStable := by
  intro h
  have h1 := h smallCpcv ⟨List.replicate 2 [], []⟩ (by decide) (by
    intro grps hg
    have h2 : smallCpcv.choices = [[0], [1]] := by decide
    rw [h2] at hg
    rcases List.mem_cons.1 hg with rfl | hg
    · exact ⟨([1], [0]), by decide +kernel⟩
    · rw [List.mem_singleton] at hg
      subst hg
      exact ⟨([0], [1]), by decide +kernel⟩)
  revert h1
  decide +kernel

/-- What holds of the state after any history. -/
def Good (c : Cpcv K) (s : State) : Prop :=
  s.lists.length = c.nGroups ∧
  (∀ (g : ℕ) (l : List ℕ), s.lists[g]? = some l → ∀ i ∈ l, ∃ grps, c.choices[i]? = some grps ∧ g ∈ grps) ∧
  ∀ it ∈ s.iters, ∀ p ∈ it, p ∈ c.schedule

theorem next_cons (c : Cpcv K) (s : State) (i : ℕ) (p : ℕ × List ℕ) (rest : List (ℕ × List ℕ)) :
    c.next s i (p :: rest) = afterNext s i p rest (c.splitOne p.2) := rfl

theorem good_step (c : Cpcv K) (s : State) (hs : Good c s) (op : Op) : Good c (c.step s op) := by
  obtain ⟨h1, h2, h3⟩ := hs
  cases op with
  | create =>
    refine ⟨h1, h2, ?_⟩
    intro it hit
    simp only [Cpcv.step, List.mem_append, List.mem_singleton] at hit
    rcases hit with hit | rfl
    · exact h3 it hit
    · exact fun p hp => hp
  | advance i =>
    have hcase : (s.iters.getD i [] = []) ∨ (s.iters.getD i [] ∈ s.iters) := by
      rw [List.getD_eq_getElem?_getD (l := s.iters)]
      cases hx : s.iters[i]? with
      | none => left; rfl
      | some v => right; exact List.mem_of_getElem? hx
    unfold Cpcv.step
    simp only
    generalize s.iters.getD i [] = it at hcase
    cases it with
    | nil => exact ⟨h1, h2, h3⟩
    | cons p rest =>
      have hmem : p :: rest ∈ s.iters := by
        rcases hcase with h | h
        · cases h
        · exact h
      have hp := h3 _ hmem
      rw [next_cons]
      cases hsp : c.splitOne p.2 with
      | error e =>
        refine ⟨h1, h2, ?_⟩
        intro it hit
        rcases List.mem_or_eq_of_mem_set hit with h | rfl
        · exact h3 it h
        · simp
      | ok r =>
        refine ⟨by rw [afterNext, record_length]; exact h1, ?_, ?_⟩
        · intro g l hl j hj
          rw [afterNext, record_get _ _ (schedule_nodup c p (hp p (by simp))), Option.map_eq_some_iff] at hl
          obtain ⟨l0, hl0, rfl⟩ := hl
          by_cases hg : g ∈ p.2
          · rw [if_pos hg] at hj
            rcases List.mem_append.1 hj with hj | hj
            · exact h2 g l0 hl0 j hj
            · rw [List.mem_singleton] at hj
              subst hj
              exact ⟨p.2, (mem_schedule c p).1 (hp p (by simp)), hg⟩
          · rw [if_neg hg] at hj
            exact h2 g l0 hl0 j hj
        · intro it hit
          rcases List.mem_or_eq_of_mem_set hit with h | rfl
          · exact h3 it h
          · exact fun q hq => hp q (by simp [hq])

/-- C47, what holds after any history of calls (generators created, advanced and interleaved at will,
some failing): every entry of every path pairs group `g` with a split that tests `g` (missing:
iterating again duplicates the paths). -/
theorem C47_history_partial (c : Cpcv K) (s0 : State) (hinit : c.init = .ok s0) (ops : List Op)
    (paths : List (List (List ℕ × ℕ))) (h : c.paths (c.run ops s0).lists = .ok paths) :
    ∀ p ∈ paths, p.map Prod.fst = (List.range c.nGroups).map c.grp ∧
      ∀ (g : ℕ) (q : List ℕ × ℕ), p[g]? = some q → ∃ grps, c.choices[q.2]? = some grps ∧ g ∈ grps := by
  have hgood : Good c (c.run ops s0) := by
    have h0 : Good c s0 := by
      unfold Cpcv.init at hinit
      by_cases hN : c.nGroups = 0
      · rw [if_pos hN] at hinit; cases hinit
      · rw [if_neg hN] at hinit
        cases hinit
        refine ⟨by simp, ?_, by simp⟩
        intro g l hl i hi
        rw [List.getElem?_replicate] at hl
        by_cases hg : g < c.nGroups
        · rw [if_pos hg] at hl; cases hl; simp at hi
        · rw [if_neg hg] at hl; cases hl
    clear h hinit
    unfold Cpcv.run
    induction ops generalizing s0 with
    | nil => exact h0
    | cons op ops ih => exact ih _ (good_step c s0 h0 op)
  generalize (c.run ops s0) = s at h hgood
  obtain ⟨g1, g2, -⟩ := hgood
  unfold Cpcv.paths at h
  rw [py_bind_eq_ok] at h
  obtain ⟨m, _, h⟩ := h
  rw [mapM_eq_ok_iff] at h
  intro p hp
  obtain ⟨i, _, hi⟩ := forall₂_exists_right h p hp
  unfold Cpcv.path at hi
  rw [py_bind_eq_ok] at hi
  obtain ⟨splits, hsp, hi⟩ := hi
  cases hi
  rw [mapM_eq_ok_iff] at hsp
  have hlen : splits.length = c.nGroups := by rw [← hsp.length_eq, g1]
  refine ⟨by rw [List.map_fst_zip]; simp [hlen], ?_⟩
  intro g q hq
  have hq2 : splits[g]? = some q.2 := by
    rw [List.getElem?_zip_eq_some] at hq
    exact hq.2
  have hg : g < splits.length := by
    by_contra hc
    rw [List.getElem?_eq_none (not_lt.1 hc)] at hq2
    cases hq2
  have hgl : g < s.lists.length := by rw [g1, ← hlen]; exact hg
  have := (List.forall₂_iff_get.1 hsp).2 g hgl hg
  rw [pyGet_eq_ok_iff] at this
  rw [List.getElem?_eq_getElem hg] at hq2
  simp only [List.get_eq_getElem] at this
  rw [Option.some.inj hq2] at this
  exact g2 g _ (List.getElem?_eq_getElem hgl) _ (List.mem_of_getElem? this)

end FinML.CV
