import Verif.Labels.Spec
import Verif.Py.Lemmas

/-! # Helper lemmas for the triple barrier -/

set_option linter.unusedSectionVars false

namespace FinML.Labels

variable {K : Type} [Field K] [LinearOrder K] [IsStrictOrderedRing K]

theorem minTime_eq_some_iff (l : List ℤ) (t : ℤ) : minTime l = some t ↔ IsLeast {x | x ∈ l} t := by
  cases l with
  | nil => simp [minTime, IsLeast]
  | cons x xs =>
    simp only [minTime, Option.some.injEq]
    constructor
    · rintro rfl; exact foldl_min_isLeast x xs
    · intro h; exact (foldl_min_isLeast x xs).unique h

theorem minTime_eq_none_iff (l : List ℤ) : minTime l = none ↔ l = [] := by
  cases l <;> simp [minTime]

theorem find_time (prices : List (Row K)) (hs : SortedTable prices) (r : Row K) (hr : r ∈ prices) :
    prices.find? (fun q => q.time = r.time) = some r := by
  induction prices with
  | nil => simp at hr
  | cons a l ih =>
    unfold SortedTable at hs
    rw [List.map_cons, List.pairwise_cons] at hs
    rcases List.mem_cons.1 hr with rfl | h
    · simp
    · have hlt : a.time < r.time := hs.1 _ (List.mem_map.2 ⟨r, h, rfl⟩)
      rw [List.find?_cons_of_neg (by simp; omega)]
      exact ih hs.2 h

theorem rowAt_ok (prices : List (Row K)) (hs : SortedTable prices) (r : Row K) (hr : r ∈ prices) :
    rowAt prices r.time = .ok r := by
  unfold rowAt
  rw [find_time prices hs r hr]

theorem rowAt_eq_ok (prices : List (Row K)) (t : ℤ) (r : Row K) (h : rowAt prices t = .ok r) :
    r ∈ prices ∧ r.time = t := by
  unfold rowAt at h
  cases hf : prices.find? (fun q => q.time = t) with
  | none => rw [hf] at h; cases h
  | some q =>
    rw [hf] at h
    cases h
    exact ⟨List.mem_of_find?_eq_some hf, by simpa using List.find?_some hf⟩

theorem rowAt_error (prices : List (Row K)) (t : ℤ) (h : ∀ r ∈ prices, r.time ≠ t) :
    rowAt prices t = .error .keyError := by
  unfold rowAt
  rw [List.find?_eq_none.2 (by simpa using h)]

theorem atLabel_map {α : Type} (path : List (Row K)) (hs : SortedTable path) (f : Row K → α)
    (r : Row K) (hr : r ∈ path) :
    atLabel (path.map fun r => (r.time, f r)) r.time = .ok (f r) := by
  unfold atLabel
  have : (path.map fun r => (r.time, f r)).find? (fun p => p.1 = r.time) =
      (path.find? fun q => q.time = r.time).map fun r => (r.time, f r) := by
    rw [List.find?_map]
    rfl
  rw [this, find_time path hs r hr]
  rfl

theorem sorted_filter (prices : List (Row K)) (hs : SortedTable prices) (p : Row K → Bool) :
    SortedTable (prices.filter p) := by
  unfold SortedTable at *
  exact List.Pairwise.sublist (List.Sublist.map _ List.filter_sublist) hs

section Event

variable (prices : List (Row K)) (ptMul slMul : K) (e : Event K) (side : ℤ) (s0 : K) (expiry : ℤ)

/-- Side-adjusted return of the profit-taking path of one row. -/
theorem pt_ret (hside : side = 1 ∨ side = -1) (r : Row K) :
    (if side = 1 then retOf (some s0) r.high else negNan (retOf (some s0) r.low)) =
      (bestPrice side r).map (tradeRet side s0) := by
  rcases hside with rfl | rfl
  · simp only [if_true, bestPrice, retOf, Option.bind_some]
    congr 1; funext p; simp [tradeRet]
  · have : ¬ ((-1 : ℤ) = 1) := by decide
    simp only [if_neg this, bestPrice, retOf, Option.bind_some, negNan, Option.map_map]
    congr 1; funext p; simp [tradeRet]

theorem sl_ret (hside : side = 1 ∨ side = -1) (r : Row K) :
    (if side = 1 then retOf (some s0) r.low else negNan (retOf (some s0) r.high)) =
      (worstPrice side r).map (tradeRet side s0) := by
  rcases hside with rfl | rfl
  · simp only [if_true, worstPrice, retOf, Option.bind_some]
    congr 1; funext p; simp [tradeRet]
  · have : ¬ ((-1 : ℤ) = 1) := by decide
    simp only [if_neg this, worstPrice, retOf, Option.bind_some, negNan, Option.map_map]
    congr 1; funext p; simp [tradeRet]

/-- The bars between start and expiry. -/
def window : List (Row K) := prices.filter fun r => e.start ≤ r.time ∧ r.time ≤ expiry

theorem mem_window (r : Row K) :
    r ∈ window prices e expiry ↔ r ∈ prices ∧ e.start ≤ r.time ∧ r.time ≤ expiry := by
  simp [window]

/-- Times at which the profit-taking path exceeds the limit. -/
def ptTimes : List ℤ :=
  ((ptPath (window prices e expiry) (some s0) side).filter fun p =>
    gtNan p.2 (ptLimit ptMul e)).map Prod.fst

/-- Times at which the stop-loss path is below the limit. -/
def slTimes : List ℤ :=
  ((slPath (window prices e expiry) (some s0) side).filter fun p =>
    ltNan p.2 (slLimit slMul e)).map Prod.fst

theorem mem_ptTimes (hside : side = 1 ∨ side = -1) (t : ℤ) :
    t ∈ ptTimes prices ptMul e side s0 expiry ↔ HitsPT prices ptMul e side s0 expiry t := by
  unfold ptTimes ptPath HitsPT ptLimit
  simp only [List.mem_map, List.mem_filter, mem_window]
  constructor
  · rintro ⟨⟨_, x⟩, ⟨⟨r, ⟨h1, h2, h3⟩, h4⟩, h5⟩, rfl⟩
    cases h4
    simp only at h5
    rw [pt_ret side s0 hside] at h5
    by_cases hm : 0 < ptMul
    · rw [if_pos hm] at h5
      cases hb : bestPrice side r with
      | none => rw [hb] at h5; simp [gtNan] at h5
      | some p =>
        cases ht : e.target with
        | none => rw [hb, ht] at h5; simp [gtNan] at h5
        | some tg =>
          rw [hb, ht] at h5
          exact ⟨h2, h3, hm, r, h1, rfl, p, tg, hb, rfl, by simpa [gtNan] using h5⟩
    · rw [if_neg hm] at h5
      cases hb : (bestPrice side r).map (tradeRet side s0) <;> rw [hb] at h5 <;> simp [gtNan] at h5
  · rintro ⟨h2, h3, hm, r, h1, rfl, p, tg, hb, ht, h5⟩
    refine ⟨_, ⟨⟨r, ⟨h1, h2, h3⟩, rfl⟩, ?_⟩, rfl⟩
    simp only
    rw [pt_ret side s0 hside, hb, ht, if_pos hm]
    simpa [gtNan] using h5

theorem mem_slTimes (hside : side = 1 ∨ side = -1) (t : ℤ) :
    t ∈ slTimes prices slMul e side s0 expiry ↔ HitsSL prices slMul e side s0 expiry t := by
  unfold slTimes slPath HitsSL slLimit
  simp only [List.mem_map, List.mem_filter, mem_window]
  constructor
  · rintro ⟨⟨_, x⟩, ⟨⟨r, ⟨h1, h2, h3⟩, h4⟩, h5⟩, rfl⟩
    cases h4
    simp only at h5
    rw [sl_ret side s0 hside] at h5
    by_cases hm : 0 < slMul
    · rw [if_pos hm] at h5
      cases hb : worstPrice side r with
      | none => rw [hb] at h5; simp [ltNan] at h5
      | some p =>
        cases ht : e.target with
        | none => rw [hb, ht] at h5; simp [ltNan] at h5
        | some tg =>
          rw [hb, ht] at h5
          exact ⟨h2, h3, hm, r, h1, rfl, p, tg, hb, rfl, by simpa [ltNan] using h5⟩
    · rw [if_neg hm] at h5
      cases hb : (worstPrice side r).map (tradeRet side s0) <;> rw [hb] at h5 <;> simp [ltNan] at h5
  · rintro ⟨h2, h3, hm, r, h1, rfl, p, tg, hb, ht, h5⟩
    refine ⟨_, ⟨⟨r, ⟨h1, h2, h3⟩, rfl⟩, ?_⟩, rfl⟩
    simp only
    rw [sl_ret side s0 hside, hb, ht, if_pos hm]
    simpa [ltNan] using h5

/-- The outcome computed from the two hitting times. -/
def outcome : Py (Outcome K) :=
  match minTime (ptTimes prices ptMul e side s0 expiry),
        minTime (slTimes prices slMul e side s0 expiry) with
  | none, none => do
    let c ← rowAt prices expiry
    return ⟨none, none, expiry, retOf (some s0) c.close⟩
  | some p, none => do
    let x ← atLabel (ptPath (window prices e expiry) (some s0) side) p
    return ⟨some p, none, p, x⟩
  | none, some s => do
    let x ← atLabel (slPath (window prices e expiry) (some s0) side) s
    return ⟨none, some s, s, x⟩
  | some p, some s =>
    if p < s then do
      let x ← atLabel (ptPath (window prices e expiry) (some s0) side) p
      return ⟨some p, some s, p, x⟩
    else do
      let x ← atLabel (slPath (window prices e expiry) (some s0) side) s
      return ⟨some p, some s, s, x⟩

theorem evalEvent_eq (hs : SortedTable prices) (ht : Tradable prices e side s0 expiry) :
    evalEvent prices ptMul slMul e expiry = outcome prices ptMul slMul e side s0 expiry := by
  obtain ⟨r, hr, h1, h2⟩ := ht.start
  unfold evalEvent
  rw [← h1, rowAt_ok prices hs r hr, py_bind_ok]
  have hside : ¬ ¬ (side = -1 ∨ side = 1) := not_not.2 ht.side_ok.symm
  simp only [ht.side_eq, py_bind_ok, if_neg hside, h2, Option.some.injEq, if_neg ht.s0_ne, py_pure]
  rw [h1]
  rfl

theorem atLabel_pt (hs : SortedTable prices) (hside : side = 1 ∨ side = -1) (r : Row K)
    (hr : r ∈ window prices e expiry) :
    atLabel (ptPath (window prices e expiry) (some s0) side) r.time =
      .ok ((bestPrice side r).map (tradeRet side s0)) := by
  unfold ptPath
  rw [atLabel_map (window prices e expiry) (sorted_filter _ hs _) _ r hr, pt_ret side s0 hside]

theorem atLabel_sl (hs : SortedTable prices) (hside : side = 1 ∨ side = -1) (r : Row K)
    (hr : r ∈ window prices e expiry) :
    atLabel (slPath (window prices e expiry) (some s0) side) r.time =
      .ok ((worstPrice side r).map (tradeRet side s0)) := by
  unfold slPath
  rw [atLabel_map (window prices e expiry) (sorted_filter _ hs _) _ r hr, sl_ret side s0 hside]

/-- What `evalEvent` returns, in terms of the first crossings. -/
theorem evalEvent_spec (hs : SortedTable prices) (ht : Tradable prices e side s0 expiry) :
    ∃ o, evalEvent prices ptMul slMul e expiry = .ok o ∧
      EndsAtFirstBarrier prices ptMul slMul e side s0 expiry o ∧
      (HitsSL prices slMul e side s0 expiry o.endTime →
        ∃ r ∈ prices, r.time = o.endTime ∧ ∃ p, worstPrice side r = some p ∧
          o.ret = some (tradeRet side s0 p)) ∧
      (¬ HitsSL prices slMul e side s0 expiry o.endTime →
        HitsPT prices ptMul e side s0 expiry o.endTime →
        ∃ r ∈ prices, r.time = o.endTime ∧ ∃ p, bestPrice side r = some p ∧
          o.ret = some (tradeRet side s0 p)) ∧
      ((∀ t, ¬ HitsPT prices ptMul e side s0 expiry t ∧ ¬ HitsSL prices slMul e side s0 expiry t) →
        ∃ r ∈ prices, r.time = expiry ∧ o.ret = r.close.map fun c => c / s0 - 1) := by
  have hside := ht.side_ok
  rw [evalEvent_eq prices ptMul slMul e side s0 expiry hs ht]
  have hPmem := mem_ptTimes prices ptMul e side s0 expiry hside
  have hSmem := mem_slTimes prices slMul e side s0 expiry hside
  have hPset : {x | x ∈ ptTimes prices ptMul e side s0 expiry} =
      {t | HitsPT prices ptMul e side s0 expiry t} := by
    ext t; exact hPmem t
  have hSset : {x | x ∈ slTimes prices slMul e side s0 expiry} =
      {t | HitsSL prices slMul e side s0 expiry t} := by
    ext t; exact hSmem t
  have hPn : minTime (ptTimes prices ptMul e side s0 expiry) = none ↔
      ∀ t, ¬ HitsPT prices ptMul e side s0 expiry t := by
    rw [minTime_eq_none_iff, List.eq_nil_iff_forall_not_mem]
    exact forall_congr' fun t => not_congr (hPmem t)
  have hSn : minTime (slTimes prices slMul e side s0 expiry) = none ↔
      ∀ t, ¬ HitsSL prices slMul e side s0 expiry t := by
    rw [minTime_eq_none_iff, List.eq_nil_iff_forall_not_mem]
    exact forall_congr' fun t => not_congr (hSmem t)
  have hPs : ∀ t, minTime (ptTimes prices ptMul e side s0 expiry) = some t ↔
      IsLeast {t | HitsPT prices ptMul e side s0 expiry t} t := by
    intro t; rw [minTime_eq_some_iff, hPset]
  have hSs : ∀ t, minTime (slTimes prices slMul e side s0 expiry) = some t ↔
      IsLeast {t | HitsSL prices slMul e side s0 expiry t} t := by
    intro t; rw [minTime_eq_some_iff, hSset]
  have hPat : ∀ t, HitsPT prices ptMul e side s0 expiry t →
      ∃ r ∈ prices, r.time = t ∧ ∃ p, bestPrice side r = some p ∧
        atLabel (ptPath (window prices e expiry) (some s0) side) t =
          .ok (some (tradeRet side s0 p)) := by
    rintro t ⟨h1, h2, _, r, hr, rfl, p, tg, hb, _, _⟩
    refine ⟨r, hr, rfl, p, hb, ?_⟩
    rw [atLabel_pt prices e side s0 expiry hs hside r ((mem_window _ _ _ _).2 ⟨hr, h1, h2⟩), hb]
    rfl
  have hSat : ∀ t, HitsSL prices slMul e side s0 expiry t →
      ∃ r ∈ prices, r.time = t ∧ ∃ p, worstPrice side r = some p ∧
        atLabel (slPath (window prices e expiry) (some s0) side) t =
          .ok (some (tradeRet side s0 p)) := by
    rintro t ⟨h1, h2, _, r, hr, rfl, p, tg, hb, _, _⟩
    refine ⟨r, hr, rfl, p, hb, ?_⟩
    rw [atLabel_sl prices e side s0 expiry hs hside r ((mem_window _ _ _ _).2 ⟨hr, h1, h2⟩), hb]
    rfl
  unfold outcome
  cases hp : minTime (ptTimes prices ptMul e side s0 expiry) with
  | none =>
    have hnoP := hPn.1 hp
    cases hq : minTime (slTimes prices slMul e side s0 expiry) with
    | none =>
      have hnoS := hSn.1 hq
      obtain ⟨r, hr, hrt⟩ := ht.expiry_mem
      simp only
      rw [← hrt, rowAt_ok prices hs r hr, py_bind_ok]
      refine ⟨_, rfl, ⟨?_, ?_, ?_, ?_, ?_, ?_⟩, ?_, ?_, ?_⟩
      · exact ⟨fun _ => hrt ▸ hnoP, fun _ => rfl⟩
      · intro t; rw [hrt, ← hPs t, hp]
      · exact ⟨fun _ => hrt ▸ hnoS, fun _ => rfl⟩
      · intro t; rw [hrt, ← hSs t, hq]
      · intro t ht'
        rw [hrt] at ht'
        rcases ht' with h | h
        · exact absurd h (hnoP t)
        · exact absurd h (hnoS t)
      · intro _; rfl
      · intro h; rw [hrt] at h; exact absurd h (hnoS _)
      · intro _ h; rw [hrt] at h; exact absurd h (hnoP _)
      · intro _; exact ⟨r, hr, rfl, rfl⟩
    | some s =>
      have hS := (hSs s).1 hq
      obtain ⟨r, hr, hrt, p, hb, hat⟩ := hSat s hS.1
      simp only
      rw [hat, py_bind_ok]
      refine ⟨_, rfl, ⟨?_, ?_, ?_, ?_, ?_, ?_⟩, ?_, ?_, ?_⟩
      · exact ⟨fun _ => hnoP, fun _ => rfl⟩
      · intro t; rw [← hPs t, hp]
      · refine ⟨fun h => (by cases h), fun h => absurd hS.1 (h s)⟩
      · intro t; rw [← hSs t, hq]
      · intro t _
        exact ⟨Or.inr hS.1, fun u hu => hu.elim (fun h => absurd h (hnoP u)) (fun h => hS.2 h)⟩
      · intro h; exact absurd hS.1 (h s).2
      · intro _; exact ⟨r, hr, hrt, p, hb, rfl⟩
      · intro h; exact absurd hS.1 h
      · intro h; exact absurd hS.1 (h s).2
  | some p =>
    have hP := (hPs p).1 hp
    cases hq : minTime (slTimes prices slMul e side s0 expiry) with
    | none =>
      have hnoS := hSn.1 hq
      obtain ⟨r, hr, hrt, x, hb, hat⟩ := hPat p hP.1
      simp only
      rw [hat, py_bind_ok]
      refine ⟨_, rfl, ⟨?_, ?_, ?_, ?_, ?_, ?_⟩, ?_, ?_, ?_⟩
      · refine ⟨fun h => (by cases h), fun h => absurd hP.1 (h p)⟩
      · intro t; rw [← hPs t, hp]
      · exact ⟨fun _ => hnoS, fun _ => rfl⟩
      · intro t; rw [← hSs t, hq]
      · intro t _
        exact ⟨Or.inl hP.1, fun u hu => hu.elim (fun h => hP.2 h) (fun h => absurd h (hnoS u))⟩
      · intro h; exact absurd hP.1 (h p).1
      · intro h; exact absurd h (hnoS _)
      · intro _ _; exact ⟨r, hr, hrt, x, hb, rfl⟩
      · intro h; exact absurd hP.1 (h p).1
    | some s =>
      have hS := (hSs s).1 hq
      simp only
      by_cases hlt : p < s
      · rw [if_pos hlt]
        obtain ⟨r, hr, hrt, x, hb, hat⟩ := hPat p hP.1
        rw [hat, py_bind_ok]
        refine ⟨_, rfl, ⟨?_, ?_, ?_, ?_, ?_, ?_⟩, ?_, ?_, ?_⟩
        · refine ⟨fun h => (by cases h), fun h => absurd hP.1 (h p)⟩
        · intro t; rw [← hPs t, hp]
        · refine ⟨fun h => (by cases h), fun h => absurd hS.1 (h s)⟩
        · intro t; rw [← hSs t, hq]
        · intro t _
          exact ⟨Or.inl hP.1, fun u hu => hu.elim (fun h => hP.2 h)
            (fun h => hlt.le.trans (hS.2 h))⟩
        · intro h; exact absurd hP.1 (h p).1
        · intro h; exact absurd (hS.2 h) (not_le.2 hlt)
        · intro _ _; exact ⟨r, hr, hrt, x, hb, rfl⟩
        · intro h; exact absurd hP.1 (h p).1
      · rw [if_neg hlt]
        obtain ⟨r, hr, hrt, x, hb, hat⟩ := hSat s hS.1
        rw [hat, py_bind_ok]
        refine ⟨_, rfl, ⟨?_, ?_, ?_, ?_, ?_, ?_⟩, ?_, ?_, ?_⟩
        · refine ⟨fun h => (by cases h), fun h => absurd hP.1 (h p)⟩
        · intro t; rw [← hPs t, hp]
        · refine ⟨fun h => (by cases h), fun h => absurd hS.1 (h s)⟩
        · intro t; rw [← hSs t, hq]
        · intro t _
          exact ⟨Or.inr hS.1, fun u hu => hu.elim (fun h => (not_lt.1 hlt).trans (hP.2 h))
            (fun h => hS.2 h)⟩
        · intro h; exact absurd hP.1 (h p).1
        · intro _; exact ⟨r, hr, hrt, x, hb, rfl⟩
        · intro h; exact absurd hS.1 h
        · intro h; exact absurd hP.1 (h p).1

end Event

end FinML.Labels
