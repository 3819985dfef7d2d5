import Verif.Labels.FloatModel
import Verif.Labels.Lemmas
import Mathlib.Algebra.Order.Ring.Rat

/-! # Events that start at a price of zero (C290) -/

namespace FinML.Labels

variable {K : Type} [Field K] [LinearOrder K] [IsStrictOrderedRing K]

/-- An outcome with its return as a float. -/
def asFloat (o : Outcome K) : OutcomeF K := ⟨o.ptTime, o.slTime, o.endTime, fltOf o.ret⟩

omit [IsStrictOrderedRing K] in
private theorem retF_eq (s p : Option K) (h : s ≠ some 0) : retF s p = fltOf (retOf s p) := by
  cases s with
  | none => cases p <;> rfl
  | some s =>
    have h0 : s ≠ 0 := fun e => h (by rw [e])
    cases p with
    | none => rfl
    | some p => simp [retF, retOf, fltOf, Flt.div, h0, Flt.sub, Flt.neg, Flt.add, sub_eq_add_neg]

omit [LinearOrder K] [IsStrictOrderedRing K] in
private theorem neg_fltOf (x : Option K) : Flt.neg (fltOf x) = fltOf (negNan x) := by cases x <;> rfl

omit [Field K] [IsStrictOrderedRing K] in
private theorem gt_eq (x l : Option K) : ltF (fltOf l) (fltOf x) = gtNan x l := by cases x <;> cases l <;> rfl

omit [Field K] [IsStrictOrderedRing K] in
private theorem lt_eq (x l : Option K) : ltF (fltOf x) (fltOf l) = ltNan x l := by cases x <;> cases l <;> rfl

omit [Field K] [LinearOrder K] [IsStrictOrderedRing K] in
private theorem atLabel_flt (l : List (ℤ × Option K)) (t : ℤ) (x : Option K) (h : atLabel l t = .ok x) :
    atLabel (l.map fun p => (p.1, fltOf p.2)) t = .ok (fltOf x) := by
  unfold atLabel at h ⊢
  rw [List.find?_map]
  have e : ((fun p : ℤ × Flt K => decide (p.1 = t)) ∘ fun p : ℤ × Option K => (p.1, fltOf p.2)) =
      fun p => decide (p.1 = t) := rfl
  rw [e]
  cases hf : l.find? (fun p => decide (p.1 = t)) with
  | none => rw [hf] at h; cases h
  | some q => rw [hf] at h; cases h; rfl

omit [IsStrictOrderedRing K] in
/-- C290. Where the exact model gives an outcome, floats give the same. -/
theorem C290_agree (prices : List (Row K)) (ptMul slMul : K) (e : Event K) (expiry : ℤ) (o : Outcome K)
    (h : evalEvent prices ptMul slMul e expiry = .ok o) :
    evalEventF prices ptMul slMul e expiry = .ok (asFloat o) := by
  unfold evalEvent at h
  unfold evalEventF
  rw [py_bind_eq_ok] at h
  obtain ⟨r, h1, h⟩ := h
  rw [h1, py_bind_ok]
  cases hs : e.side with
  | none => rw [hs] at h; cases h
  | some side =>
    rw [hs] at h
    simp only [py_bind_ok] at h ⊢
    by_cases hside : ¬ (side = -1 ∨ side = 1)
    · rw [if_pos hside] at h
      cases h
    rw [if_neg hside] at h ⊢
    simp only [py_pure] at h ⊢
    by_cases h0 : r.op = some 0
    · rw [if_pos h0] at h
      cases h
    rw [if_neg h0] at h
    generalize prices.filter (fun r => e.start ≤ r.time ∧ r.time ≤ expiry) = path at h
    have e1 : ptPathF path r.op side = (ptPath path r.op side).map fun p => (p.1, fltOf p.2) := by
      unfold ptPathF ptPath
      rw [List.map_map]
      refine List.map_congr_left fun q _ => ?_
      dsimp only [Function.comp]
      rw [retF_eq _ _ h0, retF_eq _ _ h0, neg_fltOf]
      split_ifs <;> rfl
    have e2 : slPathF path r.op side = (slPath path r.op side).map fun p => (p.1, fltOf p.2) := by
      unfold slPathF slPath
      rw [List.map_map]
      refine List.map_congr_left fun q _ => ?_
      dsimp only [Function.comp]
      rw [retF_eq _ _ h0, retF_eq _ _ h0, neg_fltOf]
      split_ifs <;> rfl
    have e3 : ((ptPathF path r.op side).filter fun p => ltF (fltOf (ptLimit ptMul e)) p.2).map Prod.fst =
        ((ptPath path r.op side).filter fun p => gtNan p.2 (ptLimit ptMul e)).map Prod.fst := by
      rw [e1, List.filter_map, List.map_map]
      simp only [Function.comp_def, gt_eq]
    have e4 : ((slPathF path r.op side).filter fun p => ltF p.2 (fltOf (slLimit slMul e))).map Prod.fst =
        ((slPath path r.op side).filter fun p => ltNan p.2 (slLimit slMul e)).map Prod.fst := by
      rw [e2, List.filter_map, List.map_map]
      simp only [Function.comp_def, lt_eq]
    rw [e3, e4]
    generalize minTime (((ptPath path r.op side).filter fun p => gtNan p.2 (ptLimit ptMul e)).map Prod.fst) = tp at h
    generalize minTime (((slPath path r.op side).filter fun p => ltNan p.2 (slLimit slMul e)).map Prod.fst) = ts at h
    rw [e1, e2]
    cases tp with
    | none =>
      cases ts with
      | none =>
        simp only [py_bind_eq_ok] at h
        obtain ⟨c, hc, h⟩ := h
        cases h
        simp only [hc, py_bind_ok, retF_eq _ _ h0]
        rfl
      | some s =>
        simp only [py_bind_eq_ok] at h
        obtain ⟨x, hx, h⟩ := h
        cases h
        simp only [atLabel_flt _ _ _ hx, py_bind_ok]
        rfl
    | some p =>
      cases ts with
      | none =>
        simp only [py_bind_eq_ok] at h
        obtain ⟨x, hx, h⟩ := h
        cases h
        simp only [atLabel_flt _ _ _ hx, py_bind_ok]
        rfl
      | some s =>
        dsimp only at h ⊢
        by_cases hps : p < s
        · rw [if_pos hps] at h ⊢
          simp only [py_bind_eq_ok] at h
          obtain ⟨x, hx, h⟩ := h
          cases h
          simp only [atLabel_flt _ _ _ hx, py_bind_ok]
          rfl
        · rw [if_neg hps] at h ⊢
          simp only [py_bind_eq_ok] at h
          obtain ⟨x, hx, h⟩ := h
          cases h
          simp only [atLabel_flt _ _ _ hx, py_bind_ok]
          rfl

/-- No price is negative. -/
def NonNeg (prices : List (Row K)) : Prop :=
  ∀ r ∈ prices, ∀ x, r.op = some x ∨ r.high = some x ∨ r.low = some x ∨ r.close = some x → 0 ≤ x

/-- The first bar of the event, from its start to its expiry, whose high is positive. -/
def FirstPositive (prices : List (Row K)) (start expiry t : ℤ) : Prop :=
  IsLeast {u | start ≤ u ∧ u ≤ expiry ∧ ∃ r ∈ prices, r.time = u ∧ ∃ x, r.high = some x ∧ 0 < x} t

omit [IsStrictOrderedRing K] in
private theorem retF_zero (p : Option K) (hp : ∀ x, p = some x → 0 ≤ x) :
    retF (some 0) p = if ∃ x, p = some x ∧ 0 < x then .posInf else .nan := by
  cases p with
  | none => simp [retF, fltOf, Flt.div, Flt.sub, Flt.neg, Flt.add]
  | some x =>
    have := hp x rfl
    by_cases hx : 0 < x
    · simp [retF, fltOf, Flt.div, Flt.infOf, hx, Flt.sub, Flt.neg, Flt.add]
    · simp [retF, fltOf, Flt.div, Flt.infOf, hx, not_lt.2 this, Flt.sub, Flt.neg, Flt.add]

omit [IsStrictOrderedRing K] in
/-- What is left of the loop body for a start price of zero. -/
private theorem eval_zero (prices : List (Row K)) (ptMul slMul : K) (e : Event K) (expiry side : ℤ) (r0 : Row K)
    (h0 : rowAt prices e.start = .ok r0) (hz : r0.op = some 0) (hs : e.side = some side) (hside : side = -1 ∨ side = 1)
    (tp ts : Option ℤ)
    (hp : minTime (((ptPathF (window prices e expiry) (some 0) side).filter fun p =>
      ltF (fltOf (ptLimit ptMul e)) p.2).map Prod.fst) = tp)
    (hl : minTime (((slPathF (window prices e expiry) (some 0) side).filter fun p =>
      ltF p.2 (fltOf (slLimit slMul e))).map Prod.fst) = ts) :
    (tp = none → ts = none → evalEventF prices ptMul slMul e expiry =
      (rowAt prices expiry >>= fun c => pure ⟨none, none, expiry, retF (some 0) c.close⟩)) ∧
    (∀ p, tp = some p → ts = none → evalEventF prices ptMul slMul e expiry =
      (atLabel (ptPathF (window prices e expiry) (some 0) side) p >>= fun x => pure ⟨some p, none, p, x⟩)) ∧
    (∀ s, tp = none → ts = some s → evalEventF prices ptMul slMul e expiry =
      (atLabel (slPathF (window prices e expiry) (some 0) side) s >>= fun x => pure ⟨none, some s, s, x⟩)) := by
  unfold window at hp hl ⊢
  unfold evalEventF
  rw [h0, py_bind_ok]
  simp only [hs, py_bind_ok, if_neg (not_not.2 hside), hz, py_pure, hp, hl]
  refine ⟨?_, ?_, ?_⟩
  · rintro rfl rfl
    rfl
  · rintro p rfl rfl
    rfl
  · rintro s rfl rfl
    rfl

/-- C290. A long event that starts at a price of zero, with a profit barrier and a target: it never stops out, and takes
profit at the first bar with a positive high, with an infinite return. -/
theorem C290_long (prices : List (Row K)) (hs : SortedTable prices) (hn : NonNeg prices) (ptMul slMul x : K)
    (hpt : 0 < ptMul) (e : Event K) (he : e.side = some 1) (htg : e.target = some x) (r0 : Row K) (hr0 : r0 ∈ prices)
    (ht0 : r0.time = e.start) (hz : r0.op = some 0) (expiry t : ℤ) (ht : FirstPositive prices e.start expiry t) :
    evalEventF prices ptMul slMul e expiry = .ok ⟨some t, none, t, .posInf⟩ := by
  have h0 : rowAt prices e.start = .ok r0 := ht0 ▸ rowAt_ok prices hs r0 hr0
  have hit (r : Row K) (hr : r ∈ prices) : retF (some 0) r.high = if ∃ x, r.high = some x ∧ 0 < x then .posInf else .nan :=
    retF_zero _ fun x hx => hn r hr x (.inr (.inl hx))
  have hp : minTime (((ptPathF (window prices e expiry) (some 0) 1).filter fun p =>
      ltF (fltOf (ptLimit ptMul e)) p.2).map Prod.fst) = some t := by
    rw [minTime_eq_some_iff]
    unfold FirstPositive at ht
    convert ht using 2
    ext u
    simp only [List.mem_map, List.mem_filter, ptPathF, if_true]
    constructor
    · rintro ⟨p, ⟨⟨r, hr, rfl⟩, hlt⟩, rfl⟩
      rw [mem_window] at hr
      refine ⟨hr.2.1, hr.2.2, r, hr.1, rfl, ?_⟩
      by_contra hc
      rw [hit r hr.1, if_neg hc] at hlt
      simp [ltF, ptLimit, hpt, htg, fltOf] at hlt
    · rintro ⟨h1, h2, r, hr, rfl, hx⟩
      refine ⟨(r.time, retF (some 0) r.high), ⟨⟨r, (mem_window _ _ _ _).2 ⟨hr, h1, h2⟩, rfl⟩, ?_⟩, rfl⟩
      rw [hit r hr, if_pos hx]
      simp [ltF, ptLimit, hpt, htg, fltOf]
  have hl : minTime (((slPathF (window prices e expiry) (some 0) 1).filter fun p =>
      ltF p.2 (fltOf (slLimit slMul e))).map Prod.fst) = none := by
    rw [minTime_eq_none_iff, List.map_eq_nil_iff, List.filter_eq_nil_iff]
    intro p hp
    simp only [slPathF, if_true, List.mem_map] at hp
    obtain ⟨r, hr, rfl⟩ := hp
    rw [mem_window] at hr
    have := retF_zero r.low fun x hx => hn r hr.1 x (.inr (.inr (.inl hx)))
    dsimp only
    rw [this]
    split_ifs
    · cases fltOf (slLimit slMul e) <;> simp [ltF]
    · simp [ltF]
  rw [(eval_zero prices ptMul slMul e expiry 1 r0 h0 hz he (.inr rfl) _ _ hp hl).2.1 t rfl rfl]
  obtain ⟨⟨h1, h2, r, hr, rfl, hx⟩, -⟩ := ht
  have := atLabel_map (window prices e expiry) (sorted_filter _ hs _)
    (fun r => if (1 : ℤ) = 1 then retF (some 0) r.high else Flt.neg (retF (some 0) r.low)) r
    ((mem_window _ _ _ _).2 ⟨hr, h1, h2⟩)
  unfold ptPathF
  rw [this, py_bind_ok, if_pos rfl, hit r hr, if_pos hx]
  rfl

/-- C290. A short event that starts at a price of zero, with a stop and a target: it never takes profit, and stops out at
the first bar with a positive high, with a return of minus infinity. -/
theorem C290_short (prices : List (Row K)) (hs : SortedTable prices) (hn : NonNeg prices) (ptMul slMul x : K)
    (hsl : 0 < slMul) (e : Event K) (he : e.side = some (-1)) (htg : e.target = some x) (r0 : Row K) (hr0 : r0 ∈ prices)
    (ht0 : r0.time = e.start) (hz : r0.op = some 0) (expiry t : ℤ) (ht : FirstPositive prices e.start expiry t) :
    evalEventF prices ptMul slMul e expiry = .ok ⟨none, some t, t, .negInf⟩ := by
  have h0 : rowAt prices e.start = .ok r0 := ht0 ▸ rowAt_ok prices hs r0 hr0
  have hm : ¬ ((-1 : ℤ) = 1) := by decide
  have hit (r : Row K) (hr : r ∈ prices) :
      Flt.neg (retF (some 0) r.high) = if ∃ x, r.high = some x ∧ 0 < x then .negInf else .nan := by
    rw [retF_zero _ fun x hx => hn r hr x (.inr (.inl hx))]
    split_ifs <;> rfl
  have hl : minTime (((slPathF (window prices e expiry) (some 0) (-1)).filter fun p =>
      ltF p.2 (fltOf (slLimit slMul e))).map Prod.fst) = some t := by
    rw [minTime_eq_some_iff]
    unfold FirstPositive at ht
    convert ht using 2
    ext u
    simp only [List.mem_map, List.mem_filter, slPathF, if_neg hm]
    constructor
    · rintro ⟨p, ⟨⟨r, hr, rfl⟩, hlt⟩, rfl⟩
      rw [mem_window] at hr
      refine ⟨hr.2.1, hr.2.2, r, hr.1, rfl, ?_⟩
      by_contra hc
      rw [hit r hr.1, if_neg hc] at hlt
      simp [ltF] at hlt
    · rintro ⟨h1, h2, r, hr, rfl, hx⟩
      refine ⟨(r.time, Flt.neg (retF (some 0) r.high)), ⟨⟨r, (mem_window _ _ _ _).2 ⟨hr, h1, h2⟩, rfl⟩, ?_⟩, rfl⟩
      rw [hit r hr, if_pos hx]
      simp [ltF, slLimit, hsl, htg, fltOf]
  have hp : minTime (((ptPathF (window prices e expiry) (some 0) (-1)).filter fun p =>
      ltF (fltOf (ptLimit ptMul e)) p.2).map Prod.fst) = none := by
    rw [minTime_eq_none_iff, List.map_eq_nil_iff, List.filter_eq_nil_iff]
    intro p hp
    simp only [ptPathF, if_neg hm, List.mem_map] at hp
    obtain ⟨r, hr, rfl⟩ := hp
    rw [mem_window] at hr
    have := retF_zero r.low fun x hx => hn r hr.1 x (.inr (.inr (.inl hx)))
    dsimp only
    rw [this]
    split_ifs <;> cases fltOf (ptLimit ptMul e) <;> simp [ltF, Flt.neg]
  rw [(eval_zero prices ptMul slMul e expiry (-1) r0 h0 hz he (.inl rfl) _ _ hp hl).2.2 t rfl rfl]
  obtain ⟨⟨h1, h2, r, hr, rfl, hx⟩, -⟩ := ht
  have := atLabel_map (window prices e expiry) (sorted_filter _ hs _)
    (fun r => if (-1 : ℤ) = 1 then retF (some 0) r.low else Flt.neg (retF (some 0) r.high)) r
    ((mem_window _ _ _ _).2 ⟨hr, h1, h2⟩)
  unfold slPathF
  rw [this, py_bind_ok, if_neg hm, hit r hr, if_pos hx]
  rfl

/-- C290, full claim: when every price is a number and none is negative, so is the return of an event, whatever the
price it starts at. -/
def FiniteReturns (K : Type) [Field K] [LinearOrder K] : Prop :=
  ∀ (prices : List (Row K)) (ptMul slMul : K) (e : Event K) (expiry : ℤ) (o : OutcomeF K),
    NonNeg prices → (∀ r ∈ prices, r.op.isSome ∧ r.high.isSome ∧ r.low.isSome ∧ r.close.isSome) →
    evalEventF prices ptMul slMul e expiry = .ok o → ∃ x, o.ret = .fin x

/-- A price that opens at zero and closes at one dollar. -/
def fromZero : List (Row ℚ) := [⟨0, some 0, some 1, some 0, some 1⟩, ⟨1, some 1, some 2, some 1, some 2⟩]

/-- C290, counterexample: long and short events that start at zero, with infinite returns. -/
theorem C290_finite_counterexample : ¬ FiniteReturns ℚ ∧
    evalEventF fromZero 1 1 ⟨0, none, some 1, some 1⟩ 1 = .ok ⟨some 0, none, 0, .posInf⟩ ∧
    evalEventF fromZero 1 1 ⟨0, none, some 1, some (-1)⟩ 1 = .ok ⟨none, some 0, 0, .negInf⟩ := by
  have h1 : evalEventF fromZero 1 1 ⟨0, none, some 1, some 1⟩ 1 = .ok ⟨some 0, none, 0, .posInf⟩ := by decide +kernel
  refine ⟨fun h => ?_, h1, by decide +kernel⟩
  obtain ⟨x, hx⟩ := h fromZero 1 1 _ 1 _ (by
    intro r hr x hx
    simp only [fromZero, List.mem_cons, List.not_mem_nil, or_false] at hr
    rcases hr with rfl | rfl <;> rcases hx with hx | hx | hx | hx <;> cases hx <;> norm_num)
    (by decide +kernel) h1
  cases hx

/-- C290. When every price is a number and the price at the start is not zero, the return of an event is a number. -/
theorem C290_finite_partial (prices : List (Row K)) (ptMul slMul : K) (e : Event K) (expiry : ℤ) (o : OutcomeF K)
    (hsome : ∀ r ∈ prices, r.op.isSome ∧ r.high.isSome ∧ r.low.isSome ∧ r.close.isSome)
    (hz : ∀ r ∈ prices, r.time = e.start → r.op ≠ some 0)
    (h : evalEventF prices ptMul slMul e expiry = .ok o) : ∃ x, o.ret = .fin x := by
  have key (s p : Option K) (hs : s.isSome) (h0 : s ≠ some 0) (hp : p.isSome) : ∃ x, retF s p = .fin x := by
    obtain ⟨s, rfl⟩ := Option.isSome_iff_exists.1 hs
    obtain ⟨p, rfl⟩ := Option.isSome_iff_exists.1 hp
    exact ⟨_, retF_eq _ _ h0⟩
  have keyn (s p : Option K) (hs : s.isSome) (h0 : s ≠ some 0) (hp : p.isSome) : ∃ x, Flt.neg (retF s p) = .fin x := by
    obtain ⟨x, hx⟩ := key s p hs h0 hp
    rw [hx]
    exact ⟨_, rfl⟩
  have lab (l : List (ℤ × Flt K)) (t : ℤ) (x : Flt K) (hx : atLabel l t = .ok x) : ∃ p ∈ l, p.2 = x := by
    unfold atLabel at hx
    cases hf : l.find? (fun p => decide (p.1 = t)) with
    | none => rw [hf] at hx; cases hx
    | some q => rw [hf] at hx; cases hx; exact ⟨q, List.mem_of_find?_eq_some hf, rfl⟩
  unfold evalEventF at h
  rw [py_bind_eq_ok] at h
  obtain ⟨r, h1, h⟩ := h
  obtain ⟨hr, hrt⟩ := rowAt_eq_ok _ _ _ h1
  have hr0 := hz r hr hrt
  have hrs := (hsome r hr).1
  cases hs : e.side with
  | none => rw [hs] at h; cases h
  | some side =>
    rw [hs] at h
    simp only [py_bind_ok] at h
    by_cases hside : ¬ (side = -1 ∨ side = 1)
    · rw [if_pos hside] at h
      cases h
    rw [if_neg hside] at h
    simp only [py_pure] at h
    generalize hpath : prices.filter (fun r => e.start ≤ r.time ∧ r.time ≤ expiry) = path at h
    have sub : ∀ q ∈ path, q ∈ prices := fun q hq => List.mem_of_mem_filter (hpath ▸ hq)
    have f1 : ∀ p ∈ ptPathF path r.op side, ∃ x, p.2 = .fin x := by
      intro p hp
      obtain ⟨q, hq, rfl⟩ := List.mem_map.1 hp
      have hq := hsome q (sub q hq)
      dsimp only
      split_ifs
      · exact key _ _ hrs hr0 hq.2.1
      · exact keyn _ _ hrs hr0 hq.2.2.1
    have f2 : ∀ p ∈ slPathF path r.op side, ∃ x, p.2 = .fin x := by
      intro p hp
      obtain ⟨q, hq, rfl⟩ := List.mem_map.1 hp
      have hq := hsome q (sub q hq)
      dsimp only
      split_ifs
      · exact key _ _ hrs hr0 hq.2.2.1
      · exact keyn _ _ hrs hr0 hq.2.1
    have g1 (t : ℤ) (x : Flt K) (hx : atLabel (ptPathF path r.op side) t = .ok x) : ∃ y, x = .fin y := by
      obtain ⟨p, hp, rfl⟩ := lab _ _ _ hx
      exact f1 p hp
    have g2 (t : ℤ) (x : Flt K) (hx : atLabel (slPathF path r.op side) t = .ok x) : ∃ y, x = .fin y := by
      obtain ⟨p, hp, rfl⟩ := lab _ _ _ hx
      exact f2 p hp
    generalize minTime (((ptPathF path r.op side).filter fun p => ltF (fltOf (ptLimit ptMul e)) p.2).map Prod.fst) = tp at h
    generalize minTime (((slPathF path r.op side).filter fun p => ltF p.2 (fltOf (slLimit slMul e))).map Prod.fst) = ts at h
    cases tp with
    | none =>
      cases ts with
      | none =>
        simp only [py_bind_eq_ok] at h
        obtain ⟨c, hc, h⟩ := h
        cases h
        exact key _ _ hrs hr0 (hsome c (rowAt_eq_ok _ _ _ hc).1).2.2.2
      | some s =>
        simp only [py_bind_eq_ok] at h
        obtain ⟨x, hx, h⟩ := h
        cases h
        exact g2 _ _ hx
    | some p =>
      cases ts with
      | none =>
        simp only [py_bind_eq_ok] at h
        obtain ⟨x, hx, h⟩ := h
        cases h
        exact g1 _ _ hx
      | some s =>
        dsimp only at h
        by_cases hps : p < s
        · rw [if_pos hps] at h
          simp only [py_bind_eq_ok] at h
          obtain ⟨x, hx, h⟩ := h
          cases h
          exact g1 _ _ hx
        · rw [if_neg hps] at h
          simp only [py_bind_eq_ok] at h
          obtain ⟨x, hx, h⟩ := h
          cases h
          exact g2 _ _ hx

/-- The table `fromZero` meets the hypotheses of the theorems on events that start at zero, and an event that starts at
its second bar those of the last one. -/
example : SortedTable fromZero ∧ FirstPositive fromZero 0 1 0 ∧
    evalEventF fromZero 1 1 ⟨1, none, some (1 / 2), some 1⟩ 1 = .ok ⟨some 1, none, 1, .fin 1⟩ := by
  refine ⟨by unfold SortedTable; decide, ⟨⟨le_rfl, by decide, _, List.mem_cons_self, rfl, 1, rfl, by norm_num⟩, fun u hu => hu.1⟩,
    by decide +kernel⟩

end FinML.Labels
