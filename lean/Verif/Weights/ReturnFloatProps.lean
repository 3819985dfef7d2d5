import Verif.Weights.FloatModel
import Verif.Weights.DecayFloatProps
import Verif.Weights.Props

/-!
# C299: weights by returns with infinities and NaN
-/

namespace FinML.Weights

/-! ## Sums -/

theorem fold_fin (l : List ℝ) (a : ℝ) :
    (l.map fun x => (FinML.Flt.fin x)).foldl FinML.Flt.add (.fin a) = .fin (a + l.sum) := by
  induction l generalizing a with
  | nil => simp
  | cons x xs ih =>
    rw [List.map_cons, List.foldl_cons, List.sum_cons, ← add_assoc]
    exact ih (a + x)

theorem fold_nan (l : List (FinML.Flt ℝ)) : l.foldl FinML.Flt.add .nan = .nan := by
  induction l with
  | nil => rfl
  | cons x xs ih => rw [List.foldl_cons, nan_add]; exact ih

/-- What a sum is, by the infinities in it. -/
theorem fold_pos (l : List (FinML.Flt ℝ)) (hn : .nan ∉ l) (hm : .negInf ∉ l) : l.foldl FinML.Flt.add .posInf = .posInf := by
  induction l with
  | nil => rfl
  | cons x xs ih =>
    rw [List.foldl_cons]
    have : FinML.Flt.add .posInf x = (.posInf : FinML.Flt ℝ) := by
      cases x with
      | fin _ => rfl
      | posInf => rfl
      | negInf => simp at hm
      | nan => simp at hn
    rw [this]
    exact ih (fun h => hn (by simp [h])) (fun h => hm (by simp [h]))

theorem fold_neg (l : List (FinML.Flt ℝ)) (hn : .nan ∉ l) (hm : .posInf ∉ l) : l.foldl FinML.Flt.add .negInf = .negInf := by
  induction l with
  | nil => rfl
  | cons x xs ih =>
    rw [List.foldl_cons]
    have : FinML.Flt.add .negInf x = (.negInf : FinML.Flt ℝ) := by
      cases x with
      | fin _ => rfl
      | negInf => rfl
      | posInf => simp at hm
      | nan => simp at hn
    rw [this]
    exact ih (fun h => hn (by simp [h])) (fun h => hm (by simp [h]))

theorem fold_both_pos (l : List (FinML.Flt ℝ)) (hm : .negInf ∈ l) : l.foldl FinML.Flt.add .posInf = .nan := by
  induction l with
  | nil => cases hm
  | cons x xs ih =>
    rw [List.foldl_cons]
    cases x with
    | negInf => exact fold_nan xs
    | nan => exact fold_nan xs
    | fin _ => exact ih (by simpa using hm)
    | posInf => exact ih (by simpa using hm)

theorem fold_both_neg (l : List (FinML.Flt ℝ)) (hm : .posInf ∈ l) : l.foldl FinML.Flt.add .negInf = .nan := by
  induction l with
  | nil => cases hm
  | cons x xs ih =>
    rw [List.foldl_cons]
    cases x with
    | posInf => exact fold_nan xs
    | nan => exact fold_nan xs
    | fin _ => exact ih (by simpa using hm)
    | negInf => exact ih (by simpa using hm)

/-- The finite numbers of a list. -/
def finOf (l : List (FinML.Flt ℝ)) : List ℝ := l.filterMap fun x => match x with | .fin r => some r | _ => none

theorem fold_cases (l : List (FinML.Flt ℝ)) (hn : .nan ∉ l) (a : ℝ) :
    (.posInf ∉ l → .negInf ∉ l → l.foldl FinML.Flt.add (.fin a) = .fin (a + (finOf l).sum)) ∧
    (.posInf ∈ l → .negInf ∉ l → l.foldl FinML.Flt.add (.fin a) = .posInf) ∧
    (.posInf ∉ l → .negInf ∈ l → l.foldl FinML.Flt.add (.fin a) = .negInf) ∧
    (.posInf ∈ l → .negInf ∈ l → l.foldl FinML.Flt.add (.fin a) = .nan) := by
  induction l generalizing a with
  | nil => simp [finOf]
  | cons x xs ih =>
    have hn' : .nan ∉ xs := fun h => hn (by simp [h])
    cases x with
    | nan => simp at hn
    | fin r =>
      have := ih hn' (a + r)
      have e : finOf (.fin r :: xs) = r :: finOf xs := rfl
      simp only [List.mem_cons, reduceCtorEq, false_or, List.foldl_cons, e, List.sum_cons, ← add_assoc]
      exact this
    | posInf =>
      simp only [List.mem_cons, true_or, not_true, false_implies, true_implies, reduceCtorEq, false_or, true_and,
        List.foldl_cons]
      exact ⟨fun h => fold_pos xs hn' h, fun h => fold_both_pos xs h⟩
    | negInf =>
      simp only [List.mem_cons, true_or, not_true, false_implies, implies_true, true_implies, reduceCtorEq, false_or, true_and,
        List.foldl_cons]
      exact ⟨fun h => fold_neg xs hn' h, fun h => fold_both_neg xs h⟩

theorem finOf_skip (l : List (FinML.Flt ℝ)) : finOf (l.filter fun x => !x.isNan) = finOf l := by
  induction l with
  | nil => rfl
  | cons x xs ih =>
    cases x with
    | fin r => exact congrArg (r :: ·) ih
    | posInf => exact ih
    | negInf => exact ih
    | nan => exact ih

theorem skipSum_cases (l : List (FinML.Flt ℝ)) :
    (.posInf ∉ l → .negInf ∉ l → skipSumF l = .fin (finOf l).sum) ∧
    (.posInf ∈ l → .negInf ∉ l → skipSumF l = .posInf) ∧
    (.posInf ∉ l → .negInf ∈ l → skipSumF l = .negInf) ∧
    (.posInf ∈ l → .negInf ∈ l → skipSumF l = .nan) := by
  have h := fold_cases (l.filter fun x => !x.isNan) (by simp [FinML.Flt.isNan]) 0
  rw [finOf_skip, zero_add] at h
  have hp : (.posInf ∈ l.filter fun x => !x.isNan) ↔ .posInf ∈ l := by simp [List.mem_filter, FinML.Flt.isNan]
  have hm : (.negInf ∈ l.filter fun x => !x.isNan) ↔ .negInf ∈ l := by simp [List.mem_filter, FinML.Flt.isNan]
  rw [hp, hm] at h
  exact h

theorem absF_cases (v : FinML.Flt ℝ) : absF v = .nan ∨ absF v = .posInf ∨ ∃ x, absF v = .fin x ∧ 0 ≤ x := by
  cases v with
  | fin x => exact .inr (.inr ⟨|x|, rfl, abs_nonneg x⟩)
  | posInf => exact .inr (.inl rfl)
  | negInf => exact .inr (.inl rfl)
  | nan => exact .inl rfl

/-- The last step, on weights that are NaN, infinite or not negative. -/
theorem normal_cases (raw : List (FinML.Flt ℝ)) (h : ∀ v ∈ raw, v = .nan ∨ v = .posInf ∨ ∃ x, v = .fin x ∧ 0 ≤ x) :
    let f := FinML.Flt.div (.fin (raw.length : ℝ)) (skipSumF raw)
    (.posInf ∈ raw → ∀ v ∈ raw, FinML.Flt.mul v f = match v with | .fin _ => .fin 0 | _ => .nan) ∧
    (.posInf ∉ raw → (finOf raw).sum = 0 → ∀ v ∈ raw, FinML.Flt.mul v f = .nan) ∧
    (.posInf ∉ raw → (finOf raw).sum ≠ 0 → ∀ v ∈ raw, FinML.Flt.mul v f =
      match v with | .fin x => .fin (x * ((raw.length : ℝ) / (finOf raw).sum)) | _ => .nan) := by
  classical
  have hm : .negInf ∉ raw := by
    intro hc
    rcases h _ hc with h | h | ⟨x, h, -⟩ <;> cases h
  obtain ⟨s1, s2, -, -⟩ := skipSum_cases raw
  intro f
  refine ⟨?_, ?_, ?_⟩
  · intro hp v hv
    have hf : f = .fin 0 := by
      show FinML.Flt.div _ _ = _
      rw [s2 hp hm]
      rfl
    rw [hf]
    rcases h v hv with rfl | rfl | ⟨x, rfl, -⟩
    · simp [FinML.Flt.mul]
    · simp [FinML.Flt.mul, FinML.Flt.infOf]
    · simp [FinML.Flt.mul]
  · intro hp hs v hv
    have hlen : 0 < (raw.length : ℝ) := by
      rw [Nat.cast_pos]; exact List.length_pos_of_mem hv
    have hf : f = .posInf := by
      show FinML.Flt.div _ _ = _
      rw [s1 hp hm, hs]
      simp only [FinML.Flt.div, if_true, FinML.Flt.infOf, if_pos hlen]
    rw [hf]
    rcases h v hv with rfl | rfl | ⟨x, rfl, -⟩
    · rfl
    · exact absurd hv hp
    · have hx : x = 0 := by
        have hnn : ∀ y ∈ finOf raw, 0 ≤ y := by
          intro y hy
          obtain ⟨w, hw, e⟩ := List.mem_filterMap.1 hy
          rcases h w hw with rfl | rfl | ⟨z, rfl, hz⟩
          · cases e
          · cases e
          · cases e; exact hz
        have hmem : x ∈ finOf raw := List.mem_filterMap.2 ⟨_, hv, rfl⟩
        have h1 := List.single_le_sum hnn x hmem
        rw [hs] at h1
        exact le_antisymm h1 (hnn x hmem)
      simp [FinML.Flt.mul, FinML.Flt.infOf, hx]
  · intro hp hs v hv
    have hf : f = .fin ((raw.length : ℝ) / (finOf raw).sum) := by
      show FinML.Flt.div _ _ = _
      rw [s1 hp hm]
      exact if_neg hs
    rw [hf]
    rcases h v hv with rfl | rfl | ⟨x, rfl, -⟩
    · rfl
    · exact absurd hv hp
    · rfl

theorem finite_snd (s : Series (FinML.Flt ℝ)) : (finite s).map Prod.snd = finOf (s.map Prod.snd) := by
  induction s with
  | nil => rfl
  | cons p ps ih =>
    obtain ⟨t, v⟩ := p
    cases v with
    | fin r => exact congrArg (r :: ·) ih
    | posInf => exact ih
    | negInf => exact ih
    | nan => exact ih

theorem rawF_cases (events : List (ℤ × ℤ)) (counts : Series ℕ) (rets : Series (FinML.Flt ℝ)) :
    ∀ v ∈ (returnAttributionsF events counts rets).map Prod.snd, v = .nan ∨ v = .posInf ∨ ∃ x, v = .fin x ∧ 0 ≤ x := by
  intro v hv
  obtain ⟨p, hp, rfl⟩ := List.mem_map.1 hv
  unfold returnAttributionsF at hp
  obtain ⟨q, _, rfl⟩ := List.mem_map.1 hp
  exact absF_cases q.2

theorem finOf_scale (raw : List (FinML.Flt ℝ)) (k : ℝ) :
    finOf (raw.map fun v => match v with | .fin x => FinML.Flt.fin (x * k) | _ => .nan) = (finOf raw).map (· * k) := by
  induction raw with
  | nil => rfl
  | cons v vs ih =>
    cases v with
    | fin r => exact congrArg (r * k :: ·) ih
    | posInf => exact ih
    | negInf => exact ih
    | nan => exact ih

/-- C299. Whatever the prices and counts, no weight is infinite or negative, and either all weights are 0 or NaN, or the weights
that are numbers sum to the number of events.  Missing: a weight for each event with a return, when all prices are positive or 0
(`C299_weights_counterexample`). -/
theorem C299_weights_partial (eventTimes : Series (Option ℤ)) (counts : Series ℕ) (bars : Series ℝ) (ws : Series (FinML.Flt ℝ))
    (h : computeWeightsByReturnsF eventTimes counts bars = .ok ws) :
    (∀ p ∈ ws, p.2 = .nan ∨ ∃ w, p.2 = .fin w ∧ 0 ≤ w) ∧
    ((∀ p ∈ ws, p.2 = .nan ∨ p.2 = .fin 0) ∨ ((finite ws).map Prod.snd).sum = (ws.length : ℝ)) := by
  classical
  unfold computeWeightsByReturnsF at h
  rw [py_bind_eq_ok] at h
  obtain ⟨events, _, h⟩ := h
  cases h
  have hr := rawF_cases events counts (logReturnsF none bars)
  generalize returnAttributionsF events counts (logReturnsF none bars) = raw at hr ⊢
  obtain ⟨c1, c2, c3⟩ := normal_cases (raw.map Prod.snd) hr
  rw [List.length_map] at c1 c2 c3
  have hfin : ∀ (g : FinML.Flt ℝ → FinML.Flt ℝ), (finite (raw.map fun p => (p.1, g p.2))).map Prod.snd =
      finOf ((raw.map Prod.snd).map g) := by
    intro g
    rw [finite_snd, List.map_map, List.map_map]
    rfl
  by_cases hp : FinML.Flt.posInf ∈ raw.map Prod.snd
  · have key : ∀ p ∈ raw, FinML.Flt.mul p.2 (FinML.Flt.div (.fin (raw.length : ℝ)) (skipSumF (raw.map Prod.snd))) = .nan ∨
        FinML.Flt.mul p.2 (FinML.Flt.div (.fin (raw.length : ℝ)) (skipSumF (raw.map Prod.snd))) = .fin 0 := by
      intro p hpm
      rw [c1 hp p.2 (List.mem_map.2 ⟨p, hpm, rfl⟩)]
      cases p.2
      · exact .inr rfl
      · exact .inl rfl
      · exact .inl rfl
      · exact .inl rfl
    refine ⟨?_, .inl ?_⟩
    · intro q hq
      obtain ⟨p, hpm, rfl⟩ := List.mem_map.1 hq
      rcases key p hpm with h | h
      · exact .inl h
      · exact .inr ⟨0, h, le_refl _⟩
    · intro q hq
      obtain ⟨p, hpm, rfl⟩ := List.mem_map.1 hq
      exact key p hpm
  · by_cases hs : (finOf (raw.map Prod.snd)).sum = 0
    · have key := c2 hp hs
      refine ⟨?_, .inl ?_⟩ <;> intro q hq <;> obtain ⟨p, hpm, rfl⟩ := List.mem_map.1 hq <;>
        exact .inl (key p.2 (List.mem_map.2 ⟨p, hpm, rfl⟩))
    · have key := c3 hp hs
      have hnn : ∀ y ∈ finOf (raw.map Prod.snd), 0 ≤ y := by
        intro y hy
        obtain ⟨w, hw, e⟩ := List.mem_filterMap.1 hy
        rcases hr w hw with rfl | rfl | ⟨z, rfl, hz⟩
        · cases e
        · cases e
        · cases e; exact hz
      have hk : 0 ≤ (raw.length : ℝ) / (finOf (raw.map Prod.snd)).sum :=
        div_nonneg (Nat.cast_nonneg _) (List.sum_nonneg hnn)
      refine ⟨?_, .inr ?_⟩
      · intro q hq
        obtain ⟨p, hpm, rfl⟩ := List.mem_map.1 hq
        have hmem : p.2 ∈ raw.map Prod.snd := List.mem_map.2 ⟨p, hpm, rfl⟩
        simp only
        rw [key p.2 hmem]
        rcases hr p.2 hmem with e | e | ⟨x, e, hx⟩
        · rw [e]; exact .inl rfl
        · rw [e]; exact .inl rfl
        · rw [e]; exact .inr ⟨_, rfl, mul_nonneg hx hk⟩
      · rw [hfin fun v => FinML.Flt.mul v (FinML.Flt.div (.fin (raw.length : ℝ)) (skipSumF (raw.map Prod.snd))),
          List.map_congr_left key, finOf_scale, List.length_map, List.sum_map_mul_right, List.map_id']
        field_simp

/-! ## Positive prices -/

theorem logReturnsF_pos (prev : Option ℝ) (hprev : ∀ p, prev = some p → 0 < p) (bars : Series ℝ) (h : ∀ p ∈ bars, 0 < p.2) :
    logReturnsF prev bars = (logReturns prev bars).map fun p => (p.1, ofMissing p.2) := by
  induction bars generalizing prev with
  | nil => rfl
  | cons b bars ih =>
    obtain ⟨t, x⟩ := b
    have hx : 0 < x := h (t, x) (by simp)
    rw [logReturnsF, logReturns, List.map_cons, ih (some x) (by rintro _ ⟨⟩; exact hx) fun p hp => h p (by simp [hp])]
    congr 1
    cases prev with
    | none => rfl
    | some p =>
      have hp := hprev p rfl
      simp only [Option.map_some, Option.getD_some, logF, if_pos hx, if_pos hp, ofMissing, FinML.Flt.sub, FinML.Flt.neg,
        FinML.Flt.add, sub_eq_add_neg]

theorem slice_map {α β : Type} (f : α → β) (s : Series α) (a b : ℤ) :
    slice (s.map fun p => (p.1, f p.2)) a b = (slice s a b).map fun p => (p.1, f p.2) := by
  unfold slice
  induction s with
  | nil => rfl
  | cons p ps ih =>
    rw [List.map_cons, List.filter_cons, List.filter_cons, ih]
    by_cases h : a ≤ p.1 ∧ p.1 ≤ b
    · simp [h]
    · simp [h]

theorem attributionF_pos (rets : Series (Option ℝ)) (counts : Series ℕ) (e : ℤ × ℤ) (x : ℝ)
    (h : attribution rets counts e = .ok x) :
    attributionF (rets.map fun p => (p.1, ofMissing p.2)) counts e = .fin x := by
  rw [attribution_eq, py_bind_eq_ok] at h
  obtain ⟨l, hl, h⟩ := h
  cases h
  rw [mapM_eq_ok_iff] at hl
  unfold attributionF
  rw [slice_map]
  generalize slice rets e.1 e.2 = s at hl
  have key : .posInf ∉ (s.map fun p => (p.1, ofMissing p.2)).map (attributedF counts e) ∧
      .negInf ∉ (s.map fun p => (p.1, ofMissing p.2)).map (attributedF counts e) ∧
      (finOf ((s.map fun p => (p.1, ofMissing p.2)).map (attributedF counts e))).sum = l.sum := by
    induction hl with
    | nil => simp [finOf]
    | cons hab _ ih =>
      rename_i p v ps vs _
      obtain ⟨i1, i2, i3⟩ := ih
      rw [List.map_cons, List.map_cons, List.sum_cons, ← i3]
      unfold entryVal at hab
      have : (attributedF counts e (p.1, ofMissing p.2) = .fin v) ∨ (attributedF counts e (p.1, ofMissing p.2) = .nan ∧ v = 0) := by
        unfold attributedF
        cases hf : (slice counts e.1 e.2).find? fun q => q.1 = p.1 with
        | none =>
          rw [hf] at hab
          right
          refine ⟨rfl, ?_⟩
          cases hp : p.2 <;> rw [hp] at hab <;> cases hab <;> rfl
        | some c =>
          rw [hf] at hab
          cases hp : p.2 with
          | none => rw [hp] at hab; cases hab; exact .inr ⟨rfl, rfl⟩
          | some r =>
            rw [hp] at hab
            simp only at hab
            by_cases hc : c.2 = 0
            · rw [if_pos hc] at hab; cases hab
            · rw [if_neg hc] at hab
              cases hab
              left
              have : (c.2 : ℝ) ≠ 0 := Nat.cast_ne_zero.2 hc
              exact if_neg this
      rcases this with h | ⟨h, h0⟩
      · rw [h]
        exact ⟨by simpa using i1, by simpa using i2, rfl⟩
      · rw [h, h0, zero_add]
        exact ⟨by simpa using i1, by simpa using i2, rfl⟩
  obtain ⟨k1, k2, k3⟩ := key
  rw [(skipSum_cases _).1 k1 k2, k3]

/-- C299. With positive prices the weights are those of the exact model, wherever it has any. -/
theorem C299_agree (events : List (ℤ × ℤ)) (hn : (events.map Prod.fst).Nodup) (counts : Series ℕ) (bars : Series ℝ)
    (ws : Series (Option ℝ)) (h : computeWeightsByReturns (events.map fun e => (e.1, some e.2)) counts bars = .ok ws) :
    computeWeightsByReturnsF (events.map fun e => (e.1, some e.2)) counts bars = .ok (ws.map fun p => (p.1, ofMissing p.2)) := by
  classical
  unfold computeWeightsByReturns at h
  by_cases hpos : ∀ p ∈ bars, 0 < p.2
  swap
  · rw [if_pos hpos] at h; cases h
  rw [if_neg (not_not.2 hpos), py_bind_eq_ok] at h
  obtain ⟨events', hev, h⟩ := h
  rw [py_bind_eq_ok] at h
  obtain ⟨raw, hraw, h⟩ := h
  cases h
  have hclosed : closedEvents (events.map fun e => (e.1, some e.2)) = .ok events := closedEvents_closedTimes events
  have : events' = events := by
    rw [hclosed] at hev
    cases hev
    rfl
  subst this
  unfold computeWeightsByReturnsF
  rw [hclosed, py_bind_ok]
  have hF : returnAttributionsF events' counts (logReturnsF none bars) = raw.map fun p => (p.1, .fin p.2) := by
    unfold returnAttributions at hraw
    rw [py_bind_eq_ok] at hraw
    obtain ⟨vals, hv, hraw⟩ := hraw
    cases hraw
    unfold returnAttributionsF
    rw [logReturnsF_pos none (by rintro _ ⟨⟩) bars hpos]
    have hval : vals = (events'.map fun e => (e, ((attribution (logReturns none bars) counts e).toOption.getD 0))) ∧
        ∀ e ∈ events', attributionF ((logReturns none bars).map fun p => (p.1, ofMissing p.2)) counts e =
          .fin ((attribution (logReturns none bars) counts e).toOption.getD 0) := by
      rw [mapM_eq_ok_iff] at hv
      clear hclosed hev hn
      induction hv with
      | nil => exact ⟨rfl, by simp⟩
      | cons hab _ ih =>
        rename_i e v es vs _
        obtain ⟨i1, i2⟩ := ih
        rw [py_bind_eq_ok] at hab
        obtain ⟨x, hx, hab⟩ := hab
        cases hab
        constructor
        · rw [List.map_cons, hx, i1]
          rfl
        · intro e' he'
          rcases List.mem_cons.1 he' with rfl | he'
          · rw [attributionF_pos _ _ _ _ hx, hx]
            rfl
          · exact i2 e' he'
    obtain ⟨hval, hat⟩ := hval
    have f1 := setLabel_fold (fun e : ℤ × ℤ => e.1)
      (fun e => attributionF ((logReturns none bars).map fun p => (p.1, ofMissing p.2)) counts e) events'
      (fun _ => (FinML.Flt.nan : FinML.Flt ℝ)) hn
    have f2 := setLabel_fold (fun ev : (ℤ × ℤ) × ℝ => ev.1.1) (fun ev => ev.2) vals (fun _ => (0 : ℝ)) (by
      rw [hval, List.map_map]; exact hn)
    have h2 : (events'.map fun e => ((e.1, 0) : ℤ × ℝ)) = vals.map fun ev : (ℤ × ℤ) × ℝ => (ev.1.1, (0 : ℝ)) := by
      rw [hval, List.map_map]; rfl
    simp only
    rw [f1, h2, f2, hval, List.map_map, List.map_map, List.map_map, List.map_map]
    apply List.map_congr_left
    intro e he
    simp only [Function.comp]
    rw [hat e he]
    rfl
  simp only [hF, py_pure, List.map_map, List.length_map]
  congr 1
  apply List.map_congr_left
  intro p hp
  have hsum : skipSumF (raw.map ((Prod.snd : ℤ × FinML.Flt ℝ → FinML.Flt ℝ) ∘ fun p => (p.1, .fin p.2))) =
      .fin (raw.map Prod.snd).sum := by
    have e : raw.map ((Prod.snd : ℤ × FinML.Flt ℝ → FinML.Flt ℝ) ∘ fun p => (p.1, .fin p.2)) =
        (raw.map Prod.snd).map fun x => .fin x := by rw [List.map_map]; rfl
    rw [e]
    have hno : ∀ l : List ℝ, finOf (l.map fun x => .fin x) = l := by
      intro l
      induction l with
      | nil => rfl
      | cons a l ih => exact congrArg (a :: ·) ih
    rw [(skipSum_cases _).1 (by simp) (by simp), hno]
  simp only [Function.comp] at hsum ⊢
  rw [hsum]
  congr 1
  unfold fdiv
  by_cases hs : (raw.map Prod.snd).sum = 0
  · rw [if_pos hs, hs]
    have hnn : ∀ x ∈ raw.map Prod.snd, 0 ≤ x := by
      unfold returnAttributions at hraw
      rw [py_bind_eq_ok] at hraw
      obtain ⟨vals, _, hraw⟩ := hraw
      cases hraw
      intro x hx
      obtain ⟨q, hq, rfl⟩ := List.mem_map.1 hx
      obtain ⟨q', _, rfl⟩ := List.mem_map.1 hq
      exact abs_nonneg _
    have hmem : p.2 ∈ raw.map Prod.snd := List.mem_map.2 ⟨p, hp, rfl⟩
    have h1 := List.single_le_sum hnn p.2 hmem
    rw [hs] at h1
    have h0 : p.2 = 0 := le_antisymm h1 (hnn _ hmem)
    have hlen : 0 < (raw.length : ℝ) := by rw [Nat.cast_pos]; exact List.length_pos_of_mem hp
    rw [h0]
    simp [FinML.Flt.div, FinML.Flt.infOf, hlen, FinML.Flt.mul, ofMissing]
  · rw [if_neg hs]
    simp only [FinML.Flt.div, if_neg hs, Option.map_some, ofMissing, FinML.Flt.mul]

/-! ## A price of zero -/

theorem logReturnsF_append (prev : Option ℝ) (l : Series ℝ) (a : ℤ × ℝ) (r : Series ℝ) :
    logReturnsF prev (l ++ a :: r) = logReturnsF prev (l ++ [a]) ++ logReturnsF (some a.2) r := by
  induction l generalizing prev with
  | nil => rfl
  | cons b bs ih =>
    obtain ⟨t, x⟩ := b
    rw [List.cons_append, List.cons_append, logReturnsF, logReturnsF, ih, List.cons_append]

theorem logReturnsF_keys (prev : Option ℝ) (l : Series ℝ) : (logReturnsF prev l).map Prod.fst = l.map Prod.fst := by
  induction l generalizing prev with
  | nil => rfl
  | cons b bs ih =>
    obtain ⟨t, x⟩ := b
    rw [logReturnsF, List.map_cons, List.map_cons, ih]

theorem logReturnsF_tame (prev : Option ℝ) (hprev : ∀ p, prev = some p → 0 < p) (bars : Series ℝ) (h : ∀ p ∈ bars, 0 < p.2) :
    ∀ q ∈ logReturnsF prev bars, q.2 = .nan ∨ ∃ x, q.2 = .fin x := by
  rw [logReturnsF_pos prev hprev bars h]
  intro q hq
  obtain ⟨p, _, rfl⟩ := List.mem_map.1 hq
  cases p.2 with
  | none => exact .inl rfl
  | some x => exact .inr ⟨x, rfl⟩

/-- The log returns around a price of zero. -/
theorem logReturnsF_zero (pre : Series ℝ) (a : ℤ × ℝ) (t u : ℤ) (b : ℝ) (post : Series ℝ)
    (hpos : ∀ p ∈ pre ++ [a], 0 < p.2) (hb : 0 < b) (hpost : ∀ p ∈ post, 0 < p.2) :
    ∃ l r : Series (FinML.Flt ℝ), logReturnsF none (pre ++ a :: (t, 0) :: (u, b) :: post) =
        l ++ (t, .negInf) :: (u, .posInf) :: r ∧
      (l.map Prod.fst) = (pre ++ [a]).map Prod.fst ∧ r.map Prod.fst = post.map Prod.fst ∧
      ∀ q, q ∈ l ∨ q ∈ r → q.2 = .nan ∨ ∃ x, q.2 = .fin x := by
  refine ⟨logReturnsF none (pre ++ [a]), logReturnsF (some b) post, ?_, logReturnsF_keys _ _, logReturnsF_keys _ _, ?_⟩
  · rw [logReturnsF_append, logReturnsF, logReturnsF]
    have ha : 0 < a.2 := hpos a (by simp)
    simp [logF, ha, hb, FinML.Flt.sub, FinML.Flt.neg, FinML.Flt.add]
  · rintro q (hq | hq)
    · exact logReturnsF_tame none (by rintro _ ⟨⟩) _ hpos q hq
    · exact logReturnsF_tame (some b) (by rintro _ ⟨⟩; exact hb) _ hpost q hq

theorem div_count (v : FinML.Flt ℝ) (c : ℕ) (hc : c ≠ 0) : FinML.Flt.div v (.fin (c : ℝ)) =
    match v with | .fin x => .fin (x / c) | w => w := by
  have h0 : (c : ℝ) ≠ 0 := Nat.cast_ne_zero.2 hc
  have h1 : ¬ (c : ℝ) < 0 := not_lt.2 (Nat.cast_nonneg _)
  cases v with
  | fin x => exact if_neg h0
  | posInf => exact if_neg h1
  | negInf => exact if_neg h1
  | nan => rfl

/-- The raw weight of an event around a price of zero. -/
theorem attributionF_zero (l r : Series (FinML.Flt ℝ)) (t u : ℤ) (htame : ∀ q, q ∈ l ∨ q ∈ r → q.2 = .nan ∨ ∃ x, q.2 = .fin x)
    (counts : Series ℕ) (hc : ∀ q ∈ counts, q.2 ≠ 0) (ht : ∃ q ∈ counts, q.1 = t) (hu : ∃ q ∈ counts, q.1 = u) (e : ℤ × ℤ) :
    (¬ (e.1 ≤ t ∧ t ≤ e.2) → ¬ (e.1 ≤ u ∧ u ≤ e.2) →
      ∃ x, absF (attributionF (l ++ (t, .negInf) :: (u, .posInf) :: r) counts e) = .fin x) ∧
    ((e.1 ≤ t ∧ t ≤ e.2) → (e.1 ≤ u ∧ u ≤ e.2) →
      absF (attributionF (l ++ (t, .negInf) :: (u, .posInf) :: r) counts e) = .nan) ∧
    (¬ ((e.1 ≤ t ∧ t ≤ e.2) ↔ (e.1 ≤ u ∧ u ≤ e.2)) →
      absF (attributionF (l ++ (t, .negInf) :: (u, .posInf) :: r) counts e) = .posInf) := by
  have hfind : ∀ s, (e.1 ≤ s ∧ s ≤ e.2) → (∃ q ∈ counts, q.1 = s) → ∀ v, attributedF counts e (s, v) =
      match v with | .fin x => .fin (x / ((((slice counts e.1 e.2).find? fun q => q.1 = s).map Prod.snd).getD 1 : ℕ)) | w => w := by
    intro s hs ⟨q, hq, hqs⟩ v
    unfold attributedF
    simp only
    cases hf : (slice counts e.1 e.2).find? fun q => q.1 = s with
    | none =>
      rw [find_slice counts e s hs, List.find?_eq_none] at hf
      exact absurd hqs (by simpa using hf q hq)
    | some c =>
      have hcm : c ∈ slice counts e.1 e.2 := List.mem_of_find?_eq_some hf
      simp only
      rw [div_count v c.2 (hc c (List.mem_filter.1 hcm).1)]
      rfl
  have htame' : ∀ q, (q ∈ l ∨ q ∈ r) → attributedF counts e q ≠ .posInf ∧ attributedF counts e q ≠ .negInf := by
    intro q hq
    unfold attributedF
    cases hf : (slice counts e.1 e.2).find? fun p => p.1 = q.1 with
    | none => simp
    | some c =>
      have hcm : c ∈ slice counts e.1 e.2 := List.mem_of_find?_eq_some hf
      simp only
      rw [div_count q.2 c.2 (hc c (List.mem_filter.1 hcm).1)]
      rcases htame q hq with h | ⟨x, h⟩ <;> rw [h] <;> simp
  have hP : .posInf ∈ (slice (l ++ (t, .negInf) :: (u, .posInf) :: r) e.1 e.2).map (attributedF counts e) ↔
      e.1 ≤ u ∧ u ≤ e.2 := by
    constructor
    · intro h
      obtain ⟨q, hq, he⟩ := List.mem_map.1 h
      obtain ⟨hq, hin⟩ := List.mem_filter.1 hq
      simp only [decide_eq_true_eq] at hin
      rcases List.mem_append.1 hq with h | h
      · exact absurd he (htame' q (.inl h)).1
      · rcases List.mem_cons.1 h with rfl | h
        · rw [hfind t hin ht] at he; cases he
        · rcases List.mem_cons.1 h with rfl | h
          · exact hin
          · exact absurd he (htame' q (.inr h)).1
    · intro h
      refine List.mem_map.2 ⟨(u, .posInf), List.mem_filter.2 ⟨by simp, by simpa using h⟩, ?_⟩
      rw [hfind u h hu]
  have hM : .negInf ∈ (slice (l ++ (t, .negInf) :: (u, .posInf) :: r) e.1 e.2).map (attributedF counts e) ↔
      e.1 ≤ t ∧ t ≤ e.2 := by
    constructor
    · intro h
      obtain ⟨q, hq, he⟩ := List.mem_map.1 h
      obtain ⟨hq, hin⟩ := List.mem_filter.1 hq
      simp only [decide_eq_true_eq] at hin
      rcases List.mem_append.1 hq with h | h
      · exact absurd he (htame' q (.inl h)).2
      · rcases List.mem_cons.1 h with rfl | h
        · exact hin
        · rcases List.mem_cons.1 h with rfl | h
          · rw [hfind u hin hu] at he; cases he
          · exact absurd he (htame' q (.inr h)).2
    · intro h
      refine List.mem_map.2 ⟨(t, .negInf), List.mem_filter.2 ⟨by simp, by simpa using h⟩, ?_⟩
      rw [hfind t h ht]
  obtain ⟨s1, s2, s3, s4⟩ :=
    skipSum_cases ((slice (l ++ (t, .negInf) :: (u, .posInf) :: r) e.1 e.2).map (attributedF counts e))
  unfold attributionF
  refine ⟨?_, ?_, ?_⟩
  · intro h1 h2
    rw [s1 (fun h => h2 (hP.1 h)) (fun h => h1 (hM.1 h))]
    exact ⟨_, rfl⟩
  · intro h1 h2
    rw [s4 (hP.2 h2) (hM.2 h1)]
    rfl
  · intro h
    by_cases h1 : e.1 ≤ t ∧ t ≤ e.2
    · have h2 : ¬ (e.1 ≤ u ∧ u ≤ e.2) := fun h2 => h ⟨fun _ => h2, fun _ => h1⟩
      rw [s3 (fun h => h2 (hP.1 h)) (hM.2 h1)]
      rfl
    · have h2 : e.1 ≤ u ∧ u ≤ e.2 := by
        by_contra h2
        exact h ⟨fun h' => absurd h' h1, fun h' => absurd h' h2⟩
      rw [s2 (hP.2 h2) (fun h => h1 (hM.1 h))]
      rfl

/-- C299. One price of zero among positive prices.  If an event contains just one of the bar of the zero and the bar after it,
every event that contains neither weighs 0 and every other has weight NaN. -/
theorem C299_zero_price (pre : Series ℝ) (a : ℤ × ℝ) (t u : ℤ) (b : ℝ) (post : Series ℝ)
    (hpos : ∀ p ∈ pre ++ [a], 0 < p.2) (hb : 0 < b) (hpost : ∀ p ∈ post, 0 < p.2) (counts : Series ℕ)
    (hc : ∀ q ∈ counts, q.2 ≠ 0) (ht : ∃ q ∈ counts, q.1 = t) (hu : ∃ q ∈ counts, q.1 = u)
    (events : List (ℤ × ℤ)) (hn : (events.map Prod.fst).Nodup) (bad : ℤ × ℤ) (hbad : bad ∈ events)
    (hone : ¬ ((bad.1 ≤ t ∧ t ≤ bad.2) ↔ (bad.1 ≤ u ∧ u ≤ bad.2))) :
    computeWeightsByReturnsF (events.map fun e => (e.1, some e.2)) counts (pre ++ a :: (t, 0) :: (u, b) :: post) =
      .ok (events.map fun e => (e.1, if (e.1 ≤ t ∧ t ≤ e.2) ∨ (e.1 ≤ u ∧ u ≤ e.2) then .nan else .fin 0)) := by
  obtain ⟨l, r, hlr, -, -, htame⟩ := logReturnsF_zero pre a t u b post hpos hb hpost
  have hz := attributionF_zero l r t u htame counts hc ht hu
  have hclosed : closedEvents (events.map fun e => (e.1, some e.2)) = .ok events := closedEvents_closedTimes events
  unfold computeWeightsByReturnsF
  rw [hclosed, py_bind_ok, hlr]
  have hraw : returnAttributionsF events counts (l ++ (t, .negInf) :: (u, .posInf) :: r) =
      events.map fun e => (e.1, absF (attributionF (l ++ (t, .negInf) :: (u, .posInf) :: r) counts e)) := by
    unfold returnAttributionsF
    have f1 := setLabel_fold (fun e : ℤ × ℤ => e.1)
      (fun e => attributionF (l ++ (t, .negInf) :: (u, .posInf) :: r) counts e) events
      (fun _ => (FinML.Flt.nan : FinML.Flt ℝ)) hn
    simp only
    rw [f1, List.map_map]
    rfl
  have hr := rawF_cases events counts (l ++ (t, .negInf) :: (u, .posInf) :: r)
  simp only [hraw] at hr ⊢
  obtain ⟨c1, -, -⟩ := normal_cases _ hr
  have hmem : FinML.Flt.posInf ∈ (events.map fun e =>
      (e.1, absF (attributionF (l ++ (t, .negInf) :: (u, .posInf) :: r) counts e))).map Prod.snd := by
    rw [List.map_map]
    exact List.mem_map.2 ⟨bad, hbad, (hz bad).2.2 hone⟩
  have c1 := c1 hmem
  rw [List.length_map] at c1
  rw [py_pure]
  congr 1
  rw [List.map_map]
  apply List.map_congr_left
  intro e he
  simp only [Function.comp]
  rw [c1 _ (List.mem_map.2 ⟨_, List.mem_map.2 ⟨e, he, rfl⟩, rfl⟩)]
  congr 1
  simp only
  by_cases h1 : e.1 ≤ t ∧ t ≤ e.2
  · rw [if_pos (.inl h1)]
    by_cases h2 : e.1 ≤ u ∧ u ≤ e.2
    · rw [(hz e).2.1 h1 h2]
    · rw [(hz e).2.2 fun h => h2 (h.1 h1)]
  · by_cases h2 : e.1 ≤ u ∧ u ≤ e.2
    · rw [if_pos (.inr h2), (hz e).2.2 fun h => h1 (h.2 h2)]
    · rw [if_neg (by tauto)]
      obtain ⟨x, hx⟩ := (hz e).1 h1 h2
      rw [hx]

/-- The claim of C36 for prices that are positive or 0: if some event has a return, the weights sum to the number of events. -/
def ReturnWeights : Prop :=
  ∀ (events : List (ℤ × ℤ)) (counts : Series ℕ) (bars : Series ℝ) (ws : Series (FinML.Flt ℝ)), (events.map Prod.fst).Nodup →
    (∀ q ∈ counts, q.2 ≠ 0) → (bars.map Prod.fst).Pairwise (· < ·) → (∀ p ∈ bars, 0 ≤ p.2) →
    (∃ e ∈ events, ∃ p ∈ bars, ∃ q ∈ bars, e.1 ≤ p.1 ∧ p.1 ≤ e.2 ∧ e.1 ≤ q.1 ∧ q.1 ≤ e.2 ∧ p.2 ≠ q.2) →
    computeWeightsByReturnsF (events.map fun e => (e.1, some e.2)) counts bars = .ok ws →
    ((finite ws).map Prod.snd).sum = (ws.length : ℝ)

/-- C299. One price of zero on the last bar of an event: the other event, whose prices doubled, weighs 0. -/
theorem C299_weights_counterexample : ¬ ReturnWeights := by
  intro h
  have h1 := C299_zero_price [(0, 1)] (1, 2) 3 4 2 [] (by simp) (by norm_num) (by simp) [(0, 1), (1, 1), (3, 1), (4, 1)] (by simp)
    ⟨(3, 1), by simp, rfl⟩ ⟨(4, 1), by simp, rfl⟩ [(0, 1), (2, 3)] (by decide) (2, 3) (by simp) (by simp)
  have h2 := h [(0, 1), (2, 3)] [(0, 1), (1, 1), (3, 1), (4, 1)] _ _ (by decide) (by simp) (by simp) (by simp)
    ⟨(0, 1), by simp, (0, 1), by simp, (1, 2), by simp, by norm_num⟩ h1
  simp [finite] at h2

end FinML.Weights
