import Verif.Weights.FloatModel
import Verif.Weights.DecayProps

/-!
# C298: time decay with missing uniquenesses
-/

set_option linter.unusedSectionVars false

namespace FinML.Weights

variable {K : Type}

/-- The observations that are not missing. -/
def knownObs {α : Type} (obs : Series (Option α)) : Series α := obs.filterMap fun p => p.2.map fun x => (p.1, x)

/-- Missing observations as NaN. -/
def toF (obs : Series (Option K)) : Series (FinML.Flt K) := obs.map fun p => (p.1, ofMissing p.2)

/-- The finite numbers of a series. -/
def finite (res : Series (FinML.Flt K)) : Series K :=
  res.filterMap fun p => match p.2 with | .fin x => some (p.1, x) | _ => none

/-! ## Lemmas -/

theorem sortIndex_perm {α : Type} (s : Series α) : (sortIndex s).Perm s := List.perm_insertionSort _ _

theorem sortIndex_sorted {α : Type} (s : Series α) (hn : (s.map Prod.fst).Nodup) :
    (sortIndex s).Pairwise fun a b => a.1 < b.1 := by
  have h1 : (sortIndex s).Pairwise fun a b => a.1 ≤ b.1 :=
    List.pairwise_insertionSort (fun a b : ℤ × α => a.1 ≤ b.1) s
  have h2 : ((sortIndex s).map Prod.fst).Nodup := ((sortIndex_perm s).map Prod.fst).nodup_iff.2 hn
  rw [List.nodup_iff_pairwise_ne, List.pairwise_map] at h2
  exact h1.and h2 |>.imp fun {a b} h => lt_of_le_of_ne h.1 h.2

theorem sortIndex_eq {α : Type} {s t : Series α} (hp : t.Perm s) (ht : t.Pairwise fun a b => a.1 < b.1) :
    sortIndex s = t := by
  have hn : (s.map Prod.fst).Nodup := by
    rw [← (hp.map Prod.fst).nodup_iff, List.nodup_iff_pairwise_ne, List.pairwise_map]
    exact ht.imp fun {a b} h => ne_of_lt h
  exact ((sortIndex_perm s).trans hp.symm).eq_of_pairwise
    (fun a b _ _ h1 h2 => absurd h1 (not_lt.2 h2.le)) (sortIndex_sorted s hn) ht

theorem sortIndex_toF (obs : Series (Option K)) (hn : (obs.map Prod.fst).Nodup) :
    sortIndex (toF obs) = toF (sortIndex obs) := by
  apply sortIndex_eq
  · exact (sortIndex_perm obs).map _
  · unfold toF
    rw [List.pairwise_map]
    exact sortIndex_sorted obs hn

theorem sortIndex_known {α : Type} (obs : Series (Option α)) (hn : (obs.map Prod.fst).Nodup) :
    sortIndex (knownObs obs) = knownObs (sortIndex obs) := by
  apply sortIndex_eq
  · exact (sortIndex_perm obs).filterMap _
  · unfold knownObs
    rw [List.pairwise_filterMap]
    refine (sortIndex_sorted obs hn).imp ?_
    intro a b hab x hx y hy
    obtain ⟨u, _, rfl⟩ := Option.map_eq_some_iff.1 hx
    obtain ⟨v, _, rfl⟩ := Option.map_eq_some_iff.1 hy
    exact hab

theorem known_keys {α : Type} (obs : Series (Option α)) (hn : (obs.map Prod.fst).Nodup) : ((knownObs obs).map Prod.fst).Nodup := by
  have h := sortIndex_known obs hn
  have h2 : (sortIndex (knownObs obs)).Pairwise fun a b => a.1 < b.1 := by
    rw [h]
    unfold knownObs
    rw [List.pairwise_filterMap]
    refine (sortIndex_sorted obs hn).imp ?_
    intro a b hab x hx y hy
    obtain ⟨u, _, rfl⟩ := Option.map_eq_some_iff.1 hx
    obtain ⟨v, _, rfl⟩ := Option.map_eq_some_iff.1 hy
    exact hab
  rw [← ((sortIndex_perm _).map Prod.fst).nodup_iff, List.nodup_iff_pairwise_ne, List.pairwise_map]
  exact h2.imp fun {a b} h => ne_of_lt h

section
variable [Field K]

theorem cumsumFromF_length (s : FinML.Flt K) (l : List (FinML.Flt K)) : (cumsumFromF s l).length = l.length := by
  induction l generalizing s with
  | nil => rfl
  | cons x xs ih =>
    unfold cumsumFromF
    by_cases h : x.isNan
    · rw [if_pos h, List.length_cons, List.length_cons, ih]
    · rw [if_neg h, List.length_cons, List.length_cons, ih]

/-- The running sums of the known values, and NaN at the missing ones. -/
theorem cumsumFromF_known (f : FinML.Flt K → FinML.Flt K) (g : K → K) (hf : ∀ x, f (.fin x) = .fin (g x)) (hnan : f .nan = .nan)
    (l : Series (Option K)) (s : K) :
    finite ((l.map Prod.fst).zip ((cumsumFromF (.fin s) (l.map fun p => ofMissing p.2)).map f)) =
      ((knownObs l).map Prod.fst).zip ((cumsumFrom s ((knownObs l).map Prod.snd)).map g) ∧
    (∀ t, (t, FinML.Flt.nan) ∈ (l.map Prod.fst).zip ((cumsumFromF (.fin s) (l.map fun p => ofMissing p.2)).map f) ↔
      (t, none) ∈ l) := by
  induction l generalizing s with
  | nil => exact ⟨rfl, by simp⟩
  | cons p ps ih =>
    obtain ⟨t, o⟩ := p
    cases o with
    | none =>
      have e : cumsumFromF (.fin s) (((t, (none : Option K)) :: ps).map fun p => ofMissing p.2) =
          .nan :: cumsumFromF (.fin s) (ps.map fun p => ofMissing p.2) := rfl
      obtain ⟨h1, h2⟩ := ih s
      rw [e]
      constructor
      · rw [List.map_cons, List.map_cons, List.zip_cons_cons, hnan]
        exact h1
      · intro u
        rw [List.map_cons, List.map_cons, List.zip_cons_cons, hnan, List.mem_cons, h2 u, List.mem_cons]
        simp
    | some x =>
      have e : cumsumFromF (.fin s) (((t, some x) :: ps).map fun p => ofMissing p.2) =
          .fin (s + x) :: cumsumFromF (.fin (s + x)) (ps.map fun p => ofMissing p.2) := rfl
      obtain ⟨h1, h2⟩ := ih (s + x)
      rw [e]
      constructor
      · rw [List.map_cons, List.map_cons, List.zip_cons_cons, hf]
        have e2 : knownObs ((t, some x) :: ps) = (t, x) :: knownObs ps := rfl
        rw [e2, List.map_cons, List.map_cons, cumsumFrom, List.map_cons, List.zip_cons_cons, ← h1]
        rfl
      · intro u
        rw [List.map_cons, List.map_cons, List.zip_cons_cons, hf, List.mem_cons, h2 u, List.mem_cons]
        simp

theorem cumsumFromF_values (f : FinML.Flt K → FinML.Flt K) (g : K → K) (hf : ∀ x, f (.fin x) = .fin (g x)) (hnan : f .nan = .nan)
    (l : Series (Option K)) (s : K) :
    ∀ v ∈ (cumsumFromF (.fin s) (l.map fun p => ofMissing p.2)).map f, v = .nan ∨ ∃ w, v = .fin w := by
  induction l generalizing s with
  | nil => intro v hv; cases hv
  | cons p ps ih =>
    obtain ⟨t, o⟩ := p
    intro v hv
    cases o with
    | none =>
      have e : cumsumFromF (.fin s) (((t, (none : Option K)) :: ps).map fun p => ofMissing p.2) =
          .nan :: cumsumFromF (.fin s) (ps.map fun p => ofMissing p.2) := rfl
      rw [e, List.map_cons, hnan] at hv
      rcases List.mem_cons.1 hv with rfl | hv
      · exact .inl rfl
      · exact ih s v hv
    | some x =>
      have e : cumsumFromF (.fin s) (((t, some x) :: ps).map fun p => ofMissing p.2) =
          .fin (s + x) :: cumsumFromF (.fin (s + x)) (ps.map fun p => ofMissing p.2) := rfl
      rw [e, List.map_cons, hf] at hv
      rcases List.mem_cons.1 hv with rfl | hv
      · exact .inr ⟨_, rfl⟩
      · exact ih (s + x) v hv

theorem cumsumFromF_last (l : Series (Option K)) (s : K) (t : ℤ) (x : K) :
    (cumsumFromF (.fin s) ((l ++ [(t, some x)]).map fun p => ofMissing p.2)).getLast? =
      some (.fin (s + ((knownObs (l ++ [(t, some x)])).map Prod.snd).sum)) := by
  induction l generalizing s with
  | nil => simp [cumsumFromF, ofMissing, knownObs, FinML.Flt.isNan, FinML.Flt.add]
  | cons p ps ih =>
    obtain ⟨u, o⟩ := p
    have hne : ∀ a, (cumsumFromF a ((ps ++ [(t, some x)]).map fun p => ofMissing p.2)) ≠ [] := by
      intro a h
      have := congrArg List.length h
      rw [cumsumFromF_length] at this
      simp at this
    cases o with
    | none =>
      have e : cumsumFromF (.fin s) (((u, (none : Option K)) :: ps ++ [(t, some x)]).map fun p => ofMissing p.2) =
          .nan :: cumsumFromF (.fin s) ((ps ++ [(t, some x)]).map fun p => ofMissing p.2) := rfl
      have e2 : knownObs ((u, (none : Option K)) :: ps ++ [(t, some x)]) = knownObs (ps ++ [(t, some x)]) := rfl
      rw [e, e2, List.getLast?_cons_of_ne_nil (hne _), ih]
    | some y =>
      have e : cumsumFromF (.fin s) (((u, some y) :: ps ++ [(t, some x)]).map fun p => ofMissing p.2) =
          .fin (s + y) :: cumsumFromF (.fin (s + y)) ((ps ++ [(t, some x)]).map fun p => ofMissing p.2) := rfl
      have e2 : knownObs ((u, some y) :: ps ++ [(t, some x)]) = (u, y) :: knownObs (ps ++ [(t, some x)]) := rfl
      rw [e, e2, List.getLast?_cons_of_ne_nil (hne _), ih, List.map_cons, List.sum_cons, add_assoc]

theorem cumsumFromF_last_nan (l : Series (Option K)) (s : FinML.Flt K) (t : ℤ) :
    (cumsumFromF s ((l ++ [(t, none)]).map fun p : ℤ × Option K => ofMissing p.2)).getLast? = some .nan := by
  induction l generalizing s with
  | nil => rfl
  | cons p ps ih =>
    have hne : ∀ a, (cumsumFromF a ((ps ++ [(t, none)]).map fun p : ℤ × Option K => ofMissing p.2)) ≠ [] := by
      intro a h
      have := congrArg List.length h
      rw [cumsumFromF_length] at this
      simp at this
    rw [List.cons_append, List.map_cons]
    unfold cumsumFromF
    by_cases h : (ofMissing p.2).isNan
    · rw [if_pos h, List.getLast?_cons_of_ne_nil (hne _), ih]
    · rw [if_neg h, List.getLast?_cons_of_ne_nil (hne _), ih]

end

/-- The newest observation comes last. -/
theorem newest_last {α : Type} (obs : Series α) (hn : (obs.map Prod.fst).Nodup) (p : ℤ × α) (hp : p ∈ obs)
    (hnew : ∀ q ∈ obs, q.1 ≤ p.1) : ∃ l, sortIndex obs = l ++ [p] := by
  have hmem : p ∈ sortIndex obs := (sortIndex_perm obs).mem_iff.2 hp
  have hs := sortIndex_sorted obs hn
  obtain ⟨a, b, hab⟩ := List.append_of_mem hmem
  cases b with
  | nil => exact ⟨a, hab⟩
  | cons q qs =>
    exfalso
    rw [hab] at hs
    have h1 := (List.pairwise_cons.1 (List.pairwise_append.1 hs).2.1).1 q (by simp)
    have h2 := hnew q ((sortIndex_perm obs).mem_iff.1 (by rw [hab]; simp))
    omega

theorem slopeF_fin [Field K] [LinearOrder K] {c total slope : K} (h : decaySlope c total = some slope) :
    decaySlopeF c (.fin total) = .fin slope := by
  unfold decaySlope fdiv at h
  unfold decaySlopeF
  by_cases h0 : 0 ≤ c
  · rw [if_pos h0] at h ⊢
    by_cases ht : total = 0
    · rw [if_pos ht] at h; cases h
    · rw [if_neg ht] at h
      cases h
      exact if_neg ht
  · rw [if_neg h0] at h ⊢
    by_cases ht : (c + 1) * total = 0
    · rw [if_pos ht] at h; cases h
    · rw [if_neg ht] at h
      cases h
      exact if_neg ht

theorem finite_mem {res : Series (FinML.Flt K)} {t : ℤ} {w : K} (h : (t, .fin w) ∈ res) : (t, w) ∈ finite res :=
  List.mem_filterMap.2 ⟨_, h, rfl⟩

theorem nan_add [Field K] (a : FinML.Flt K) : FinML.Flt.add .nan a = .nan := by cases a <;> rfl

theorem add_nan [Field K] (a : FinML.Flt K) : FinML.Flt.add a .nan = .nan := by cases a <;> rfl

theorem mul_nan [Field K] [LinearOrder K] (a : FinML.Flt K) : FinML.Flt.mul a .nan = .nan := by cases a <;> rfl

theorem div_nan [Field K] [LinearOrder K] (a : FinML.Flt K) : FinML.Flt.div a .nan = .nan := by cases a <;> rfl

variable [Field K] [LinearOrder K] [IsStrictOrderedRing K]

/-! ## Statements -/

/-- C298. With the newest uniqueness known, the known ones positive, and `-1 < c ≤ 1`: the weights of the known observations are
those `apply_time_decay_to_weights` gives to them alone, and exactly the missing ones have weight NaN.  Missing: a newest
observation whose uniqueness is missing, and `c = -1`; there every weight is NaN. -/
theorem C298_missing_partial (obs : Series (Option K)) (hn : (obs.map Prod.fst).Nodup) (hpos : ∀ t x, (t, some x) ∈ obs → 0 < x)
    (c : K) (hc : -1 < c) (hc1 : c ≤ 1) (t : ℤ) (x : K) (hx : (t, some x) ∈ obs) (hnew : ∀ q ∈ obs, q.1 ≤ t) :
    ∃ res, applyTimeDecayF (toF obs) c = .ok res ∧ applyTimeDecay (knownObs obs) c = .ok (finite res) ∧
      (res.map Prod.fst).Perm (obs.map Prod.fst) ∧ (res.map Prod.fst).Pairwise (· < ·) ∧
      (∀ u, (u, .nan) ∈ res ↔ (u, none) ∈ obs) ∧ (∀ p ∈ res, p.2 = .nan ∨ ∃ w, p.2 = .fin w ∧ 0 ≤ w ∧ w ≤ 1) := by
  obtain ⟨l, hl⟩ := newest_last obs hn _ hx hnew
  have hkn := known_keys obs hn
  have hkpos : ∀ p ∈ knownObs obs, 0 < p.2 := by
    intro p hp
    obtain ⟨q, hq, e⟩ := List.mem_filterMap.1 hp
    obtain ⟨v, hv, rfl⟩ := Option.map_eq_some_iff.1 e
    exact hpos q.1 v (by rw [← hv]; exact hq)
  have hkmem : (t, x) ∈ knownObs obs := List.mem_filterMap.2 ⟨_, hx, rfl⟩
  have hkne : knownObs obs ≠ [] := List.ne_nil_of_mem hkmem
  obtain ⟨r0, hr0, -, -, -, hb, -⟩ := C37_time_decay (knownObs obs) hkne hkpos hkn c hc hc1
  have hlast : pyLast (cumsumFromF (.fin 0) ((sortIndex (toF obs)).map Prod.snd)) =
      .ok (.fin ((knownObs obs).map Prod.snd).sum) := by
    rw [pyLast_eq_ok_iff, sortIndex_toF obs hn]
    have e : (toF (sortIndex obs)).map Prod.snd = (sortIndex obs).map fun p => ofMissing p.2 := by
      unfold toF; rw [List.map_map]; rfl
    rw [e, hl, cumsumFromF_last, zero_add, ← hl, ← sortIndex_known obs hn, ((sortIndex_perm _).map _).sum_eq]
  have hlast0 : pyLast (cumsum ((sortIndex (knownObs obs)).map Prod.snd)) = .ok ((knownObs obs).map Prod.snd).sum := by
    rw [pyLast_eq_ok_iff]
    unfold cumsum
    rw [cumsum_getLast _ (by
      intro h
      have h1 := congrArg List.length h
      rw [List.length_map, (sortIndex_perm _).length_eq] at h1
      exact hkne (List.length_eq_zero_iff.1 h1)), zero_add, ((sortIndex_perm _).map _).sum_eq]
  have h0 := hr0
  unfold applyTimeDecay at h0
  simp only at h0
  rw [hlast0, py_bind_ok] at h0
  cases hsl : decaySlope c ((knownObs obs).map Prod.snd).sum with
  | none => rw [hsl] at h0; cases h0
  | some slope =>
    rw [hsl] at h0
    simp only [py_pure, Except.ok.injEq] at h0
    have hF : applyTimeDecayF (toF obs) c = .ok (((sortIndex obs).map Prod.fst).zip
        ((cumsumFromF (.fin 0) ((sortIndex obs).map fun p => ofMissing p.2)).map fun v => clipF (FinML.Flt.add
          (FinML.Flt.sub (.fin 1) (FinML.Flt.mul (.fin slope) (.fin ((knownObs obs).map Prod.snd).sum)))
          (FinML.Flt.mul (.fin slope) v)))) := by
      unfold applyTimeDecayF
      simp only
      rw [hlast, py_bind_ok, slopeF_fin hsl, sortIndex_toF obs hn]
      unfold toF
      rw [List.map_map, List.map_map]
      rfl
    obtain ⟨k1, k2⟩ := cumsumFromF_known (fun v => clipF (FinML.Flt.add
          (FinML.Flt.sub (.fin 1) (FinML.Flt.mul (.fin slope) (.fin ((knownObs obs).map Prod.snd).sum)))
          (FinML.Flt.mul (.fin slope) v)))
      (fun v => if 1 - slope * ((knownObs obs).map Prod.snd).sum + slope * v < 0 then 0
        else 1 - slope * ((knownObs obs).map Prod.snd).sum + slope * v) (by
        intro v
        simp only [FinML.Flt.sub, FinML.Flt.mul, FinML.Flt.neg, FinML.Flt.add, clipF, ← sub_eq_add_neg]
        split_ifs <;> rfl) rfl (sortIndex obs) 0
    have k3 := cumsumFromF_values (fun v => clipF (FinML.Flt.add
          (FinML.Flt.sub (.fin 1) (FinML.Flt.mul (.fin slope) (.fin ((knownObs obs).map Prod.snd).sum)))
          (FinML.Flt.mul (.fin slope) v)))
      (fun v => if 1 - slope * ((knownObs obs).map Prod.snd).sum + slope * v < 0 then 0
        else 1 - slope * ((knownObs obs).map Prod.snd).sum + slope * v) (by
        intro v
        simp only [FinML.Flt.sub, FinML.Flt.mul, FinML.Flt.neg, FinML.Flt.add, clipF, ← sub_eq_add_neg]
        split_ifs <;> rfl) rfl (sortIndex obs) 0
    rw [← sortIndex_known obs hn] at k1
    unfold cumsum at h0
    rw [← k1] at h0
    generalize hres : (((sortIndex obs).map Prod.fst).zip
        ((cumsumFromF (.fin 0) ((sortIndex obs).map fun p => ofMissing p.2)).map fun v => clipF (FinML.Flt.add
          (FinML.Flt.sub (.fin 1) (FinML.Flt.mul (.fin slope) (.fin ((knownObs obs).map Prod.snd).sum)))
          (FinML.Flt.mul (.fin slope) v)))) = res at hF h0 k2
    have hkeys : res.map Prod.fst = (sortIndex obs).map Prod.fst := by
      rw [← hres, List.map_fst_zip]
      rw [List.length_map, List.length_map, cumsumFromF_length, List.length_map]
    refine ⟨res, hF, by rw [hr0, ← h0], ?_, ?_, ?_, ?_⟩
    · rw [hkeys]; exact (sortIndex_perm obs).map _
    · rw [hkeys, List.pairwise_map]; exact sortIndex_sorted obs hn
    · intro u
      rw [k2, (sortIndex_perm obs).mem_iff]
    · rintro ⟨u, v⟩ hp
      cases v with
      | nan => exact .inl rfl
      | fin w =>
        have := hb (u, w) (by rw [← h0]; exact finite_mem hp)
        exact .inr ⟨w, rfl, this.1, this.2⟩
      | posInf =>
        rw [← hres] at hp
        rcases k3 _ (List.of_mem_zip hp).2 with h | ⟨w, h⟩ <;> cases h
      | negInf =>
        rw [← hres] at hp
        rcases k3 _ (List.of_mem_zip hp).2 with h | ⟨w, h⟩ <;> cases h

/-- C298. If the uniqueness of the newest observation is missing, every weight is NaN. -/
theorem C298_newest_missing (obs : Series (Option K)) (hn : (obs.map Prod.fst).Nodup) (c : K) (t : ℤ) (hx : (t, none) ∈ obs)
    (hnew : ∀ q ∈ obs, q.1 ≤ t) :
    ∃ res, applyTimeDecayF (toF obs) c = .ok res ∧ res.length = obs.length ∧ ∀ p ∈ res, p.2 = .nan := by
  obtain ⟨l, hl⟩ := newest_last obs hn _ hx hnew
  have hlast : pyLast (cumsumFromF (.fin 0) ((sortIndex (toF obs)).map Prod.snd)) = .ok .nan := by
    rw [pyLast_eq_ok_iff, sortIndex_toF obs hn]
    have e : (toF (sortIndex obs)).map Prod.snd = (sortIndex obs).map fun p => ofMissing p.2 := by
      unfold toF; rw [List.map_map]; rfl
    rw [e, hl, cumsumFromF_last_nan]
  unfold applyTimeDecayF
  simp only
  rw [hlast, py_bind_ok]
  refine ⟨_, rfl, ?_, ?_⟩
  · rw [List.length_zip, List.length_map, List.length_map, cumsumFromF_length, List.length_map, Nat.min_self,
      (sortIndex_perm _).length_eq]
    exact List.length_map _
  · rintro ⟨u, v⟩ hp
    obtain ⟨w, -, rfl⟩ := List.mem_map.1 (List.of_mem_zip hp).2
    simp only [mul_nan, FinML.Flt.sub, FinML.Flt.neg, add_nan, nan_add, clipF]

theorem cumsumFromF_nonneg (l : List (FinML.Flt K)) (hl : ∀ x ∈ l, x = .nan ∨ ∃ r, x = .fin r ∧ 0 ≤ r) (s : K) (hs : 0 ≤ s) :
    ∀ x ∈ cumsumFromF (.fin s) l, x = .nan ∨ ∃ r, x = .fin r ∧ 0 ≤ r := by
  induction l generalizing s with
  | nil => intro x hx; cases hx
  | cons y ys ih =>
    intro x hx
    unfold cumsumFromF at hx
    rcases hl y (by simp) with rfl | ⟨r, rfl, hr⟩
    · rcases List.mem_cons.1 hx with rfl | hx
      · exact .inl rfl
      · exact ih (fun z hz => hl z (by simp [hz])) s hs x hx
    · rcases List.mem_cons.1 hx with rfl | hx
      · exact .inr ⟨s + r, rfl, by linarith⟩
      · exact ih (fun z hz => hl z (by simp [hz])) (s + r) (by linarith) x hx

/-- C298. With `oldest_weight = -1` every weight is NaN. -/
theorem C298_minus_one (obs : Series (Option K)) (hne : obs ≠ []) (hpos : ∀ t x, (t, some x) ∈ obs → 0 ≤ x) :
    ∃ res, applyTimeDecayF (toF obs) (-1) = .ok res ∧ res.length = obs.length ∧ ∀ p ∈ res, p.2 = .nan := by
  have hval : ∀ x ∈ cumsumFromF (.fin (0 : K)) ((sortIndex (toF obs)).map Prod.snd), x = .nan ∨ ∃ r, x = .fin r ∧ 0 ≤ r := by
    apply cumsumFromF_nonneg _ _ 0 (le_refl _)
    intro x hx
    obtain ⟨p, hp, rfl⟩ := List.mem_map.1 hx
    obtain ⟨⟨t, o⟩, hq, rfl⟩ := List.mem_map.1 ((sortIndex_perm _).mem_iff.1 hp)
    cases o with
    | none => exact .inl rfl
    | some v => exact .inr ⟨v, rfl, hpos t v hq⟩
  have hlen : (cumsumFromF (.fin (0 : K)) ((sortIndex (toF obs)).map Prod.snd)).length = obs.length := by
    rw [cumsumFromF_length, List.length_map, (sortIndex_perm _).length_eq]
    exact List.length_map _
  obtain ⟨last, hlast⟩ : ∃ v, (cumsumFromF (.fin (0 : K)) ((sortIndex (toF obs)).map Prod.snd)).getLast? = some v := by
    rw [← Option.isSome_iff_exists, List.getLast?_isSome]
    intro h
    rw [h] at hlen
    exact hne (List.length_eq_zero_iff.1 hlen.symm)
  have hl2 := hval last (List.mem_of_getLast? hlast)
  unfold applyTimeDecayF
  simp only
  rw [(pyLast_eq_ok_iff _ _).2 hlast, py_bind_ok]
  refine ⟨_, rfl, ?_, ?_⟩
  · rw [List.length_zip, List.length_map, List.length_map, hlen, (sortIndex_perm _).length_eq]
    unfold toF
    rw [List.length_map, Nat.min_self]
  · rintro ⟨u, v⟩ hp
    obtain ⟨w, hw, rfl⟩ := List.mem_map.1 (List.of_mem_zip hp).2
    have hneg : ¬ (0 : K) ≤ -1 := by linarith [zero_lt_one (α := K)]
    rcases hl2 with rfl | ⟨r, rfl, hr⟩
    · simp only [mul_nan, FinML.Flt.sub, FinML.Flt.neg, add_nan, nan_add, clipF]
    · have hs : decaySlopeF (-1) (.fin r) = .posInf := by
        unfold decaySlopeF
        rw [if_neg hneg]
        simp [FinML.Flt.mul, FinML.Flt.div, FinML.Flt.infOf]
      rw [hs]
      rcases hval w hw with rfl | ⟨q, rfl, hq⟩
      · simp only [mul_nan, add_nan, clipF]
      · rcases hr.eq_or_lt with rfl | hr
        · simp [FinML.Flt.mul, FinML.Flt.infOf, FinML.Flt.sub, FinML.Flt.neg, add_nan, nan_add, clipF]
        · rcases hq.eq_or_lt with rfl | hq
          · simp [FinML.Flt.mul, FinML.Flt.infOf, add_nan, clipF]
          · simp [FinML.Flt.mul, FinML.Flt.infOf, FinML.Flt.sub, FinML.Flt.neg, FinML.Flt.add, hr, hq, clipF]

/-- The claim: for `-1 ≤ c ≤ 1` and positive known uniquenesses every known observation has a weight in [0,1]. -/
def KnownWeighted (K : Type) [Field K] [LinearOrder K] : Prop :=
  ∀ (obs : Series (Option K)) (c : K) (res : Series (FinML.Flt K)), (obs.map Prod.fst).Nodup →
    (∀ t x, (t, some x) ∈ obs → 0 < x) → -1 ≤ c → c ≤ 1 → applyTimeDecayF (toF obs) c = .ok res →
    ∀ t x, (t, some x) ∈ obs → ∃ w, (t, .fin w) ∈ res ∧ 0 ≤ w ∧ w ≤ 1

/-- C298. The claim fails for a newest observation without uniqueness and for `c = -1`. -/
theorem C298_weighted_counterexample : ¬ KnownWeighted ℚ ∧
    applyTimeDecayF (toF [(0, some 1), (1, none)]) (1 : ℚ) = .ok [(0, .nan), (1, .nan)] ∧
    applyTimeDecayF (toF [(0, some 1), (1, some 1)]) (-1 : ℚ) = .ok [(0, .nan), (1, .nan)] := by
  have h1 : applyTimeDecayF (toF [(0, some 1), (1, none)]) (1 : ℚ) = .ok [(0, .nan), (1, .nan)] := by decide +kernel
  refine ⟨?_, h1, by decide +kernel⟩
  intro h
  obtain ⟨w, hw, -⟩ := h [(0, some 1), (1, none)] 1 _ (by decide) (by simp) (by norm_num) (le_refl _) h1 0 1 (by simp)
  simp at hw

/-- The hypotheses of `C298_missing_partial` hold, with a missing observation in the middle. -/
example : applyTimeDecayF (toF [(2, none), (1, some 1), (3, some 1)]) (0 : ℚ) = .ok [(1, .fin (1 / 2)), (2, .nan), (3, .fin 1)] ∧
    applyTimeDecay (knownObs [(2, none), (1, some 1), (3, some 1)]) (0 : ℚ) = .ok [(1, 1 / 2), (3, 1)] := by decide +kernel

end FinML.Weights
