import Verif.Micro.RollMissProps
import Verif.Micro.FlowProps
import Verif.Micro.UnitProps

/-!
# Price impact regressions with missing values (C354)

Kyle's regression is refused if a price or a volume is missing; Amihud's is refused or has the slope NaN.  Hasbrouck's goes on
with what is left, since `last` and `sum` of a group skip missing values.
-/

namespace FinML.Micro

open Bars (changeM mulM tickRule tickRuleM)

/-- C354, the full claim for Hasbrouck's regression: with a price or volume missing no number is reported. -/
def NoSilentGap (ols : List (List ℝ) → List ℝ → List ℝ) : Prop :=
  ∀ (ticks : List (BTickM ℝ)) (b0 : ℝ) (r : Option ℝ), (∃ t ∈ ticks, t.price = none ∨ t.volume = none) →
    hasbrouckLambdaM ols ticks b0 = .ok r → r = none

theorem mulM_eq_none (a b : Option ℝ) : mulM a b = none ↔ a = none ∨ b = none := by
  cases a <;> cases b <;> simp [mulM]

theorem none_mem_zipWith (l m : List (Option ℝ)) (h : l.length = m.length) :
    none ∈ List.zipWith mulM l m ↔ none ∈ l ∨ none ∈ m := by
  induction l generalizing m with
  | nil =>
    cases m with
    | nil => simp
    | cons y m => simp at h
  | cons x l ih =>
    cases m with
    | nil => simp at h
    | cons y m =>
      have := ih m (by simpa using h)
      rw [List.zipWith_cons_cons, List.mem_cons, List.mem_cons, List.mem_cons, this, eq_comm, mulM_eq_none, eq_comm (b := x),
        eq_comm (b := y)]
      tauto

theorem none_mem_flags (b0 : ℝ) (prices : List (Option ℝ)) (h2 : 2 ≤ prices.length) :
    none ∈ (tickRuleM b0 prices).tail ↔ none ∈ prices := by
  have hlen := (Bars.C348_known_partial b0 prices).2
  constructor
  · intro h
    obtain ⟨i, hi⟩ := List.mem_iff_getElem?.1 h
    rw [List.getElem?_tail] at hi
    have hi' : i + 1 < prices.length := by
      have := (List.getElem?_eq_some_iff.1 hi).1
      omega
    obtain ⟨j, -, hj, -⟩ := (Bars.C348_unknown b0 prices (i + 1) hi').1 hi
    rcases hj.2 with hj | hj <;> exact List.mem_of_getElem? hj
  · intro h
    obtain ⟨i, hi⟩ := List.mem_iff_getElem?.1 h
    have hi' := (List.getElem?_eq_some_iff.1 hi).1
    by_cases h0 : i = 0
    · subst h0
      have := (Bars.C348_unknown b0 prices 1 (by omega)).2 ⟨1, le_rfl, ⟨le_rfl, .inr hi⟩, fun k h1 h2 => by omega⟩
      refine List.mem_iff_getElem?.2 ⟨0, ?_⟩
      rw [List.getElem?_tail]
      exact this
    · have := (Bars.C348_unknown b0 prices i hi').2 ⟨i, le_rfl, ⟨by omega, .inl hi⟩, fun k h1 h2 => by omega⟩
      refine List.mem_iff_getElem?.2 ⟨i - 1, ?_⟩
      rw [List.getElem?_tail, show i - 1 + 1 = i by omega]
      exact this

theorem slopeM_exception (ols : List (List ℝ) → List ℝ → List ℝ) (x y : List (Option ℝ)) :
    slopeM ols x y = .error .exception ↔ none ∈ x := by
  unfold slopeM
  by_cases h : none ∈ x
  · simp [h]
  · rw [if_neg h]
    simp only [h, iff_false]
    intro hc
    cases ha : addConstant x.reduceOption with
    | error e =>
      rw [ha] at hc
      have : e = .exception := by injection hc
      subst this
      unfold addConstant at ha
      split_ifs at ha
      cases ha
    | ok X =>
      rw [ha, py_bind_ok] at hc
      unfold pyGet at hc
      cases hg : (ols X (y.map fun o => o.getD 0))[1]? with
      | none => rw [hg] at hc; cases hc
      | some v => rw [hg] at hc; cases hc

theorem slopeM_ok (ols : List (List ℝ) → List ℝ → List ℝ) (x y : List (Option ℝ)) (r : Option ℝ)
    (h : slopeM ols x y = .ok r) : r = none ↔ none ∈ y := by
  unfold slopeM at h
  by_cases hx : none ∈ x
  · rw [if_pos hx] at h
    cases h
  rw [if_neg hx, py_bind_eq_ok] at h
  obtain ⟨X, -, h⟩ := h
  rw [py_bind_eq_ok] at h
  obtain ⟨v, -, h⟩ := h
  cases h
  by_cases hy : none ∈ y <;> simp [hy]

theorem map_getD_eq (y : List (Option ℝ)) (h : none ∉ y) : y.map (fun o => o.getD 0) = y.reduceOption := by
  induction y with
  | nil => rfl
  | cons o y ih =>
    cases o with
    | none => simp at h
    | some v =>
      rw [List.map_cons, List.reduceOption_cons_of_some, ih (by simpa using h)]
      rfl

/-- C354, Kyle (missing from the full claim: Hasbrouck).  The regression is refused exactly if a price is missing, or a volume
after the first. -/
theorem C354_kyle_partial (ols : List (List ℝ) → List ℝ → List ℝ) (prices volumes : List (Option ℝ)) (b0 : ℝ)
    (hlen : volumes.length = prices.length) (h2 : 2 ≤ prices.length) :
    kyleLambdaM ols prices volumes b0 = .error .exception ↔ none ∈ prices ∨ none ∈ volumes.tail := by
  have hl := (Bars.C348_known_partial b0 prices).2
  have ht : (List.zipWith mulM volumes (tickRuleM b0 prices)).tail =
      List.zipWith mulM volumes.tail (tickRuleM b0 prices).tail := by
    cases volumes <;> cases tickRuleM b0 prices <;> simp
  unfold kyleLambdaM
  rw [slopeM_exception, ht, none_mem_zipWith _ _ (by rw [List.length_tail, List.length_tail]; omega), none_mem_flags b0 prices h2]
  tauto

theorem fills_eq (fill : List ℝ) (l : List (Option ℝ)) (h : FillsPrices fill l) (hn : none ∉ l) : fill.map some = l := by
  induction h with
  | nil => rfl
  | @cons f o fl ol hx _ ih =>
    cases o with
    | none => simp at hn
    | some x =>
      rw [List.map_cons, hx x rfl, ih (by simpa using hn)]

theorem fills_tail (fill : List ℝ) (l : List (Option ℝ)) (h : FillsPrices fill l) : FillsPrices fill.tail l.tail := by
  cases h with
  | nil => exact .nil
  | cons _ ht => exact ht

/-- C354, Kyle.  If only the first volume is missing, the result is the one of C63 with any volume in its place. -/
theorem C354_kyle_complete (ols : List (List ℝ) → List ℝ → List ℝ) (prices fill : List ℝ) (volumes : List (Option ℝ)) (b0 : ℝ)
    (hf : FillsPrices fill volumes) (hn : none ∉ volumes.tail) :
    kyleLambdaM ols (prices.map some) volumes b0 = (kyleLambda ols prices fill b0).map some := by
  have hv := fills_eq _ _ (fills_tail fill volumes hf) hn
  have hx : (List.zipWith mulM volumes ((tickRule b0 prices).map some)).tail =
      ((List.zipWith (· * ·) fill (tickRule b0 prices)).tail).map some := by
    have h1 : (List.zipWith mulM volumes ((tickRule b0 prices).map some)).tail =
        List.zipWith mulM volumes.tail ((tickRule b0 prices).map some).tail := by
      cases volumes <;> cases tickRule b0 prices <;> simp
    have h2 : (List.zipWith (· * ·) fill (tickRule b0 prices)).tail = List.zipWith (· * ·) fill.tail (tickRule b0 prices).tail := by
      cases fill <;> cases tickRule b0 prices <;> simp
    rw [h1, h2, ← hv, ← List.map_tail, List.zipWith_map, List.map_zipWith]
    rfl
  unfold kyleLambdaM kyleLambda slopeM
  rw [Bars.C348_complete, hx, diff1M_complete, if_neg (none_notMem_map_some _), reduceOption_map_some]
  simp only
  cases addConstant (List.zipWith (· * ·) fill (tickRule b0 prices)).tail with
  | error e => rfl
  | ok X =>
    simp only [py_bind_ok, if_neg (none_notMem_map_some _), List.map_map]
    have : (fun o : Option ℝ => o.getD 0) ∘ some = id := rfl
    rw [this, List.map_id]
    cases pyGet (ols X (diff1 prices)) 1 <;> rfl

theorem none_mem_diff1M_iff (l : List (Option ℝ)) (h2 : 2 ≤ l.length) : none ∈ diff1M l ↔ none ∈ l := by
  refine ⟨fun h => ?_, fun h => none_mem_diff1M l h h2⟩
  by_contra hc
  have : l = l.reduceOption.map some := by
    clear h h2
    induction l with
    | nil => rfl
    | cons o l ih =>
      cases o with
      | none => simp at hc
      | some x =>
        rw [List.reduceOption_cons_of_some, List.map_cons, ← ih (by simpa using hc)]
  rw [this, diff1M_complete] at h
  exact none_notMem_map_some _ h

/-- C354, Amihud.  The regression is refused exactly if a VWAP or a volume after the first bar is missing; if it is not, its slope
is NaN exactly if a close is missing. -/
theorem C354_amihud_partial (ols : List (List ℝ) → List ℝ → List ℝ) (closes vwaps volumes : List (Option ℝ))
    (hlen : volumes.length = closes.length) (hlen' : vwaps.length = closes.length) (h2 : 2 ≤ closes.length)
    (hpos : ∀ c, some c ∈ closes → 0 < c) :
    (amihudLambdaM ols closes vwaps volumes = .error .exception ↔ none ∈ vwaps.tail ∨ none ∈ volumes.tail) ∧
    ∀ r, amihudLambdaM ols closes vwaps volumes = .ok r → (r = none ↔ none ∈ closes) := by
  have hp : ¬ ∃ c ∈ closes.reduceOption, c ≤ 0 := by
    rintro ⟨c, hc, h0⟩
    exact absurd (hpos c (List.reduceOption_mem_iff.1 hc)) (not_lt.2 h0)
  have ht : (List.zipWith mulM vwaps volumes).tail = List.zipWith mulM vwaps.tail volumes.tail := by
    cases vwaps <;> cases volumes <;> simp
  unfold amihudLambdaM
  rw [if_neg hp]
  refine ⟨?_, fun r hr => ?_⟩
  · rw [slopeM_exception, ht, none_mem_zipWith _ _ (by rw [List.length_tail, List.length_tail]; omega)]
  · have hm : ∀ (f : ℝ → ℝ) (l : List (Option ℝ)), none ∈ l.map (Option.map f) ↔ none ∈ l := by
      intro f l
      simp [List.mem_map]
    rw [slopeM_ok _ _ _ _ hr, hm, none_mem_diff1M_iff _ (by simpa using h2), hm]

/-- The tick with volume 0 in place of a missing one. -/
def BTickM.fill0 (t : BTickM ℝ) : BTickM ℝ := { t with volume := some (t.volume.getD 0) }

theorem groupBy_sum (ids : List ℤ) (x y : List (Option ℝ))
    (h : List.Forall₂ (fun a b : Option ℝ => a.getD 0 = b.getD 0) x y) :
    ((groupBy ids x).map fun g => some g.2.reduceOption.sum) = (groupBy ids y).map fun g => some g.2.reduceOption.sum := by
  have hsum : ∀ l : List (Option ℝ), l.reduceOption.sum = (l.map fun o => o.getD 0).sum := by
    intro l
    induction l with
    | nil => rfl
    | cons o l ih =>
      cases o with
      | none => rw [List.reduceOption_cons_of_none, ih]; simp
      | some v => rw [List.reduceOption_cons_of_some, List.sum_cons, ih]; simp
  unfold groupBy
  rw [List.map_map, List.map_map]
  apply List.map_congr_left
  intro k hk
  clear hk
  simp only [Function.comp_apply, hsum]
  congr 2
  induction h generalizing ids with
  | nil => rfl
  | cons hab _ ih =>
    cases ids with
    | nil => rfl
    | cons i ids =>
      have := ih ids
      simp only [List.zip_cons_cons, List.filter_cons]
      split_ifs
      · simp only [List.map_cons, hab]
        rw [this]
      · exact this

/-- C354, Hasbrouck.  A missing volume counts as 0. -/
theorem C354_hasbrouck_volume (ols : List (List ℝ) → List ℝ → List ℝ) (ticks : List (BTickM ℝ)) (b0 : ℝ) :
    hasbrouckLambdaM ols ticks b0 = hasbrouckLambdaM ols (ticks.map BTickM.fill0) b0 := by
  unfold hasbrouckLambdaM
  have e1 : (ticks.map BTickM.fill0).map (fun t => t.bar) = ticks.map fun t => t.bar := by rw [List.map_map]; rfl
  have e2 : (ticks.map BTickM.fill0).map (fun t => t.price) = ticks.map fun t => t.price := by rw [List.map_map]; rfl
  have hc : ((∃ t ∈ ticks.map BTickM.fill0, ∃ p, t.price = some p ∧ p ≤ 0) ∨
      (∃ t ∈ ticks.map BTickM.fill0, ∃ v, t.volume = some v ∧ v < 0)) ↔
      ((∃ t ∈ ticks, ∃ p, t.price = some p ∧ p ≤ 0) ∨ (∃ t ∈ ticks, ∃ v, t.volume = some v ∧ v < 0)) := by
    refine or_congr ?_ ?_
    · constructor
      · rintro ⟨t, ht, p, hp⟩
        obtain ⟨t', ht', rfl⟩ := List.mem_map.1 ht
        exact ⟨t', ht', p, hp⟩
      · rintro ⟨t, ht, p, hp⟩
        exact ⟨t.fill0, List.mem_map_of_mem ht, p, hp⟩
    · constructor
      · rintro ⟨t, ht, v, hv, h0⟩
        obtain ⟨t', ht', rfl⟩ := List.mem_map.1 ht
        refine ⟨t', ht', v, ?_, h0⟩
        cases hvv : t'.volume with
        | none =>
          simp only [BTickM.fill0, hvv, Option.getD_none, Option.some_inj] at hv
          linarith
        | some u => simpa [BTickM.fill0, hvv] using hv
      · rintro ⟨t, ht, v, hv, h0⟩
        exact ⟨t.fill0, List.mem_map_of_mem ht, v, by simp [BTickM.fill0, hv], h0⟩
  by_cases hneg : (∃ t ∈ ticks, ∃ p, t.price = some p ∧ p ≤ 0) ∨ (∃ t ∈ ticks, ∃ v, t.volume = some v ∧ v < 0)
  · rw [if_pos hneg, if_pos (hc.2 hneg)]
  · rw [if_neg hneg, if_neg (fun h => hneg (hc.1 h))]
    simp only [e1, e2]
    congr 2
    apply groupBy_sum
    rw [List.zipWith_map_left]
    generalize tickRuleM b0 (ticks.map fun t => t.price) = fl
    clear e1 e2 hc hneg
    induction ticks generalizing fl with
    | nil => exact .nil
    | cons t ts ih =>
      cases fl with
      | nil => exact .nil
      | cons a fl =>
        refine .cons ?_ (ih fl)
        obtain ⟨p, v, b⟩ := t
        cases p <;> cases v <;> cases a <;> simp [BTickM.fill0, mulM]

theorem slopeM_complete (ols : List (List ℝ) → List ℝ → List ℝ) (x y : List ℝ) :
    slopeM ols (x.map some) (y.map some) = (do let X ← addConstant x; pyGet (ols X y) 1).map some := by
  unfold slopeM
  rw [if_neg (none_notMem_map_some _), reduceOption_map_some]
  cases addConstant x with
  | error e => rfl
  | ok X =>
    simp only [py_bind_ok, if_neg (none_notMem_map_some _), List.map_map]
    have : (fun o : Option ℝ => o.getD 0) ∘ some = id := rfl
    rw [this, List.map_id]
    cases pyGet (ols X y) 1 <;> rfl

/-- C354, Amihud.  With all values known this is the model of C63. -/
theorem C354_amihud_complete (ols : List (List ℝ) → List ℝ → List ℝ) (closes vwaps volumes : List ℝ) :
    amihudLambdaM ols (closes.map some) (vwaps.map some) (volumes.map some) =
      (amihudLambda ols closes vwaps volumes).map some := by
  unfold amihudLambdaM amihudLambda
  rw [reduceOption_map_some]
  by_cases h : ∃ c ∈ closes, c ≤ 0
  · rw [if_pos h, if_pos h]
    rfl
  · rw [if_neg h, if_neg h, ← slopeM_complete]
    have hx : List.zipWith mulM (vwaps.map some) (volumes.map some) = (List.zipWith (· * ·) vwaps volumes).map some := by
      rw [List.zipWith_map, List.map_zipWith]
      rfl
    have hl : (closes.map some).map (Option.map Real.log) = (closes.map Real.log).map some := by
      rw [List.map_map, List.map_map]
      rfl
    rw [hx, hl, diff1M_complete, ← List.map_tail, List.map_map, List.map_map]
    rfl

/-- A tick whose price and volume are known. -/
def BTick.known {K : Type} (t : BTick K) : BTickM K := ⟨some t.price, some t.volume, t.bar⟩

theorem getLast?_group (ids : List ℤ) (xs : List ℝ) (hl : ids.length = xs.length) :
    (groupBy ids (xs.map some)).map (fun g => lastKnown g.2) = ((groupBy ids xs).map fun g => lastD g.2).map some := by
  rw [groupBy_map, List.map_map, List.map_map]
  apply List.map_congr_left
  intro g hg
  unfold groupBy at hg
  obtain ⟨k, hk, rfl⟩ := List.mem_map.1 hg
  simp only [Function.comp_apply, lastKnown, reduceOption_map_some, lastD]
  have hne : (((ids.zip xs).filter fun p => p.1 = k).map Prod.snd) ≠ [] := by
    have hk' : k ∈ ids := by
      rw [List.mem_insertionSort] at hk
      exact List.mem_dedup.1 hk
    obtain ⟨i, hi, rfl⟩ := List.getElem_of_mem hk'
    have : (ids[i], xs[i]'(hl ▸ hi)) ∈ (ids.zip xs).filter fun p => p.1 = ids[i] := by
      rw [List.mem_filter]
      refine ⟨?_, by simp⟩
      rw [List.mem_iff_getElem]
      exact ⟨i, by simp [hi, ← hl], by simp⟩
    intro hc
    rw [List.map_eq_nil_iff] at hc
    rw [hc] at this
    cases this
  rw [List.getLastD_eq_getLast?, List.getLast?_eq_some_getLast hne]
  rfl

/-- C354, Hasbrouck.  With all values known this is the model of C64. -/
theorem C354_hasbrouck_complete (ols : List (List ℝ) → List ℝ → List ℝ) (ticks : List (BTick ℝ)) (b0 : ℝ) :
    hasbrouckLambdaM ols (ticks.map BTick.known) b0 = (hasbrouckLambda ols ticks b0).map some := by
  have hc : ((∃ t ∈ ticks.map BTick.known, ∃ p, t.price = some p ∧ p ≤ 0) ∨
      (∃ t ∈ ticks.map BTick.known, ∃ v, t.volume = some v ∧ v < 0)) ↔ ∃ t ∈ ticks, t.price ≤ 0 ∨ t.volume < 0 := by
    simp only [List.mem_map, exists_exists_and_eq_and, BTick.known, Option.some.injEq, exists_eq_left']
    constructor
    · rintro (⟨t, ht, h⟩ | ⟨t, ht, h⟩)
      exacts [⟨t, ht, .inl h⟩, ⟨t, ht, .inr h⟩]
    · rintro ⟨t, ht, h | h⟩
      exacts [.inl ⟨t, ht, h⟩, .inr ⟨t, ht, h⟩]
  unfold hasbrouckLambdaM hasbrouckLambda
  by_cases h : ∃ t ∈ ticks, t.price ≤ 0 ∨ t.volume < 0
  · rw [if_pos (hc.2 h), if_pos h]
    rfl
  · rw [if_neg (fun h' => h (hc.1 h')), if_neg h]
    have e1 : (ticks.map BTick.known).map (fun t => t.bar) = ticks.map fun t => t.bar := by rw [List.map_map]; rfl
    have e2 : (ticks.map BTick.known).map (fun t => t.price) = (ticks.map fun t => t.price).map some := by
      rw [List.map_map, List.map_map]; rfl
    have e3 : List.zipWith (fun (t : BTickM ℝ) a => mulM ((mulM t.volume t.price).map Real.sqrt) a) (ticks.map BTick.known)
        ((tickRule b0 (ticks.map fun t => t.price)).map some) =
        (List.zipWith (fun (t : BTick ℝ) a => Real.sqrt (t.volume * t.price) * a) ticks
          (tickRule b0 (ticks.map fun t => t.price))).map some := by
      rw [List.zipWith_map, List.map_zipWith]
      rfl
    have e4 : ∀ (ids : List ℤ) (xs : List ℝ), (groupBy ids (xs.map some)).map (fun g => some g.2.reduceOption.sum) =
        ((groupBy ids xs).map fun g => g.2.sum).map some := by
      intro ids xs
      rw [groupBy_map, List.map_map, List.map_map]
      apply List.map_congr_left
      intro g _
      simp only [Function.comp_apply, reduceOption_map_some]
    have e5 : ∀ l : List ℝ, (l.map some).map (Option.map Real.log) = (l.map Real.log).map some := by
      intro l
      rw [List.map_map, List.map_map]
      rfl
    have e6 := getLast?_group (ticks.map fun t => t.bar) (ticks.map fun t => t.price) (by simp)
    simp only [e1, e2, Bars.C348_complete, e3, e4, e5, e6, diff1M_complete, ← List.map_tail, slopeM_complete]

/-- Three bars of one tick each, the second without volume. -/
def noVolume : List (BTickM ℝ) := [⟨some 1, some 1, 0⟩, ⟨some 2, none, 1⟩, ⟨some 4, some 1, 2⟩]

/-- C354.  Hasbrouck's regression reports a number although a volume is missing. -/
theorem C354_counterexample (ols : List (List ℝ) → List ℝ → List ℝ) (hols : IsOls ols) : ¬ NoSilentGap ols := by
  intro h
  have hflags : tickRuleM (1 : ℝ) [some 1, some 2, some 4] = [some 1, some 1, some 1] := by
    norm_num [tickRuleM, Bars.tickRuleMFrom, changeM, Bars.flagM]
  have hg : ∀ a b c : Option ℝ, groupBy [(0 : ℤ), 1, 2] [a, b, c] = [(0, [a]), (1, [b]), (2, [c])] := by
    intro a b c
    have hs : ([(0 : ℤ), 1, 2].dedup.insertionSort (· ≤ ·)) = [0, 1, 2] := by decide
    unfold groupBy
    rw [hs]
    simp
  obtain ⟨v, hv⟩ : ∃ v, hasbrouckLambdaM ols noVolume 1 = .ok (some v) := by
    unfold hasbrouckLambdaM noVolume
    rw [if_neg (by simp)]
    simp only [List.map_cons, List.map_nil, hflags, List.zipWith_cons_cons, List.zipWith_nil_left, hg, lastKnown]
    unfold slopeM
    have hs : Real.sqrt (1 * 4) = 2 := by
      rw [show (1 : ℝ) * 4 = 2 ^ 2 by norm_num]
      exact Real.sqrt_sq (by norm_num)
    have hx : addConstant [0, 2] = .ok [[1, (0 : ℝ)], [1, 2]] := by
      unfold addConstant
      rw [if_neg (by simp), if_neg (by simp)]
      rfl
    simp only [mulM, diff1M, changeM, List.reduceOption, List.tail_cons, List.filterMap_cons, List.filterMap_nil, id,
      Option.bind_none, Option.bind_some, Option.map_none, Option.map_some, List.sum_cons, List.sum_nil, hs, List.getLast?_singleton,
      List.zipWith_cons_cons, List.zipWith_nil_left, List.map_cons, List.map_nil, mul_one, add_zero, List.mem_cons, reduceCtorEq,
      List.not_mem_nil, or_self, if_false, Option.getD_some, hx, py_bind_ok]
    have hlen := (hols [[1, (0 : ℝ)], [1, 2]] [Real.log 2 - Real.log 1, Real.log 4 - Real.log 2] 2 (by simp) rfl (by simp)).1
    obtain ⟨v, hv⟩ : ∃ v, (ols [[1, (0 : ℝ)], [1, 2]] [Real.log 2 - Real.log 1, Real.log 4 - Real.log 2])[1]? = some v :=
      ⟨_, List.getElem?_eq_getElem (by omega)⟩
    refine ⟨v, ?_⟩
    unfold pyGet
    rw [hv]
    rfl
  have := h noVolume 1 (some v) ⟨⟨some 2, none, 1⟩, by simp [noVolume], .inr rfl⟩ hv
  cases this

example (ols : List (List ℝ) → List ℝ → List ℝ) :
    kyleLambdaM ols [some 1, none, some 2] [some 1, some 1, some 1] 1 = .error .exception :=
  (C354_kyle_partial ols [some 1, none, some 2] [some 1, some 1, some 1] 1 rfl (by simp)).2 (.inl (by simp))

example (ols : List (List ℝ) → List ℝ → List ℝ) :
    amihudLambdaM ols [some 1, none, some 2] [some 1, none, some 1] [some 1, some 1, some 1] = .error .exception :=
  (C354_amihud_partial ols _ _ _ rfl rfl (by simp) (by simp)).1.2 (.inl (by simp))

end FinML.Micro
