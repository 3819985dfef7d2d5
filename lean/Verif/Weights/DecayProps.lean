import Verif.Weights.Lemmas
import Mathlib.Data.List.Sort
import Mathlib.Data.Rat.Defs
import Mathlib.Algebra.Order.Field.Rat
import Mathlib.Tactic.NormNum

/-! # Properties C36-C38 and C132: return attribution, time decay, rare labels -/

set_option linter.unusedSectionVars false

namespace FinML.Weights

variable {K : Type} [Field K] [LinearOrder K] [IsStrictOrderedRing K]

/-! ## C36 -/

/-- What one bar contributes. -/
noncomputable def entryVal (counts : Series ℕ) (e : ℤ × ℤ) (p : ℤ × Option ℝ) : Py ℝ :=
  match p.2, (slice counts e.1 e.2).find? fun q => q.1 = p.1 with
  | some r, some c => if c.2 = 0 then (.error .unmodelled : Py ℝ) else .ok (r / (c.2 : ℝ))
  | _, _ => .ok 0

theorem attribution_eq (rets : Series (Option ℝ)) (counts : Series ℕ) (e : ℤ × ℤ) :
    attribution rets counts e = (do
      let l ← (slice rets e.1 e.2).mapM (entryVal counts e)
      return l.sum) := rfl

theorem attribution_cons (p : ℤ × Option ℝ) (rets : Series (Option ℝ)) (counts : Series ℕ)
    (e : ℤ × ℤ) (v x : ℝ) (hx : attribution rets counts e = .ok x)
    (hv : (e.1 ≤ p.1 ∧ p.1 ≤ e.2) → entryVal counts e p = .ok v)
    (hv0 : ¬ (e.1 ≤ p.1 ∧ p.1 ≤ e.2) → v = 0) :
    attribution (p :: rets) counts e = .ok (v + x) := by
  rw [attribution_eq] at hx ⊢
  by_cases h : e.1 ≤ p.1 ∧ p.1 ≤ e.2
  · have : slice (p :: rets) e.1 e.2 = p :: slice rets e.1 e.2 := by
      unfold slice; rw [List.filter_cons_of_pos (by simpa using h)]
    rw [this, mapM_cons_py, hv h, py_bind_ok]
    rw [py_bind_eq_ok] at hx
    obtain ⟨l, hl, hx⟩ := hx
    rw [hl]
    cases hx
    simp
  · have : slice (p :: rets) e.1 e.2 = slice rets e.1 e.2 := by
      unfold slice; rw [List.filter_cons_of_neg (by simpa using h)]
    rw [this, hx, hv0 h, zero_add]

theorem find_slice (counts : Series ℕ) (e : ℤ × ℤ) (t : ℤ) (h : e.1 ≤ t ∧ t ≤ e.2) :
    ((slice counts e.1 e.2).find? fun q => q.1 = t) = counts.find? fun q => q.1 = t := by
  unfold slice
  induction counts with
  | nil => rfl
  | cons q qs ih =>
    by_cases hq : q.1 = t
    · have h1 : e.1 ≤ q.1 ∧ q.1 ≤ e.2 := by rw [hq]; exact h
      rw [List.filter_cons_of_pos (by simpa using h1), List.find?_cons_of_pos (by simpa using hq),
        List.find?_cons_of_pos (by simpa using hq)]
    · rw [List.find?_cons_of_neg (a := q) (l := qs) (by simpa using hq), ← ih]
      by_cases h1 : e.1 ≤ q.1 ∧ q.1 ≤ e.2
      · rw [List.filter_cons_of_pos (by simpa using h1), List.find?_cons_of_neg (by simpa using hq)]
      · rw [List.filter_cons_of_neg (by simpa using h1)]

theorem attribution_logReturns (counts : Series ℕ) (hc : ∀ q ∈ counts, q.2 ≠ 0) (e : ℤ × ℤ)
    (a : ℤ × ℝ) (bars : Series ℝ) (hpos : ∀ p ∈ a :: bars, 0 < p.2) :
    attribution (logReturns (some a.2) bars) counts e = .ok (attributed counts e (a :: bars)) := by
  induction bars generalizing a with
  | nil => simp [logReturns, attribution, slice, attributed]
  | cons b bars ih =>
    have hrow : logReturns (some a.2) (b :: bars) =
        (b.1, some (Real.log b.2 - Real.log a.2)) :: logReturns (some b.2) bars := rfl
    have hspec : attributed counts e (a :: b :: bars) =
        (if e.1 ≤ b.1 ∧ b.1 ≤ e.2 then
          match counts.find? fun q => q.1 = b.1 with
          | some c => Real.log (b.2 / a.2) / (c.2 : ℝ)
          | none => 0
         else 0) + attributed counts e (b :: bars) := rfl
    rw [hrow, hspec]
    apply attribution_cons _ _ _ _ _ _ (ih b (fun p hp => hpos p (by simp at hp ⊢; tauto)))
    · intro h
      simp only at h
      rw [if_pos h]
      unfold entryVal
      simp only
      rw [find_slice counts e b.1 h,
        Real.log_div (hpos b (by simp)).ne' (hpos a (by simp)).ne']
      cases hf : counts.find? (fun q => q.1 = b.1) with
      | none => rfl
      | some c =>
        simp only
        rw [if_neg (hc c (List.mem_of_find?_eq_some hf))]
    · intro h
      simp only at h
      rw [if_neg h]

/-- C36.  With positive prices and counts and distinct starts, the weight of an event is the absolute
return attributed to it, scaled so that the weights sum to the number of events, provided some
attribution is not 0. -/
theorem C36_weights (events : List (ℤ × ℤ)) (hn : (events.map Prod.fst).Nodup) (counts : Series ℕ)
    (hc : ∀ q ∈ counts, q.2 ≠ 0) (bars : Series ℝ) (hpos : ∀ p ∈ bars, 0 < p.2)
    (hnz : ∃ e ∈ events, attributed counts e bars ≠ 0) :
    ∃ ws : List ℝ, computeWeightsByReturns (events.map fun e => (e.1, some e.2)) counts bars =
        .ok ((events.map Prod.fst).zip (ws.map some)) ∧
      ws = (events.map fun e => |attributed counts e bars| *
        ((events.length : ℝ) / (events.map fun e => |attributed counts e bars|).sum)) ∧
      (∀ w ∈ ws, 0 ≤ w) ∧ ws.sum = events.length := by
  classical
  have hclosed : closedEvents (events.map fun e => (e.1, some e.2)) = .ok events := by
    clear hn hnz
    unfold closedEvents
    induction events with
    | nil => rfl
    | cons e es ih => rw [List.map_cons, mapM_cons_py, ih]; rfl
  have hattr : ∀ e, attribution (logReturns none bars) counts e = .ok (attributed counts e bars) := by
    intro e
    cases bars with
    | nil => simp [logReturns, attribution, slice, attributed]
    | cons a bars =>
      have h1 : logReturns none (a :: bars) = (a.1, none) :: logReturns (some a.2) bars := rfl
      rw [h1, attribution_cons _ _ _ _ 0 _ (attribution_logReturns counts hc e a bars hpos)]
      · rw [zero_add]
      · intro _; rfl
      · intro _; rfl
  have hraw : returnAttributions events counts (logReturns none bars) =
      .ok (events.map fun e => (e.1, |attributed counts e bars|)) := by
    unfold returnAttributions
    have hm : (events.mapM fun e => do
        let v ← attribution (logReturns none bars) counts e
        return (e, v)) = .ok (events.map fun e => (e, attributed counts e bars)) := by
      apply mapM_ok_of_forall
      intro e _
      rw [hattr e]
      rfl
    rw [hm, py_bind_ok]
    simp only [py_pure]
    congr 1
    have hfold := setLabel_fold (fun ev : (ℤ × ℤ) × ℝ => ev.1.1) (fun ev => ev.2)
      (events.map fun e => (e, attributed counts e bars)) (fun _ => (0 : ℝ)) (by
        rw [List.map_map]; exact hn)
    rw [List.map_map, List.map_map] at hfold
    have h2 : (events.map fun e => ((e.1, 0) : ℤ × ℝ)) =
        events.map ((fun e : (ℤ × ℤ) × ℝ => (e.1.1, (0 : ℝ))) ∘
          fun e => (e, attributed counts e bars)) := rfl
    rw [h2, hfold, List.map_map]
    rfl
  generalize hA : (fun e => |attributed counts e bars|) = A at *
  have hA' : ∀ e, |attributed counts e bars| = A e := fun e => congrFun hA e
  have hAnn : ∀ e, 0 ≤ A e := fun e => by rw [← hA']; exact abs_nonneg _
  have hS : 0 < (events.map A).sum := by
    obtain ⟨e, he, hne⟩ := hnz
    have h1 : A e ≤ (events.map A).sum := by
      apply List.single_le_sum
      · intro x hx
        obtain ⟨e', _, rfl⟩ := List.mem_map.1 hx
        exact hAnn e'
      · exact List.mem_map.2 ⟨e, he, rfl⟩
    have h2 : 0 < A e := by rw [← hA']; exact abs_pos.2 hne
    linarith
  refine ⟨events.map fun e => A e * ((events.length : ℝ) / (events.map A).sum), ?_, ?_, ?_, ?_⟩
  · unfold computeWeightsByReturns
    rw [if_neg (not_not.2 hpos), hclosed, py_bind_ok, hraw, py_bind_ok]
    simp only [py_pure]
    congr 1
    have h3 : (events.map fun e => ((e.1, |attributed counts e bars|) : ℤ × ℝ)) =
        events.map fun e => (e.1, A e) := by
      apply List.map_congr_left; intro e _; rw [hA']
    rw [h3]
    have h4 : (events.map fun e => ((e.1, A e) : ℤ × ℝ)).map Prod.snd = events.map A := by
      rw [List.map_map]; rfl
    rw [h4, List.length_map, List.map_map]
    unfold fdiv
    rw [if_neg hS.ne', List.map_map, List.zip_map']
    rfl
  · apply List.map_congr_left; intro e _; rw [hA']
  · intro w hw
    obtain ⟨e, _, rfl⟩ := List.mem_map.1 hw
    exact mul_nonneg (hAnn e) (div_nonneg (Nat.cast_nonneg _) hS.le)
  · rw [List.sum_map_mul_right]
    field_simp

/-- C36, any input: if the call succeeds, either all weights are NaN or they are non-negative and sum
to the number of events. -/
theorem C36_sum (eventTimes : Series (Option ℤ)) (counts : Series ℕ) (bars : Series ℝ)
    (ws : Series (Option ℝ)) (h : computeWeightsByReturns eventTimes counts bars = .ok ws) :
    (∀ p ∈ ws, p.2 = none) ∨
      ∃ vals : List ℝ, ws.map Prod.snd = vals.map some ∧ (∀ v ∈ vals, 0 ≤ v) ∧
        vals.sum = ws.length := by
  classical
  unfold computeWeightsByReturns at h
  by_cases hpos : ∀ p ∈ bars, 0 < p.2
  swap
  · rw [if_pos hpos] at h; cases h
  rw [if_neg (not_not.2 hpos), py_bind_eq_ok] at h
  obtain ⟨events, _, h⟩ := h
  rw [py_bind_eq_ok] at h
  obtain ⟨raw, hraw, h⟩ := h
  cases h
  have hnn : ∀ p ∈ raw, 0 ≤ p.2 := by
    unfold returnAttributions at hraw
    rw [py_bind_eq_ok] at hraw
    obtain ⟨vals, _, hraw⟩ := hraw
    cases hraw
    intro p hp
    obtain ⟨q, _, rfl⟩ := List.mem_map.1 hp
    exact abs_nonneg _
  by_cases hS : (raw.map Prod.snd).sum = 0
  · left
    intro p hp
    obtain ⟨q, _, rfl⟩ := List.mem_map.1 hp
    simp [fdiv, hS]
  · right
    have hS0 : 0 ≤ (raw.map Prod.snd).sum := by
      apply List.sum_nonneg
      intro x hx
      obtain ⟨p, hp, rfl⟩ := List.mem_map.1 hx
      exact hnn p hp
    refine ⟨raw.map fun p => p.2 * ((raw.length : ℝ) / (raw.map Prod.snd).sum), ?_, ?_, ?_⟩
    · rw [List.map_map, List.map_map]
      apply List.map_congr_left
      intro p _
      simp [fdiv, hS]
    · intro v hv
      obtain ⟨p, hp, rfl⟩ := List.mem_map.1 hv
      exact mul_nonneg (hnn p hp) (div_nonneg (Nat.cast_nonneg _) hS0)
    · rw [List.sum_map_mul_right, List.length_map]
      field_simp

example : ∃ e ∈ [((0 : ℤ), (1 : ℤ))],
    attributed [(0, 1), (1, 2)] e [(0, (1 : ℝ)), (1, 2)] ≠ 0 := by
  refine ⟨(0, 1), by simp, ?_⟩
  have : Real.log 2 > 0 := Real.log_pos (by norm_num)
  simp [attributed]
  linarith

/-! ## C37, C132 -/

theorem zip_cumsum (l : Series K) (hs : (l.map Prod.fst).Pairwise (· < ·)) (s : K) :
    (l.map Prod.fst).zip (cumsumFrom s (l.map Prod.snd)) =
      l.map fun p => (p.1, s + uniqUpTo l p.1) := by
  induction l generalizing s with
  | nil => rfl
  | cons a l ih =>
    have hs' := List.pairwise_cons.1 hs
    rw [List.map_cons, List.map_cons, cumsumFrom, List.zip_cons_cons, ih hs'.2, List.map_cons]
    congr 1
    · unfold uniqUpTo
      have hnil : l.filter (fun p => decide (p.1 ≤ a.1)) = [] := by
        rw [List.filter_eq_nil_iff]
        intro p hp
        have := hs'.1 p.1 (List.mem_map.2 ⟨p, hp, rfl⟩)
        simpa using this
      rw [List.filter_cons_of_pos (by simp), hnil]
      simp
    · apply List.map_congr_left
      intro p hp
      have := hs'.1 p.1 (List.mem_map.2 ⟨p, hp, rfl⟩)
      unfold uniqUpTo
      rw [List.filter_cons_of_pos (by simpa using this.le)]
      simp [add_assoc]

theorem cumsum_getLast (l : List K) (hl : l ≠ []) (s : K) :
    (cumsumFrom s l).getLast? = some (s + l.sum) := by
  induction l generalizing s with
  | nil => exact absurd rfl hl
  | cons a l ih =>
    by_cases h : l = []
    · subst h; simp [cumsumFrom]
    · rw [cumsumFrom]
      have hne : cumsumFrom (s + a) l ≠ [] := by
        cases l with
        | nil => exact absurd rfl h
        | cons b l => simp [cumsumFrom]
      obtain ⟨b, m, hm⟩ := List.exists_cons_of_ne_nil hne
      rw [hm, List.getLast?_cons_cons, ← hm, ih h, List.sum_cons, add_assoc]

/-- The weight as the documentation describes it. -/
def decayed (obs : Series K) (c : K) (t : ℤ) : K :=
  if 0 ≤ c then c + (1 - c) * (uniqUpTo obs t / (obs.map Prod.snd).sum)
  else max 0 ((c + uniqUpTo obs t / (obs.map Prod.snd).sum) / (1 + c))

theorem uniqUpTo_perm {l₁ l₂ : Series K} (h : l₁.Perm l₂) (t : ℤ) :
    uniqUpTo l₁ t = uniqUpTo l₂ t := ((h.filter _).map _).sum_eq

theorem uniqUpTo_le (obs : Series K) (hpos : ∀ p ∈ obs, 0 < p.2) (t : ℤ) :
    uniqUpTo obs t ≤ (obs.map Prod.snd).sum ∧ 0 ≤ uniqUpTo obs t := by
  unfold uniqUpTo
  induction obs with
  | nil => simp
  | cons a l ih =>
    obtain ⟨h1, h2⟩ := ih (fun p hp => hpos p (by simp [hp]))
    have ha := hpos a (by simp)
    by_cases h : a.1 ≤ t
    · rw [List.filter_cons_of_pos (by simpa using h)]
      simp only [List.map_cons, List.sum_cons]
      exact ⟨by linarith, by linarith⟩
    · rw [List.filter_cons_of_neg (by simpa using h)]
      simp only [List.map_cons, List.sum_cons]
      exact ⟨by linarith, h2⟩

theorem uniqUpTo_mono (obs : Series K) (hpos : ∀ p ∈ obs, 0 < p.2) {t u : ℤ} (htu : t ≤ u) :
    uniqUpTo obs t ≤ uniqUpTo obs u := by
  unfold uniqUpTo
  induction obs with
  | nil => simp
  | cons a l ih =>
    have h1 := ih (fun p hp => hpos p (by simp [hp]))
    have ha := hpos a (by simp)
    by_cases h : a.1 ≤ t
    · rw [List.filter_cons_of_pos (by simpa using h),
        List.filter_cons_of_pos (by simpa using h.trans htu)]
      simp only [List.map_cons, List.sum_cons]
      linarith
    · rw [List.filter_cons_of_neg (by simpa using h)]
      by_cases h' : a.1 ≤ u
      · rw [List.filter_cons_of_pos (by simpa using h')]
        simp only [List.map_cons, List.sum_cons]
        linarith
      · rw [List.filter_cons_of_neg (by simpa using h')]
        exact h1

theorem decayed_props (obs : Series K) (hne : obs ≠ []) (hpos : ∀ p ∈ obs, 0 < p.2) (c : K)
    (hc : -1 < c) (hc1 : c ≤ 1) (t : ℤ) :
    0 ≤ decayed obs c t ∧ decayed obs c t ≤ 1 ∧ (c = 1 → decayed obs c t = 1) ∧
      (0 ≤ c → c ≤ decayed obs c t) ∧
      (c < 0 → (decayed obs c t = 0 ↔ uniqUpTo obs t ≤ -c * (obs.map Prod.snd).sum)) ∧
      ((∀ p ∈ obs, p.1 ≤ t) → decayed obs c t = 1) ∧
      (∀ u, t ≤ u → decayed obs c t ≤ decayed obs c u) := by
  have hT : 0 < (obs.map Prod.snd).sum := by
    cases obs with
    | nil => exact absurd rfl hne
    | cons a l =>
      rw [List.map_cons, List.sum_cons]
      have h1 := hpos a (by simp)
      have h2 : 0 ≤ (l.map Prod.snd).sum := by
        apply List.sum_nonneg
        intro x hx
        obtain ⟨p, hp, rfl⟩ := List.mem_map.1 hx
        exact (hpos p (by simp [hp])).le
      linarith
  have hfrac : ∀ u, 0 ≤ uniqUpTo obs u / (obs.map Prod.snd).sum ∧
      uniqUpTo obs u / (obs.map Prod.snd).sum ≤ 1 := fun u =>
    ⟨div_nonneg (uniqUpTo_le obs hpos u).2 hT.le, (div_le_one hT).2 (uniqUpTo_le obs hpos u).1⟩
  have hmono : ∀ u, t ≤ u → uniqUpTo obs t / (obs.map Prod.snd).sum ≤
      uniqUpTo obs u / (obs.map Prod.snd).sum := fun u hu =>
    div_le_div_of_nonneg_right (uniqUpTo_mono obs hpos hu) hT.le
  have hall : (∀ p ∈ obs, p.1 ≤ t) → uniqUpTo obs t / (obs.map Prod.snd).sum = 1 := by
    intro h
    have : obs.filter (fun p => decide (p.1 ≤ t)) = obs := by
      rw [List.filter_eq_self]
      intro p hp
      simpa using h p hp
    unfold uniqUpTo
    rw [this, div_self hT.ne']
  obtain ⟨hf0, hf1⟩ := hfrac t
  unfold decayed
  by_cases h0 : 0 ≤ c
  · simp only [if_pos h0]
    refine ⟨by nlinarith, by nlinarith, ?_, ?_, fun h => absurd h0 (not_le.2 h), ?_, ?_⟩
    · rintro rfl; ring
    · intro _; nlinarith
    · intro h; rw [hall h]; ring
    · intro u hu
      have := hmono u hu
      nlinarith
  · simp only [if_neg h0]
    have hc' : 0 < 1 + c := by linarith
    refine ⟨le_max_left _ _, ?_, fun h => absurd (h ▸ zero_le_one) h0, fun h => absurd h h0, ?_, ?_, ?_⟩
    · apply max_le zero_le_one
      rw [div_le_one hc']
      linarith
    · intro _
      rw [max_eq_left_iff, div_le_iff₀ hc', zero_mul]
      rw [show c + uniqUpTo obs t / (obs.map Prod.snd).sum ≤ 0 ↔
        uniqUpTo obs t / (obs.map Prod.snd).sum ≤ -c by constructor <;> intro h <;> linarith]
      rw [div_le_iff₀ hT]
    · intro h
      rw [hall h, max_eq_right]
      · rw [add_comm, div_self hc'.ne']
      · exact div_nonneg (by linarith) hc'.le
    · intro u hu
      apply max_le_max (le_refl _)
      exact div_le_div_of_nonneg_right (by linarith [hmono u hu]) hc'.le

theorem applyTimeDecay_slope (obs : Series K) (hne : obs ≠ []) (hn : (obs.map Prod.fst).Nodup) (c slope : K)
    (hslope : decaySlope c (obs.map Prod.snd).sum = some slope) :
    applyTimeDecay obs c = .ok ((sortIndex obs).map fun p => (p.1,
      (let w := 1 - slope * (obs.map Prod.snd).sum + slope * uniqUpTo obs p.1
       if w < 0 then 0 else w))) := by
  have hperm : (sortIndex obs).Perm obs := List.perm_insertionSort _ _
  have hsorted : ((sortIndex obs).map Prod.fst).Pairwise (· < ·) := by
    have h1 : (sortIndex obs).Pairwise fun a b => a.1 ≤ b.1 := by
      unfold sortIndex
      exact List.pairwise_insertionSort (fun a b : ℤ × K => a.1 ≤ b.1) obs
    have h2 : ((sortIndex obs).map Prod.fst).Nodup := (hperm.map Prod.fst).nodup_iff.2 hn
    rw [List.pairwise_map]
    rw [List.nodup_iff_pairwise_ne, List.pairwise_map] at h2
    exact h1.and h2 |>.imp fun {a b} h => lt_of_le_of_ne h.1 h.2
  have hsne : (sortIndex obs).map Prod.snd ≠ [] := by
    intro h
    have := hperm.length_eq
    have h3 : (sortIndex obs).length = 0 := by
      have := congrArg List.length h
      simpa using this
    rw [h3] at this
    exact hne (List.length_eq_zero_iff.1 this.symm)
  have htot : ((sortIndex obs).map Prod.snd).sum = (obs.map Prod.snd).sum :=
    (hperm.map _).sum_eq
  have hlast : pyLast (cumsum ((sortIndex obs).map Prod.snd)) = .ok (obs.map Prod.snd).sum := by
    rw [pyLast_eq_ok_iff]
    unfold cumsum
    rw [cumsum_getLast _ hsne, zero_add, htot]
  have hzip : ∀ f : K → K, ((sortIndex obs).map Prod.fst).zip
      ((cumsum ((sortIndex obs).map Prod.snd)).map f) =
      (sortIndex obs).map fun p => (p.1, f (uniqUpTo obs p.1)) := by
    intro f
    have h1 := zip_cumsum (sortIndex obs) hsorted 0
    have h2 : ∀ (a : List ℤ) (b : List K), a.zip (b.map f) = (a.zip b).map fun p => (p.1, f p.2) := by
      intro a
      induction a with
      | nil => intro b; rfl
      | cons x a ih =>
        intro b
        cases b with
        | nil => rfl
        | cons y b => simp [ih]
    unfold cumsum
    rw [h2, h1, List.map_map]
    apply List.map_congr_left
    intro p _
    simp only [Function.comp, zero_add]
    rw [uniqUpTo_perm hperm]
  unfold applyTimeDecay
  simp only
  rw [hlast, py_bind_ok]
  simp only [hslope, py_pure]
  congr 1
  rw [hzip]

theorem applyTimeDecay_eq (obs : Series K) (hne : obs ≠ []) (hpos : ∀ p ∈ obs, 0 < p.2)
    (hn : (obs.map Prod.fst).Nodup) (c : K) (hc : -1 < c) (hc1 : c ≤ 1) :
    applyTimeDecay obs c = .ok ((sortIndex obs).map fun p => (p.1, decayed obs c p.1)) := by
  have hT : 0 < (obs.map Prod.snd).sum := by
    cases obs with
    | nil => exact absurd rfl hne
    | cons a l =>
      rw [List.map_cons, List.sum_cons]
      have h1 := hpos a (by simp)
      have h2 : 0 ≤ (l.map Prod.snd).sum := by
        apply List.sum_nonneg
        intro x hx
        obtain ⟨p, hp, rfl⟩ := List.mem_map.1 hx
        exact (hpos p (by simp [hp])).le
      linarith
  have hdecay : ∃ slope, decaySlope c (obs.map Prod.snd).sum = some slope ∧ ∀ t,
      (let w := 1 - slope * (obs.map Prod.snd).sum + slope * uniqUpTo obs t
       if w < 0 then 0 else w) = decayed obs c t := by
    unfold decaySlope decayed fdiv
    by_cases h0 : 0 ≤ c
    · refine ⟨(1 - c) / (obs.map Prod.snd).sum, by rw [if_pos h0, if_neg hT.ne'], ?_⟩
      intro t
      have h1 := (uniqUpTo_le obs hpos t).2
      have heq : 1 - (1 - c) / (obs.map Prod.snd).sum * (obs.map Prod.snd).sum +
          (1 - c) / (obs.map Prod.snd).sum * uniqUpTo obs t =
          c + (1 - c) * (uniqUpTo obs t / (obs.map Prod.snd).sum) := by
        field_simp
        ring
      simp only
      rw [heq, if_pos h0, if_neg]
      rw [not_lt]
      have h2 : 0 ≤ uniqUpTo obs t / (obs.map Prod.snd).sum := div_nonneg h1 hT.le
      nlinarith
    · have hc' : 0 < 1 + c := by linarith
      have hne' : (c + 1) * (obs.map Prod.snd).sum ≠ 0 :=
        mul_ne_zero (by linarith) hT.ne'
      refine ⟨1 / ((c + 1) * (obs.map Prod.snd).sum), by rw [if_neg h0, if_neg hne'], ?_⟩
      intro t
      have h3 : c + 1 ≠ 0 := by linarith
      have heq : 1 - 1 / ((c + 1) * (obs.map Prod.snd).sum) * (obs.map Prod.snd).sum +
          1 / ((c + 1) * (obs.map Prod.snd).sum) * uniqUpTo obs t =
          (c + uniqUpTo obs t / (obs.map Prod.snd).sum) / (1 + c) := by
        rw [add_comm 1 c]
        field_simp
        ring
      simp only
      rw [heq, if_neg h0]
      by_cases hlt : (c + uniqUpTo obs t / (obs.map Prod.snd).sum) / (1 + c) < 0
      · rw [if_pos hlt, max_eq_left hlt.le]
      · rw [if_neg hlt, max_eq_right (not_lt.1 hlt)]
  obtain ⟨slope, hslope, hw⟩ := hdecay
  rw [applyTimeDecay_slope obs hne hn c slope hslope]
  congr 1
  apply List.map_congr_left
  intro p _
  rw [← hw]

/-- C37.  For positive uniquenesses at distinct times and `-1 < c ≤ 1` the call succeeds; the result
lists the observations by time; the weights are in [0,1] and never decrease with time; the newest is
1; for `c = 1` all are 1; for `0 ≤ c` all are at least `c`; for `c < 0` a weight is 0 exactly if the
cumulative uniqueness is at most `-c` of the total. -/
theorem C37_time_decay (obs : Series K) (hne : obs ≠ []) (hpos : ∀ p ∈ obs, 0 < p.2)
    (hn : (obs.map Prod.fst).Nodup) (c : K) (hc : -1 < c) (hc1 : c ≤ 1) :
    ∃ res, applyTimeDecay obs c = .ok res ∧
      (res.map Prod.fst).Perm (obs.map Prod.fst) ∧
      (res.map Prod.fst).Pairwise (· < ·) ∧ (res.map Prod.snd).Pairwise (· ≤ ·) ∧
      (∀ p ∈ res, 0 ≤ p.2 ∧ p.2 ≤ 1) ∧
      (∀ p ∈ res, (∀ q ∈ obs, q.1 ≤ p.1) → p.2 = 1) ∧
      (c = 1 → ∀ p ∈ res, p.2 = 1) ∧
      (0 ≤ c → ∀ p ∈ res, c ≤ p.2) ∧
      (c < 0 → ∀ p ∈ res, p.2 = 0 ↔ uniqUpTo obs p.1 ≤ -c * (obs.map Prod.snd).sum) := by
  have hperm : (sortIndex obs).Perm obs := List.perm_insertionSort _ _
  have hle : (sortIndex obs).Pairwise fun a b => a.1 ≤ b.1 := by
    unfold sortIndex
    exact List.pairwise_insertionSort (fun a b : ℤ × K => a.1 ≤ b.1) obs
  have hp := fun t => decayed_props obs hne hpos c hc hc1 t
  have hkeys : ((sortIndex obs).map fun p => (p.1, decayed obs c p.1)).map Prod.fst =
      (sortIndex obs).map Prod.fst := by rw [List.map_map]; rfl
  refine ⟨_, applyTimeDecay_eq obs hne hpos hn c hc hc1, ?_, ?_, ?_, ?_, ?_, ?_, ?_, ?_⟩
  · rw [hkeys]; exact hperm.map _
  · rw [hkeys]
    have h2 : ((sortIndex obs).map Prod.fst).Nodup := (hperm.map Prod.fst).nodup_iff.2 hn
    rw [List.pairwise_map]
    rw [List.nodup_iff_pairwise_ne, List.pairwise_map] at h2
    exact hle.and h2 |>.imp fun {a b} h => lt_of_le_of_ne h.1 h.2
  · rw [List.map_map, List.pairwise_map]
    exact hle.imp fun {a b} hab => (hp a.1).2.2.2.2.2.2 b.1 hab
  · intro p hmem
    obtain ⟨q, _, rfl⟩ := List.mem_map.1 hmem
    exact ⟨(hp q.1).1, (hp q.1).2.1⟩
  · intro p hmem h
    obtain ⟨q, _, rfl⟩ := List.mem_map.1 hmem
    exact (hp q.1).2.2.2.2.2.1 h
  · intro h p hmem
    obtain ⟨q, _, rfl⟩ := List.mem_map.1 hmem
    exact (hp q.1).2.2.1 h
  · intro h p hmem
    obtain ⟨q, _, rfl⟩ := List.mem_map.1 hmem
    exact (hp q.1).2.2.2.1 h
  · intro h p hmem
    obtain ⟨q, _, rfl⟩ := List.mem_map.1 hmem
    exact (hp q.1).2.2.2.2.1 h

example : applyTimeDecay ([(3, 1), (1, 1), (2, 2)] : Series ℚ) (-1 / 4) =
    .ok [(1, 0), (2, 2 / 3), (3, 1)] := by decide +kernel

/-- C132, full claim: `oldest_weight` is the weight of the oldest observation (for `0 ≤ c ≤ 1`). -/
def OldestWeight : Prop := ∀ (obs : Series ℚ) (c : ℚ) (res : Series ℚ), obs ≠ [] →
  (∀ p ∈ obs, 0 < p.2) → (obs.map Prod.fst).Nodup → 0 ≤ c → c ≤ 1 →
  applyTimeDecay obs c = .ok res → ∀ p, res.head? = some p → p.2 = c

/-- C132, counterexample: two observations, `c = 0`: the oldest weighs 1/2. -/
theorem C132_oldest_weight_counterexample : ¬ OldestWeight := by
  intro h
  have h1 : applyTimeDecay ([(0, 1), (1, 1)] : Series ℚ) 0 = .ok [(0, 1 / 2), (1, 1)] := by
    decide +kernel
  have h2 := h [(0, 1), (1, 1)] 0 _ (by decide) (by simp) (by decide) (le_refl _)
    (by norm_num) h1 (0, 1 / 2) rfl
  norm_num at h2

/-- C132, what holds: the oldest observation weighs `c` plus `1 - c` times its share of the total
uniqueness, hence more than `c` unless `c = 1` (missing: it should weigh `c`). -/
theorem C132_oldest_weight_partial (obs : Series K) (hpos : ∀ p ∈ obs, 0 < p.2)
    (hn : (obs.map Prod.fst).Nodup) (c : K) (hc : 0 ≤ c) (hc1 : c ≤ 1) (old : ℤ × K)
    (hold : old ∈ obs) (hfirst : ∀ q ∈ obs, old.1 ≤ q.1) :
    ∃ res w, applyTimeDecay obs c = .ok res ∧ res.head? = some (old.1, w) ∧
      w = c + (1 - c) * (old.2 / (obs.map Prod.snd).sum) ∧ (w = c ↔ c = 1) := by
  have hne : obs ≠ [] := List.ne_nil_of_mem hold
  have hperm : (sortIndex obs).Perm obs := List.perm_insertionSort _ _
  have hle : (sortIndex obs).Pairwise fun a b => a.1 ≤ b.1 := by
    unfold sortIndex
    exact List.pairwise_insertionSort (fun a b : ℤ × K => a.1 ≤ b.1) obs
  have hmem : old ∈ sortIndex obs := hperm.mem_iff.2 hold
  have huniq : uniqUpTo obs old.1 = old.2 := by
    have h2 : (obs.filter fun p => decide (p.1 ≤ old.1)) = obs.filter fun p => decide (p.1 = old.1) := by
      apply List.filter_congr
      intro p hp
      have := hfirst p hp
      by_cases h : p.1 = old.1
      · simp [h]
      · have : ¬ p.1 ≤ old.1 := by omega
        simp [h, this]
    unfold uniqUpTo
    rw [h2]
    clear h2 hne hperm hle hmem hfirst hpos
    induction obs with
    | nil => cases hold
    | cons a l ih =>
      rw [List.map_cons, List.nodup_cons] at hn
      rcases List.mem_cons.1 hold with rfl | hold'
      · have : l.filter (fun p => decide (p.1 = old.1)) = [] := by
          rw [List.filter_eq_nil_iff]
          intro p hp
          simp only [decide_eq_true_eq]
          intro h
          exact hn.1 (List.mem_map.2 ⟨p, hp, h⟩)
        rw [List.filter_cons_of_pos (by simp), this]
        simp
      · rw [List.filter_cons_of_neg]
        · exact ih hn.2 hold'
        · simp only [decide_eq_true_eq]
          intro h
          exact hn.1 (List.mem_map.2 ⟨old, hold', h.symm⟩)
  have hT : 0 < (obs.map Prod.snd).sum := by
    have h1 := (uniqUpTo_le obs hpos old.1).1
    rw [huniq] at h1
    exact lt_of_lt_of_le (hpos old hold) h1
  refine ⟨_, decayed obs c old.1, applyTimeDecay_eq obs hne hpos hn c (by linarith) hc1, ?_, ?_, ?_⟩
  · obtain ⟨x, xs, hx⟩ := List.exists_cons_of_ne_nil (List.ne_nil_of_mem hmem)
    rw [hx]
    have hxo : x.1 = old.1 := by
      rw [hx] at hmem hle
      have h1 := hfirst x (hperm.mem_iff.1 (by rw [hx]; simp))
      rcases List.mem_cons.1 hmem with rfl | h
      · rfl
      · have := (List.pairwise_cons.1 hle).1 old h
        omega
    simp [hxo]
  · unfold decayed
    rw [if_pos hc, huniq]
  · unfold decayed
    rw [if_pos hc, huniq]
    have h1 : 0 < old.2 / (obs.map Prod.snd).sum := div_pos (hpos old hold) hT
    constructor
    · intro h
      have h2 : (1 - c) * (old.2 / (obs.map Prod.snd).sum) = 0 := by linarith
      rcases mul_eq_zero.1 h2 with h3 | h3
      · linarith
      · exact absurd h3 h1.ne'
    · rintro rfl; ring

/-! ## C38 -/

/-- A label of smallest count. -/
def IsArgmin {α : Type} [DecidableEq α] (argmin : List α → α) : Prop :=
  ∀ l : List α, l ≠ [] → argmin l ∈ l ∧ ∀ a ∈ l, l.count (argmin l) ≤ l.count a

theorem count_filter_ne {α : Type} [DecidableEq α] (l : List α) (x a : α) (h : a ≠ x) :
    (l.filter fun b => decide (b ≠ x)).count a = l.count a := by
  rw [List.count_filter (by simpa using h)]

/-- C38.  For `min_classes ≥ 0` the loop terminates; the result keeps whole classes in order; either
every label left has a share above `min_pct`, or at most `min_classes` classes are left; classes are
not dropped below `min_classes`; what is dropped is no more frequent than what is kept; nothing is
dropped if every label is frequent. -/
theorem C38_drop_rare {α : Type} [DecidableEq α] (argmin : List α → α) (ha : IsArgmin argmin)
    (labels : List α) (minPct : K) (minClasses : ℤ) (hm : 0 ≤ minClasses) :
    ∃ out, dropRareLabels argmin labels minPct minClasses = .ok out ∧
      (∃ keep : α → Bool, out = labels.filter keep ∧
        ∀ a ∈ labels, keep a = false → ∀ b ∈ labels, keep b = true →
          labels.count a ≤ labels.count b) ∧
      ((∀ a ∈ out, minPct < (out.count a : K) / (out.length : K)) ∨
        (out.dedup.length : ℤ) ≤ minClasses) ∧
      (minClasses ≤ labels.dedup.length → minClasses ≤ out.dedup.length) ∧
      ((∀ a ∈ labels, minPct < (labels.count a : K) / (labels.length : K)) → out = labels) := by
  have gen : ∀ fuel (l : List α), l.length < fuel →
      ∃ out, dropRareLoop argmin minPct minClasses fuel l = .ok out ∧
        (∃ keep : α → Bool, out = l.filter keep ∧
          ∀ a ∈ l, keep a = false → ∀ b ∈ l, keep b = true → l.count a ≤ l.count b) ∧
        ((∀ a ∈ out, minPct < (out.count a : K) / (out.length : K)) ∨
          (out.dedup.length : ℤ) ≤ minClasses) ∧
        (minClasses ≤ l.dedup.length → minClasses ≤ out.dedup.length) ∧
        ((∀ a ∈ l, minPct < (l.count a : K) / (l.length : K)) → out = l) := by
    intro fuel
    induction fuel with
    | zero => intro l h; omega
    | succ fuel ih =>
      intro l hlen
      unfold dropRareLoop
      by_cases hstop : (l ≠ [] ∧ minPct < share l (argmin l)) ∨ (l.dedup.length : ℤ) ≤ minClasses
      · rw [if_pos hstop]
        refine ⟨l, rfl, ⟨fun _ => true, (List.filter_eq_self.2 fun _ _ => rfl).symm,
          fun a _ h => absurd h (by simp)⟩, ?_, fun h => h, fun _ => rfl⟩
        rcases hstop with ⟨hne, hlt⟩ | h
        · left
          intro a hmem
          refine lt_of_lt_of_le hlt ?_
          unfold share
          apply div_le_div_of_nonneg_right _ (Nat.cast_nonneg _)
          exact_mod_cast (ha l hne).2 a hmem
        · right; exact h
      · rw [if_neg hstop]
        push Not at hstop
        have hne : l ≠ [] := by
          rintro rfl
          have := hstop.2
          simp at this
          omega
        rw [if_neg hne]
        obtain ⟨hx, hmin⟩ := ha l hne
        generalize argmin l = x at hx hmin hstop
        have hlt : (l.filter fun a => decide (a ≠ x)).length < l.length := by
          apply List.length_filter_lt_length_iff_exists.2
          exact ⟨x, hx, by simp⟩
        obtain ⟨out, h1, ⟨keep, hk, hkeep⟩, h3, h4, h5⟩ :=
          ih (l.filter fun a => decide (a ≠ x)) (by omega)
        have hded : (l.filter fun a => decide (a ≠ x)).dedup.length + 1 = l.dedup.length := by
          have hxd : x ∈ l.dedup := List.mem_dedup.2 hx
          have hperm : (x :: (l.filter fun a => decide (a ≠ x)).dedup).Perm l.dedup := by
            rw [List.perm_ext_iff_of_nodup _ (List.nodup_dedup l)]
            · intro a
              simp only [List.mem_cons, List.mem_dedup, List.mem_filter, decide_eq_true_eq]
              constructor
              · rintro (rfl | h)
                · exact hx
                · exact h.1
              · intro h
                by_cases hax : a = x
                · exact Or.inl hax
                · exact Or.inr ⟨h, hax⟩
            · rw [List.nodup_cons]
              refine ⟨?_, List.nodup_dedup _⟩
              rw [List.mem_dedup, List.mem_filter]
              simp
          have := hperm.length_eq
          simpa using this
        refine ⟨out, h1, ⟨fun a => decide (a ≠ x) && keep a, ?_, ?_⟩, h3, ?_, ?_⟩
        · rw [hk, List.filter_filter]
          apply List.filter_congr
          intro a _
          rw [Bool.and_comm]
        · intro a hal hka b hbl hkb
          rw [Bool.and_eq_true, decide_eq_true_eq] at hkb
          by_cases hax : a = x
          · subst hax; exact hmin b hbl
          · have hka' : keep a = false := by simpa [hax] using hka
            have := hkeep a (List.mem_filter.2 ⟨hal, by simpa using hax⟩) hka' b
              (List.mem_filter.2 ⟨hbl, by simpa using hkb.1⟩) hkb.2
            rwa [count_filter_ne l x a hax, count_filter_ne l x b hkb.1] at this
        · intro hmc
          apply h4
          have := hstop.2
          omega
        · intro hall
          exact absurd (hall x hx) (not_lt.2 (hstop.1 hne))
  obtain ⟨out, h⟩ := gen (labels.length + 1) labels (Nat.lt_succ_self _)
  exact ⟨out, h⟩

/-- A first least frequent label. -/
def firstArgmin (l : List ℕ) : ℕ :=
  (l.find? fun a => l.all fun b => decide (l.count a ≤ l.count b)).getD 0

theorem firstArgmin_isArgmin : IsArgmin firstArgmin := by
  intro l hl
  obtain ⟨a, ham, hmin⟩ : ∃ a ∈ l, ∀ b ∈ l, l.count a ≤ l.count b := by
    have hne : l.toFinset.Nonempty := by simpa using hl
    obtain ⟨a, h1, h2⟩ := Finset.exists_min_image l.toFinset (fun a => l.count a) hne
    exact ⟨a, by simpa using h1, fun b hb => h2 b (by simpa using hb)⟩
  have hs : (l.find? fun a => l.all fun b => decide (l.count a ≤ l.count b)).isSome := by
    rw [List.find?_isSome]
    exact ⟨a, ham, by simpa using hmin⟩
  obtain ⟨x, hx⟩ := Option.isSome_iff_exists.1 hs
  have h1 : firstArgmin l = x := by unfold firstArgmin; rw [hx]; rfl
  rw [h1]
  refine ⟨List.mem_of_find?_eq_some hx, ?_⟩
  simpa using List.find?_some hx

example : dropRareLabels firstArgmin ([1, 2, 2, 2, 2, 3, 3, 3] : List ℕ) (1 / 4 : ℚ) 1 =
    .ok [2, 2, 2, 2, 3, 3, 3] := by decide +kernel

end FinML.Weights
