import Verif.TimeSeries.EwmModel
import Verif.TimeSeries.Props
import Mathlib.Tactic.FieldSimp
import Mathlib.Tactic.Linarith
import Mathlib.Tactic.Positivity
import Mathlib.Tactic.Ring
import Mathlib.Algebra.BigOperators.Group.List.Lemmas
import Mathlib.Algebra.Order.BigOperators.Group.List
import Mathlib.Data.List.TakeDrop

/-!
# C166: daily volatility
-/

namespace FinML.TimeSeries

/-! ## Specification -/

/-- The observed returns with their weights: a return that is `k` bars old weighs `q ^ k`. -/
noncomputable def aged (q : ℝ) (l : List (Option ℝ)) : List (ℝ × ℝ) :=
  l.zipIdx.filterMap fun p => p.1.map fun x => (q ^ (l.length - 1 - p.2), x)

/-- Total weight. -/
def wsum (a : List (ℝ × ℝ)) : ℝ := (a.map fun p => p.1).sum

/-- Total of the squared weights. -/
def wsum2 (a : List (ℝ × ℝ)) : ℝ := (a.map fun p => p.1 ^ 2).sum

/-- Weighted mean. -/
noncomputable def wmean (a : List (ℝ × ℝ)) : ℝ := (a.map fun p => p.1 * p.2).sum / wsum a

/-- Weighted variance, corrected for the estimated mean. -/
noncomputable def wvar (a : List (ℝ × ℝ)) : ℝ :=
  (a.map fun p => p.1 * (p.2 - wmean a) ^ 2).sum / (wsum a - wsum2 a / wsum a)

/-- Observed returns. -/
def observed (l : List (Option ℝ)) : List ℝ := l.filterMap id

/-- The decay factor of a span. -/
noncomputable def decay (span : ℝ) : ℝ := (span - 1) / (span + 1)

/-! ## Lemmas -/

theorem aged_snoc (q : ℝ) (l : List (Option ℝ)) (x : Option ℝ) :
    aged q (l ++ [x]) = (aged q l).map (fun p => (q * p.1, p.2)) ++ (x.map fun c => ((1 : ℝ), c)).toList := by
  unfold aged
  rw [List.zipIdx_append, List.filterMap_append]
  congr 1
  · rw [List.map_filterMap]
    apply List.filterMap_congr
    intro p hp
    have hlt : p.2 < l.length := by
      have := List.mem_zipIdx hp
      omega
    cases h : p.1 with
    | none => simp
    | some c =>
      have : (l ++ [x]).length - 1 - p.2 = (l.length - 1 - p.2) + 1 := by simp; omega
      rw [this]
      simp [pow_succ, mul_comm]
  · cases x <;> simp

theorem observed_snoc (l : List (Option ℝ)) (x : Option ℝ) : observed (l ++ [x]) = observed l ++ x.toList := by
  unfold observed
  cases x <;> simp

theorem aged_snd (q : ℝ) (l : List (Option ℝ)) : (aged q l).map Prod.snd = observed l := by
  induction l using List.reverseRecOn with
  | nil => rfl
  | append_singleton l x ih =>
    rw [aged_snoc, observed_snoc, ← ih]
    cases x <;> simp [Function.comp_def]

theorem aged_pos (q : ℝ) (hq : 0 < q) (l : List (Option ℝ)) : ∀ p ∈ aged q l, 0 < p.1 := by
  intro p hp
  obtain ⟨⟨x, i⟩, -, h⟩ := List.mem_filterMap.1 hp
  cases x with
  | none => simp at h
  | some c => simp at h; rw [← h]; positivity

theorem sum_map_scale (q : ℝ) (a : List (ℝ × ℝ)) (f : ℝ × ℝ → ℝ) (g : ℝ × ℝ → ℝ) (h : ∀ p, f p = q * g p) :
    (a.map f).sum = q * (a.map g).sum := by
  induction a with
  | nil => simp
  | cons p a ih => simp [ih, h p]; ring

/-- Second moment about any point. -/
theorem moment_shift (a : List (ℝ × ℝ)) (m : ℝ) : (a.map fun p => p.1 * (p.2 - m) ^ 2).sum =
    (a.map fun p => p.1 * p.2 ^ 2).sum - 2 * m * (a.map fun p => p.1 * p.2).sum + m ^ 2 * wsum a := by
  unfold wsum
  induction a with
  | nil => simp
  | cons p a ih => simp only [List.map_cons, List.sum_cons, ih]; ring

/-- The state after the returns `l`. -/
def Inv (q : ℝ) (l : List (Option ℝ)) (s : EwmState) : Prop :=
  (observed l = [] ∧ s = ewmInit) ∨
  (observed l ≠ [] ∧ ∃ m, s.mean = some m ∧ s.oldWt = wsum (aged q l) ∧ s.sumWt = wsum (aged q l) ∧
    s.sumWt2 = wsum2 (aged q l) ∧ wsum (aged q l) * m = ((aged q l).map fun p => p.1 * p.2).sum ∧
    wsum (aged q l) * s.cov = ((aged q l).map fun p => p.1 * (p.2 - m) ^ 2).sum)

theorem wsum_nonneg (q : ℝ) (hq : 0 ≤ q) (l : List (Option ℝ)) : 0 ≤ wsum (aged q l) := by
  unfold wsum
  apply List.sum_nonneg
  intro x hx
  obtain ⟨p, hp, rfl⟩ := List.mem_map.1 hx
  obtain ⟨⟨x, i⟩, -, h⟩ := List.mem_filterMap.1 hp
  cases x with
  | none => simp at h
  | some c => simp at h; rw [← h]; positivity

theorem wsum_snoc (q : ℝ) (l : List (Option ℝ)) (x : Option ℝ) :
    wsum (aged q (l ++ [x])) = q * wsum (aged q l) + (x.map fun _ => (1 : ℝ)).getD 0 := by
  rw [aged_snoc]
  unfold wsum
  rw [List.map_append, List.sum_append, List.map_map,
    sum_map_scale q (aged q l) ((fun p => p.1) ∘ fun p => (q * p.1, p.2)) (fun p => p.1) (fun p => rfl)]
  cases x <;> simp

theorem wsum2_snoc (q : ℝ) (l : List (Option ℝ)) (x : Option ℝ) :
    wsum2 (aged q (l ++ [x])) = q ^ 2 * wsum2 (aged q l) + (x.map fun _ => (1 : ℝ)).getD 0 := by
  rw [aged_snoc]
  unfold wsum2
  rw [List.map_append, List.sum_append, List.map_map,
    sum_map_scale (q ^ 2) (aged q l) _ (fun p => p.1 ^ 2) (fun p => by simp; ring)]
  cases x <;> simp

theorem first_snoc (q : ℝ) (l : List (Option ℝ)) (x : Option ℝ) :
    ((aged q (l ++ [x])).map fun p => p.1 * p.2).sum =
      q * ((aged q l).map fun p => p.1 * p.2).sum + x.getD 0 := by
  rw [aged_snoc, List.map_append, List.sum_append, List.map_map,
    sum_map_scale q (aged q l) _ (fun p => p.1 * p.2) (fun p => by simp; ring)]
  cases x <;> simp

theorem second_snoc (q m : ℝ) (l : List (Option ℝ)) (x : Option ℝ) :
    ((aged q (l ++ [x])).map fun p => p.1 * (p.2 - m) ^ 2).sum =
      q * ((aged q l).map fun p => p.1 * (p.2 - m) ^ 2).sum + (x.map fun c => (c - m) ^ 2).getD 0 := by
  rw [aged_snoc, List.map_append, List.sum_append, List.map_map,
    sum_map_scale q (aged q l) _ (fun p => p.1 * (p.2 - m) ^ 2) (fun p => by simp; ring)]
  cases x <;> simp

theorem aged_nil_of (q : ℝ) (l : List (Option ℝ)) (h : observed l = []) : aged q l = [] := by
  rw [← aged_snd q l] at h
  simpa using h

theorem inv_step (q : ℝ) (hq : 0 ≤ q) (l : List (Option ℝ)) (s : EwmState) (x : Option ℝ) (h : Inv q l s) :
    Inv q (l ++ [x]) (ewmStep q s x) := by
  rcases h with ⟨ho, rfl⟩ | ⟨ho, m, hm, h0, h1, h2, h3, h4⟩
  · have ha := aged_nil_of q l ho
    cases x with
    | none => left; exact ⟨by rw [observed_snoc, ho]; rfl, rfl⟩
    | some c =>
      right
      refine ⟨by rw [observed_snoc, ho]; simp, c, rfl, ?_, ?_, ?_, ?_, ?_⟩ <;>
        simp [aged_snoc, ha, ewmStep, ewmInit, wsum, wsum2]
  · right
    have hW := wsum_nonneg q hq l
    cases x with
    | none =>
      refine ⟨by rw [observed_snoc]; simpa using ho, m, ?_, ?_, ?_, ?_, ?_, ?_⟩
      · simp [ewmStep, hm]
      · simp [ewmStep, hm, wsum_snoc, h0]; ring
      · simp [ewmStep, hm, wsum_snoc, h1]; ring
      · simp [ewmStep, hm, wsum2_snoc, h2]; ring
      · simp only [wsum_snoc, first_snoc, ← h3]; simp; ring
      · simp only [wsum_snoc, second_snoc, ← h4]; simp [ewmStep, hm]; ring
    | some c =>
      have hw : 0 < wsum (aged q l) * q + 1 := by positivity
      have hmean : ∀ m', m' = (if m = c then m else (s.oldWt * q * m + c) / (s.oldWt * q + 1)) →
          (wsum (aged q l) * q + 1) * m' = wsum (aged q l) * q * m + c := by
        intro m' hm'
        rw [hm', h0]
        split_ifs with he
        · rw [he]; ring
        · field_simp
      refine ⟨by rw [observed_snoc]; simp, (if m = c then m else (s.oldWt * q * m + c) / (s.oldWt * q + 1)),
        ?_, ?_, ?_, ?_, ?_, ?_⟩
      · simp [ewmStep, hm]
      · simp [ewmStep, hm, wsum_snoc, h0]; ring
      · simp [ewmStep, hm, wsum_snoc, h1]; ring
      · simp [ewmStep, hm, wsum2_snoc, h2]; ring
      · have := hmean _ rfl
        generalize (if m = c then m else (s.oldWt * q * m + c) / (s.oldWt * q + 1)) = m' at *
        rw [wsum_snoc, first_snoc, ← h3]
        simp only [Option.map_some, Option.getD_some]
        linarith
      · have hm' := hmean _ rfl
        simp only [ewmStep, hm, wsum_snoc, second_snoc]
        generalize (if m = c then m else (s.oldWt * q * m + c) / (s.oldWt * q + 1)) = m' at *
        rw [moment_shift, ← h3]
        have h4' := h4
        rw [moment_shift, ← h3] at h4'
        rw [h0]
        simp only [Option.map_some, Option.getD_some]
        generalize wsum (aged q l) = W at *
        generalize (List.map (fun p => p.1 * p.2 ^ 2) (aged q l)).sum = S at *
        have hS : S = W * s.cov + W * m ^ 2 := by linarith
        rw [hS]
        have hne : W * q + 1 ≠ 0 := ne_of_gt hw
        field_simp
        ring

theorem run_get (q : ℝ) (hq : 0 ≤ q) (rest : List (Option ℝ)) : ∀ (l : List (Option ℝ)) (s : EwmState), Inv q l s →
    List.Forall₂ (fun n o => ∃ s', Inv q (l ++ rest.take (n + 1)) s' ∧ o = ewmOut s') (List.range rest.length)
      (ewmRun q s rest) := by
  induction rest with
  | nil => intro l s h; simp [ewmRun]
  | cons x rest ih =>
    intro l s h
    rw [List.length_cons, List.range_succ_eq_map, ewmRun]
    have h' := inv_step q hq l s x h
    refine List.Forall₂.cons ⟨_, by simpa using h', rfl⟩ ?_
    rw [List.forall₂_map_left_iff]
    refine (ih (l ++ [x]) _ h').imp ?_
    intro n o ⟨s', hs, ho⟩
    exact ⟨s', by simpa using hs, ho⟩

/-- Weight facts: there is weight exactly when there is an observation, and two observations are needed
for the correction to be defined. -/
theorem weight_facts (q : ℝ) (hq : 0 < q) (l : List (Option ℝ)) :
    (0 < wsum (aged q l) ↔ 1 ≤ (observed l).length) ∧
    (0 < wsum (aged q l) ^ 2 - wsum2 (aged q l) ↔ 2 ≤ (observed l).length) ∧
    0 ≤ wsum (aged q l) ^ 2 - wsum2 (aged q l) := by
  induction l using List.reverseRecOn with
  | nil => simp [aged, wsum, wsum2, observed]
  | append_singleton l x ih =>
    obtain ⟨i1, i2, i3⟩ := ih
    have hW := wsum_nonneg q hq.le l
    rw [wsum_snoc, wsum2_snoc, observed_snoc]
    have hq2 : 0 < q ^ 2 := by positivity
    cases x with
    | none =>
      simp only [Option.map_none, Option.getD_none, add_zero, Option.toList_none, List.append_nil]
      have he : (q * wsum (aged q l)) ^ 2 - q ^ 2 * wsum2 (aged q l) =
        q ^ 2 * (wsum (aged q l) ^ 2 - wsum2 (aged q l)) := by ring
      rw [he]
      exact ⟨by rw [← i1, mul_pos_iff_of_pos_left hq], by rw [← i2, mul_pos_iff_of_pos_left hq2],
        by positivity⟩
    | some c =>
      simp only [Option.map_some, Option.getD_some, Option.toList_some, List.length_append, List.length_singleton]
      have he : (q * wsum (aged q l) + 1) ^ 2 - (q ^ 2 * wsum2 (aged q l) + 1) =
        q ^ 2 * (wsum (aged q l) ^ 2 - wsum2 (aged q l)) + 2 * q * wsum (aged q l) := by ring
      rw [he]
      refine ⟨⟨fun _ => by omega, fun _ => by positivity⟩, ⟨fun h => ?_, fun h => ?_⟩, by positivity⟩
      · by_contra hc
        have h0 : (observed l).length = 0 := by omega
        have hz : aged q l = [] := aged_nil_of q l (List.length_eq_zero_iff.1 h0)
        rw [hz] at h
        simp [wsum, wsum2] at h
      · have := i1.2 (by omega)
        positivity

theorem out_eq (q : ℝ) (hq : 0 < q) (l : List (Option ℝ)) (s : EwmState) (h : Inv q l s) :
    ewmOut s = if 2 ≤ (observed l).length then some (√(wvar (aged q l))) else none := by
  obtain ⟨w1, w2, -⟩ := weight_facts q hq l
  rcases h with ⟨ho, rfl⟩ | ⟨ho, m, hm, h0, h1, h2, h3, h4⟩
  · simp [ewmOut, ewmInit, ho]
  · unfold ewmOut
    rw [hm, h1, h2]
    simp only
    have hW : 0 < wsum (aged q l) := w1.2 (List.length_pos_iff.2 ho)
    have hmean : m = wmean (aged q l) := by
      unfold wmean
      rw [← h3]; field_simp
    by_cases h2' : 2 ≤ (observed l).length
    · have hD := w2.2 h2'
      rw [← pow_two, if_pos hD, if_pos h2']
      congr 2
      unfold wvar
      rw [← hmean, ← h4]
      generalize wsum (aged q l) = W at *
      generalize wsum2 (aged q l) = V at *
      have : W - V / W = (W ^ 2 - V) / W := by field_simp
      rw [this]
      field_simp
    · have hD := fun h => h2' (w2.1 h)
      rw [← pow_two, if_neg hD, if_neg h2']

theorem decay_eq (span : ℝ) (h : 1 ≤ span) : 1 - 2 / (span + 1) = decay span := by
  unfold decay
  have : span + 1 ≠ 0 := by positivity
  field_simp
  ring

theorem ewmStd_forall (span : ℝ) (h : 1 < span) (l : List (Option ℝ)) : ∃ out, ewmStd span l = .ok out ∧
    List.Forall₂ (fun n o => o = if 2 ≤ (observed (l.take (n + 1))).length
      then some (√(wvar (aged (decay span) (l.take (n + 1))))) else none) (List.range l.length) out := by
  have hq : 0 < decay span := by unfold decay; apply div_pos <;> linarith
  refine ⟨_, by unfold ewmStd; rw [if_neg (by linarith)], ?_⟩
  rw [decay_eq span h.le]
  refine (run_get (decay span) hq.le l [] ewmInit (Or.inl ⟨rfl, rfl⟩)).imp ?_
  intro n o ⟨s', hs, ho⟩
  rw [ho]
  exact out_eq _ hq _ _ (by simpa using hs)

/-! ## C166 -/

/-- C166. For a span above 1 there is one volatility per return.  It is missing until two returns have been
observed; then it is the root of the variance of the returns so far, weighted by their age with the decay of
the span.  Later returns do not matter. -/
theorem C166_formula (span : ℝ) (h : 1 < span) (l : List (Option ℝ)) : ∃ out, ewmStd span l = .ok out ∧
    out.length = l.length ∧ ∀ n, n < l.length → out[n]? = some (if 2 ≤ (observed (l.take (n + 1))).length
      then some (√(wvar (aged ((span - 1) / (span + 1)) (l.take (n + 1))))) else none) := by
  obtain ⟨out, ho, hf⟩ := ewmStd_forall span h l
  have hlen : out.length = l.length := by simpa using hf.length_eq.symm
  refine ⟨out, ho, hlen, fun n hn => ?_⟩
  have := (List.forall₂_iff_get.1 hf).2 n (by simpa using hn) (by omega)
  rw [List.getElem?_eq_getElem (by omega)]
  simpa [decay] using this

/-- C166. A span of 1 gives no volatility at all, a smaller span is an error. -/
theorem C166_small_span (l : List (Option ℝ)) :
    ewmStd 1 l = .ok (l.map fun _ => none) ∧ ∀ span < 1, ewmStd span l = .error .valueError := by
  constructor
  · unfold ewmStd
    rw [if_neg (lt_irrefl _)]
    congr 1
    have hq : (1 : ℝ) - 2 / (1 + 1) = 0 := by norm_num
    rw [hq]
    have key : ∀ (r : List (Option ℝ)) (s : EwmState), (s.sumWt = s.sumWt2 ∧ (s.sumWt = 1 ∨ s.sumWt = 0)) →
        ewmRun 0 s r = r.map fun _ => none := by
      intro r
      induction r with
      | nil => intro s _; rfl
      | cons x r ih =>
        intro s hs
        have hs' : (ewmStep 0 s x).sumWt = (ewmStep 0 s x).sumWt2 ∧
            ((ewmStep 0 s x).sumWt = 1 ∨ (ewmStep 0 s x).sumWt = 0) := by
          unfold ewmStep
          have h3 := hs.1 ▸ hs.2
          cases s.mean <;> cases x <;> simp [hs.1, h3]
        rw [ewmRun, List.map_cons, ih _ hs']
        congr 1
        unfold ewmOut
        cases (ewmStep 0 s x).mean with
        | none => rfl
        | some m =>
          simp only
          rw [if_neg]
          rw [← hs'.1]
          rcases hs'.2 with h | h <;> rw [h] <;> norm_num
    exact key l _ ⟨rfl, Or.inl rfl⟩
  · intro span hs
    unfold ewmStd
    rw [if_pos hs]

/-- C166. A volatility is never negative, and it is 0 exactly when all returns so far are equal. -/
theorem C166_zero (span : ℝ) (h : 1 < span) (l : List (Option ℝ)) (out : List (Option ℝ))
    (ho : ewmStd span l = .ok out) (n : ℕ) (v : ℝ) (hv : out[n]? = some (some v)) :
    0 ≤ v ∧ (v = 0 ↔ ∀ x ∈ observed (l.take (n + 1)), ∀ y ∈ observed (l.take (n + 1)), x = y) := by
  obtain ⟨out', ho', hlen, hf⟩ := C166_formula span h l
  obtain rfl : out' = out := by rw [ho] at ho'; injection ho' with h; exact h.symm
  have hn : n < l.length := by
    rw [← hlen]; by_contra hc
    rw [List.getElem?_eq_none (by omega)] at hv; cases hv
  rw [hf n hn] at hv
  set t := l.take (n + 1) with ht
  have hq : 0 < (span - 1) / (span + 1) := by apply div_pos <;> linarith
  generalize (span - 1) / (span + 1) = q at hq hv
  by_cases h2 : 2 ≤ (observed t).length
  swap
  · rw [if_neg h2] at hv; simp at hv
  rw [if_pos h2] at hv
  have hv' : v = √(wvar (aged q t)) := by simpa using hv.symm
  refine ⟨by rw [hv']; exact Real.sqrt_nonneg _, ?_⟩
  obtain ⟨w1, w2, -⟩ := weight_facts q hq t
  have hW := w1.2 (by omega)
  have hD := w2.2 h2
  have hp := aged_pos q hq t
  have hden : 0 < wsum (aged q t) - wsum2 (aged q t) / wsum (aged q t) := by
    have : wsum (aged q t) - wsum2 (aged q t) / wsum (aged q t) =
      (wsum (aged q t) ^ 2 - wsum2 (aged q t)) / wsum (aged q t) := by field_simp
    rw [this]; positivity
  have hnum : ∀ x ∈ (aged q t).map (fun p => p.1 * (p.2 - wmean (aged q t)) ^ 2), 0 ≤ x := by
    intro x hx
    obtain ⟨p, hpm, rfl⟩ := List.mem_map.1 hx
    have := hp p hpm
    positivity
  rw [hv', Real.sqrt_eq_zero (by unfold wvar; exact div_nonneg (List.sum_nonneg hnum) hden.le)]
  unfold wvar
  rw [div_eq_zero_iff, or_iff_left hden.ne']
  rw [← aged_snd q t]
  constructor
  · intro h0
    have hall : ∀ p ∈ aged q t, p.2 = wmean (aged q t) := by
      intro p hpm
      have hle := List.single_le_sum hnum _ (List.mem_map_of_mem hpm)
      rw [h0] at hle
      have hpp := hp p hpm
      by_contra hne
      have : 0 < (p.2 - wmean (aged q t)) ^ 2 := by
        have := sub_ne_zero.2 hne
        positivity
      have := mul_pos hpp this
      linarith
    intro x hx y hy
    obtain ⟨p, hpm, rfl⟩ := List.mem_map.1 hx
    obtain ⟨p', hpm', rfl⟩ := List.mem_map.1 hy
    rw [hall p hpm, hall p' hpm']
  · intro hall
    have hc : ∃ c, ∀ p ∈ aged q t, p.2 = c := by
      cases ha : aged q t with
      | nil => exact ⟨0, by simp⟩
      | cons p r =>
        refine ⟨p.2, fun p' hp' => ?_⟩
        rw [ha] at hall
        exact hall _ (List.mem_map_of_mem hp') _ (List.mem_map_of_mem (List.mem_cons_self))
    obtain ⟨c, hc⟩ := hc
    have hm : wmean (aged q t) = c := by
      unfold wmean
      have : ((aged q t).map fun p => p.1 * p.2) = (aged q t).map fun p => c * p.1 :=
        List.map_congr_left fun p hpm => by rw [hc p hpm, mul_comm]
      rw [this, sum_map_scale c (aged q t) _ (fun p => p.1) (fun _ => rfl)]
      change c * wsum (aged q t) / wsum (aged q t) = c
      field_simp
    rw [hm]
    have : ((aged q t).map fun p => p.1 * (p.2 - c) ^ 2) = (aged q t).map fun _ => (0 : ℝ) :=
      List.map_congr_left fun p hpm => by rw [hc p hpm]; ring
    rw [this]
    simp

/-- C166. The volatilities do not depend on the currency of the prices. -/
theorem C166_unit (close : List (ℤ × ℝ)) (c : ℝ) (hc : c ≠ 0) (span : ℝ) (isIntraday : Bool) :
    dailyVolatility (close.map fun p => (p.1, c * p.2)) span isIntraday = dailyVolatility close span isIntraday := by
  have hat : ∀ t, closeAt (close.map fun p => (p.1, c * p.2)) t = (closeAt close t).map fun x => c * x := by
    intro t
    unfold closeAt
    rw [List.find?_map]
    have : ((fun p : ℤ × ℝ => decide (p.1 = t)) ∘ fun p : ℤ × ℝ => (p.1, c * p.2)) =
        fun p => decide (p.1 = t) := rfl
    rw [this]
    cases close.find? (fun p => decide (p.1 = t)) <;> rfl
  have hr : dailyReturns (close.map fun p => (p.1, c * p.2)) isIntraday = dailyReturns close isIntraday := by
    unfold dailyReturns
    have hi : (close.map fun p : ℤ × ℝ => (p.1, c * p.2)).map Prod.fst = close.map Prod.fst := by simp
    rw [hi]
    congr 1
    funext p
    rw [hat, hat]
    cases closeAt close p.1 with
    | error e => rfl
    | ok a =>
      cases closeAt close p.2 with
      | error e => rfl
      | ok b =>
        simp only [Except.map, py_bind_ok, py_pure, Except.ok.injEq]
        unfold fdiv
        by_cases hb : b = 0
        · simp [hb]
        · rw [if_neg hb, if_neg (mul_ne_zero hc hb), mul_div_mul_left _ _ hc]
  unfold dailyVolatility
  rw [hr]

/-- C166, the full claim: a volatility can be looked up by the time of its bar. -/
def VolatilityByTime : Prop := ∀ (close : List (ℤ × ℝ)) (span : ℝ) (isIntraday : Bool) (out : List (Label × Option ℝ)),
  (close.map Prod.fst).Pairwise (· < ·) → (∀ p ∈ close, 0 < p.2) →
  dailyVolatility close span isIntraday = .ok out → ∀ p ∈ out, ∃ t ∈ close.map Prod.fst, p.1 = Label.time t

/-- C166. What is missing: the labels should be the times of the bars.  The labels are positions; the volatility at
position `i` belongs to the `i`-th pair of a bar and the bar a day earlier (C31 says which bars have one), and is the
weighted deviation of the returns of the pairs up to there. -/
theorem C166_labels_partial (close : List (ℤ × ℝ)) (hs : (close.map Prod.fst).Pairwise (· < ·))
    (hpos : ∀ p ∈ close, p.2 ≠ 0) (span : ℝ) (h : 1 < span) (isIntraday : Bool) :
    ∃ (rets : List ℝ) (out : List (Label × Option ℝ)), dailyVolatility close span isIntraday = .ok out ∧
      List.Forall₂ (fun p r => ∃ a b, (p.1, a) ∈ close ∧ (p.2, b) ∈ close ∧ r = a / b - 1)
        (dayPairs (close.map Prod.fst) isIntraday) rets ∧
      out = (List.range rets.length).map fun n => (Label.pos n, if n = 0 then none else
        some (√(wvar (aged ((span - 1) / (span + 1)) ((rets.take (n + 1)).map some))))) := by
  obtain ⟨ro, hr, hf⟩ := C31_daily_returns close hs hpos isIntraday
  have hsome : ∃ rets : List ℝ, ro = rets.map some ∧
      List.Forall₂ (fun p r => ∃ a b, (p.1, a) ∈ close ∧ (p.2, b) ∈ close ∧ r = a / b - 1)
        (dayPairs (close.map Prod.fst) isIntraday) rets := by
    clear hr
    generalize dayPairs (close.map Prod.fst) isIntraday = pairs at hf ⊢
    induction hf with
    | nil => exact ⟨[], rfl, List.Forall₂.nil⟩
    | cons hx _ ih =>
      obtain ⟨rets, e, hrets⟩ := ih
      obtain ⟨a, b, ha, hb, he⟩ := hx
      exact ⟨(a / b - 1) :: rets, by rw [he, e]; rfl, List.Forall₂.cons ⟨a, b, ha, hb, rfl⟩ hrets⟩
  obtain ⟨rets, rfl, hrets⟩ := hsome
  obtain ⟨out, ho, hlen, hout⟩ := C166_formula span h (rets.map some)
  refine ⟨rets, _, ?_, hrets, rfl⟩
  unfold dailyVolatility
  rw [hr, py_bind_ok, ho, py_bind_ok, py_pure]
  congr 1
  apply List.ext_getElem
  · simp [hlen]
  intro n h1 h2
  have hn : n < rets.length := by simpa using h2
  have := hout n (by simpa using hn)
  rw [List.getElem?_eq_getElem (by rw [hlen]; simpa using hn)] at this
  have this' := Option.some.inj this
  simp only [List.getElem_map, List.getElem_zipIdx, List.getElem_range, zero_add, this', List.map_take]
  congr 1
  have hobs : (observed ((rets.map some).take (n + 1))).length = n + 1 := by
    rw [← List.map_take]
    unfold observed
    rw [List.filterMap_map]
    simp
    omega
  rw [hobs]
  by_cases h0 : n = 0
  · rw [if_neg (by omega), if_pos h0]
  · rw [if_pos (by omega), if_neg h0]

/-- C166. Two bars two days apart give one volatility, whose label is the position 0. -/
theorem C166_labels_counterexample : ¬ VolatilityByTime := by
  intro hall
  have hs : (([(0, 1), (2 * day, 1)] : List (ℤ × ℝ)).map Prod.fst).Pairwise (· < ·) := by simp [day]
  obtain ⟨rets, out, ho, hf, he⟩ := C166_labels_partial [(0, 1), (2 * day, 1)] hs (by simp) 2 (by norm_num) true
  have hl : rets.length = 1 := by
    rw [← hf.length_eq]
    have : ([(0, 1), (2 * day, 1)] : List (ℤ × ℝ)).map Prod.fst = [0, 2 * day] := rfl
    rw [this]
    decide
  obtain ⟨t, -, ht⟩ := hall _ 2 true out hs (by simp) ho (Label.pos 0, none) (by rw [he, hl]; simp)
  cases ht

/-- The hypotheses can be met: returns 0, 1 and a missing one, with span 3. -/
example : ∃ out, ewmStd 3 [some 0, some 1, none] = .ok out ∧ out.length = 3 ∧ out[0]? = some none ∧
    out[1]? = some (some (√(1 / 2))) ∧ out[2]? = some (some (√(1 / 2))) := by
  obtain ⟨out, ho, hl, hf⟩ := C166_formula 3 (by norm_num) [some 0, some 1, none]
  refine ⟨out, ho, hl, ?_, ?_, ?_⟩
  · rw [hf 0 (by simp)]; simp [observed]
  · rw [hf 1 (by simp)]; simp [observed, wvar, wmean, wsum, wsum2, aged]; norm_num
  · rw [hf 2 (by simp)]; simp [observed, wvar, wmean, wsum, wsum2, aged]; norm_num

end FinML.TimeSeries
