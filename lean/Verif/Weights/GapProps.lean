import Verif.Weights.GapModel
import Verif.Py.Lemmas
import Mathlib.Tactic.Linarith
import Mathlib.Tactic.NormNum

/-! # Weights by returns with missing prices (C358) -/

namespace FinML.Weights

/-- Positive prices that agree with `bars` where these are known. -/
def FillsBars (fill : Series ℝ) (bars : Series (Option ℝ)) : Prop :=
  List.Forall₂ (fun f b => f.1 = b.1 ∧ 0 < f.2 ∧ ∀ x, b.2 = some x → f.2 = x) fill bars

/-- C358, the full claim: weights with missing prices are those for some prices in their place. -/
def WeightsOfSomeFill : Prop :=
  ∀ (events : Series (Option ℤ)) (counts : Series ℕ) (bars : Series (Option ℝ)),
    (∀ p ∈ bars, ∀ x, p.2 = some x → 0 < x) →
    ∃ fill, FillsBars fill bars ∧ computeWeightsByReturnsM events counts bars = computeWeightsByReturns events counts fill

/-- Three bars, the second without price. -/
def gapInside : Series (Option ℝ) := [(0, some 1), (1, none), (2, some 2)]

/-- C358.  The only event has the weight NaN, where every price in the gap gives it the weight 1. -/
theorem C358_counterexample : ¬ WeightsOfSomeFill := by
  intro h
  obtain ⟨fill, hf, he⟩ := h [(0, some 2)] [(0, 1), (1, 1), (2, 1)] gapInside (by
    intro p hp x hx
    simp only [gapInside, List.mem_cons, List.not_mem_nil, or_false] at hp
    rcases hp with rfl | rfl | rfl <;> simp only [Option.some.injEq, reduceCtorEq] at hx <;> subst hx <;> norm_num)
  unfold FillsBars gapInside at hf
  match fill, hf with
  | [(t0, a), (t1, b), (t2, c)], hf =>
    simp only [List.forall₂_cons, List.forall₂_nil_left_iff, Option.some.injEq, forall_eq', and_true] at hf
    obtain ⟨⟨rfl, -, rfl⟩, ⟨rfl, hb, -⟩, ⟨rfl, -, rfl⟩⟩ := hf
    have h2 : Real.log 2 ≠ 0 := (Real.log_pos (by norm_num)).ne'
    have hl : computeWeightsByReturnsM [(0, some 2)] [(0, 1), (1, 1), (2, 1)] gapInside = .ok [(0, none)] := by
      unfold computeWeightsByReturnsM
      rw [if_neg (not_not.2 (by
        intro p hp x hx
        simp only [gapInside, List.mem_cons, List.not_mem_nil, or_false] at hp
        rcases hp with rfl | rfl | rfl <;> simp only [Option.some.injEq, reduceCtorEq] at hx <;> subst hx <;> norm_num))]
      simp [closedEvents, returnAttributions, attribution, logReturnsM, gapInside, slice, setLabel, fdiv, py_pure,
        py_bind_ok]
    have hr : computeWeightsByReturns [(0, some 2)] [(0, 1), (1, 1), (2, 1)] [(0, 1), (1, b), (2, 2)] = .ok [(0, some 1)] := by
      unfold computeWeightsByReturns
      rw [if_neg (not_not.2 (by
        intro p hp
        simp only [List.mem_cons, List.not_mem_nil, or_false] at hp
        rcases hp with rfl | rfl | rfl <;> norm_num [hb]))]
      simp [closedEvents, returnAttributions, attribution, logReturns, slice, setLabel, fdiv, py_pure,
        py_bind_ok, h2]
    rw [hl, hr] at he
    cases he

theorem logReturnsM_get (prev : Option ℝ) (bars : Series (Option ℝ)) :
    (logReturnsM prev bars).length = bars.length ∧
    ∀ (i : ℕ) (b : ℤ × Option ℝ), bars[i]? = some b →
      ∃ q, (if i = 0 then q = prev else ∃ c, bars[i - 1]? = some c ∧ q = c.2) ∧
        (logReturnsM prev bars)[i]? = some (b.1, b.2.bind fun y => q.map fun p => Real.log y - Real.log p) := by
  induction bars generalizing prev with
  | nil => simp [logReturnsM]
  | cons a bars ih =>
    obtain ⟨t, x⟩ := a
    refine ⟨by rw [logReturnsM, List.length_cons, (ih x).1, List.length_cons], ?_⟩
    intro i b hb
    cases i with
    | zero =>
      simp only [List.getElem?_cons_zero, Option.some.injEq] at hb
      subst hb
      exact ⟨prev, by simp, rfl⟩
    | succ i =>
      obtain ⟨q, h1, h2⟩ := (ih x).2 i b (by simpa using hb)
      refine ⟨q, ?_, by simpa [logReturnsM] using h2⟩
      rw [if_neg (by omega)]
      cases i with
      | zero =>
        rw [if_pos rfl] at h1
        exact ⟨(t, x), rfl, h1⟩
      | succ i =>
        rw [if_neg (by omega)] at h1
        simpa using h1

theorem logReturnsM_some (prev : Option ℝ) (bars : Series ℝ) :
    logReturnsM prev (bars.map fun b => (b.1, some b.2)) = logReturns prev bars := by
  induction bars generalizing prev with
  | nil => rfl
  | cons a bars ih =>
    obtain ⟨t, x⟩ := a
    rw [List.map_cons, logReturnsM, logReturns, ih]
    rfl

/-- C358.  With all prices known the weights are those of C36. -/
theorem C358_complete (events : Series (Option ℤ)) (counts : Series ℕ) (bars : Series ℝ) :
    computeWeightsByReturnsM events counts (bars.map fun b => (b.1, some b.2)) =
      computeWeightsByReturns events counts bars := by
  have hp : (∀ p ∈ bars.map fun b => (b.1, some b.2), ∀ x, p.2 = some x → 0 < x) ↔ ∀ p ∈ bars, 0 < p.2 := by
    simp only [List.mem_map, forall_exists_index, and_imp, forall_apply_eq_imp_iff₂, Option.some.injEq, forall_eq']
  unfold computeWeightsByReturnsM computeWeightsByReturns
  simp only [hp, logReturnsM_some]

theorem slice_congr {α : Type} (l m : Series α) (s e : ℤ)
    (h : List.Forall₂ (fun a b => a.1 = b.1 ∧ (s ≤ a.1 → a.1 ≤ e → a = b)) l m) : slice l s e = slice m s e := by
  unfold slice
  induction h with
  | nil => rfl
  | @cons a b l m hab _ ih =>
    rw [List.filter_cons, List.filter_cons, ← hab.1, ih]
    by_cases hc : s ≤ a.1 ∧ a.1 ≤ e
    · rw [hab.2 hc.1 hc.2]
    · simp only [hc, decide_false, Bool.false_eq_true, if_false]

theorem fills_at {fill : Series ℝ} {bars : Series (Option ℝ)} (h : FillsBars fill bars) (i : ℕ) (b : ℤ × Option ℝ)
    (hb : bars[i]? = some b) : ∃ f, fill[i]? = some f ∧ f.1 = b.1 ∧ ∀ x, b.2 = some x → f.2 = x := by
  induction h generalizing i with
  | nil => simp at hb
  | @cons f c fs cs hf _ ih =>
    cases i with
    | zero =>
      simp only [List.getElem?_cons_zero, Option.some.injEq] at hb
      subst hb
      exact ⟨f, rfl, hf.1, hf.2.2⟩
    | succ i => simpa using ih i (by simpa using hb)

/-- C358.  An event is attributed the same returns as for any prices in the gaps if no price from the bar before it to its end is
missing (missing from the full claim: events with a gap). -/
theorem C358_inside_partial (fill : Series ℝ) (bars : Series (Option ℝ)) (hf : FillsBars fill bars) (counts : Series ℕ)
    (e : ℤ × ℤ)
    (hk : ∀ (i : ℕ) b, bars[i]? = some b → e.1 ≤ b.1 → b.1 ≤ e.2 →
      b.2 ≠ none ∧ ∀ c, 1 ≤ i → bars[i - 1]? = some c → c.2 ≠ none) :
    attribution (logReturnsM none bars) counts e = attribution (logReturns none fill) counts e := by
  have hs : slice (logReturnsM none bars) e.1 e.2 = slice (logReturns none fill) e.1 e.2 := by
    rw [← logReturnsM_some]
    apply slice_congr
    rw [List.forall₂_iff_get]
    have hlen : (logReturnsM none bars).length = (logReturnsM none (fill.map fun b => (b.1, some b.2))).length := by
      rw [(logReturnsM_get _ _).1, (logReturnsM_get _ _).1, List.length_map, hf.length_eq]
    refine ⟨hlen, ?_⟩
    intro i h1 h2
    have hi : i < bars.length := by rw [(logReturnsM_get _ _).1] at h1; exact h1
    have hb : bars[i]? = some bars[i] := List.getElem?_eq_getElem hi
    obtain ⟨f, hfi, hft, hfv⟩ := fills_at hf i _ hb
    have hfi' : (fill.map fun b => (b.1, some b.2))[i]? = some (f.1, some f.2) := by rw [List.getElem?_map, hfi]; rfl
    obtain ⟨q, hq, e1⟩ := (logReturnsM_get none bars).2 i _ hb
    obtain ⟨q', hq', e2⟩ := (logReturnsM_get none (fill.map fun b => (b.1, some b.2))).2 i _ hfi'
    have g1 : (logReturnsM none bars).get ⟨i, h1⟩ = _ := Option.some_inj.1 ((List.getElem?_eq_getElem h1).symm.trans e1)
    have g2 : (logReturnsM none (fill.map fun b => (b.1, some b.2))).get ⟨i, h2⟩ = _ :=
      Option.some_inj.1 ((List.getElem?_eq_getElem h2).symm.trans e2)
    rw [g1, g2]
    refine ⟨hft.symm, fun ha hb' => ?_⟩
    obtain ⟨k1, k2⟩ := hk i _ hb ha hb'
    obtain ⟨x, hx⟩ := Option.ne_none_iff_exists'.1 k1
    have hqq : q = q' := by
      by_cases h0 : i = 0
      · rw [if_pos h0] at hq hq'
        rw [hq, hq']
      · rw [if_neg h0] at hq hq'
        obtain ⟨c, hc, rfl⟩ := hq
        obtain ⟨c', hc', rfl⟩ := hq'
        obtain ⟨y, hy⟩ := Option.ne_none_iff_exists'.1 (k2 c (by omega) hc)
        obtain ⟨g, hg, -, hgv⟩ := fills_at hf (i - 1) c hc
        rw [List.getElem?_map, hg] at hc'
        cases hc'
        simp only [hy, hgv y hy]
    rw [hqq, hx, hfv x hx, hft]
  unfold attribution
  rw [hs]

/-- C358.  A missing price takes both the return to it and the return from it out of the attribution. -/
theorem C358_gap (bars : Series (Option ℝ)) (i : ℕ) (t : ℤ) (h : bars[i]? = some (t, none)) :
    (logReturnsM none bars)[i]? = some (t, none) ∧
    ∀ b, bars[i + 1]? = some b → (logReturnsM none bars)[i + 1]? = some (b.1, none) := by
  refine ⟨?_, fun b hb => ?_⟩
  · obtain ⟨q, -, h2⟩ := (logReturnsM_get none bars).2 i _ h
    exact h2
  · obtain ⟨q, h1, h2⟩ := (logReturnsM_get none bars).2 (i + 1) b hb
    rw [if_neg (by omega)] at h1
    obtain ⟨c, hc, rfl⟩ := h1
    rw [Nat.add_sub_cancel, h] at hc
    cases hc
    rw [h2]
    cases b.2 <;> rfl

/-- An event before the gap. -/
example : FillsBars [(0, 1), (1, 2), (2, 3), (3, 4)] [(0, some 1), (1, some 2), (2, none), (3, some 4)] ∧
    attribution (logReturnsM none [(0, some 1), (1, some 2), (2, none), (3, some 4)]) [(0, 1), (1, 1)] (0, 1) =
      attribution (logReturns none [(0, 1), (1, 2), (2, 3), (3, 4)]) [(0, 1), (1, 1)] (0, 1) := by
  have hf : FillsBars [(0, 1), (1, 2), (2, 3), (3, 4)] [(0, some 1), (1, some 2), (2, none), (3, some 4)] := by
    simp [FillsBars]
  refine ⟨hf, C358_inside_partial _ _ hf _ _ ?_⟩
  intro i b hb h0 h1
  match i with
  | 0 => simp at hb; subst hb; simp
  | 1 => simp at hb; subst hb; simp
  | 2 => simp at hb; subst hb; norm_num at h1
  | 3 => simp at hb; subst hb; norm_num at h1
  | i + 4 => simp at hb

end FinML.Weights
