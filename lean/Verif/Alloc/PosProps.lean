import Verif.Alloc.ProbProps
import Verif.Weights.Props

/-!
# Budgeted and mixture position sizes, fill_index (C83, C84, C90)
-/

set_option linter.unusedSectionVars false

namespace FinML.Alloc

open FinML.Weights

section
variable {K : Type} [Field K] [LinearOrder K] [IsStrictOrderedRing K]

/-! ## C90 -/

/-- The claim of the signature: the values of the series where it has one, `fill_val` elsewhere. -/
def FillsWith : Prop :=
  ∀ (indices : List ℤ) (s : NanSeries ℚ) (v : ℚ), indices.Pairwise (· < ·) →
    (s.map Prod.fst).Nodup → (∀ p ∈ s, p.1 ∈ indices) →
    fillIndex indices s v = indices.map fun t => (t, some ((lookup s t).getD v))

/-- C90: with a non-zero fill value the missing entries are filled with 0, and the present ones are
shifted by the fill value. -/
theorem C90_fill_value_counterexample : ¬ FillsWith := by
  intro h
  have := h [0, 1] [(0, some 5)] 7 (by decide) (by decide) (by decide)
  revert this
  decide +kernel

theorem unionIndex_eq (bars keys : List ℤ) (hs : bars.Pairwise (· < ·)) (hk : ∀ t ∈ keys, t ∈ bars) :
    unionIndex bars keys = bars := by
  have h1 := unionIndex_sorted bars keys
  refine List.Perm.eq_of_pairwise (le := (· < ·)) (fun a b _ _ h h' => absurd h (lt_asymm h')) h1 hs ?_
  rw [List.perm_ext_iff_of_nodup (h1.imp fun h => h.ne) (hs.imp fun h => h.ne)]
  intro t
  rw [mem_unionIndex]
  exact ⟨fun h => h.elim id (hk t), Or.inl⟩

theorem lookup_map (bars : List ℤ) (f : ℤ → Option K) (t : ℤ) (ht : t ∈ bars) :
    lookup (bars.map fun t => (t, f t)) t = f t := by
  unfold lookup
  induction bars with
  | nil => simp at ht
  | cons b bars ih =>
    by_cases h : b = t
    · simp [h]
    · rw [List.map_cons, List.find?_cons]
      simp only [h, decide_false]
      exact ih ((List.mem_cons.1 ht).resolve_left fun h' => h h'.symm)

/-- C90: what `fill_index` computes for any fill value: `fill_val` is added to the present values and
the missing ones are 0.  For `fill_val = 0` this is the documented behaviour. -/
theorem C90_fill (indices : List ℤ) (s : NanSeries K) (v : K) (hs : indices.Pairwise (· < ·))
    (hk : ∀ p ∈ s, p.1 ∈ indices) :
    fillIndex indices s v = indices.map fun t => (t, some (((lookup s t).map fun y => v + y).getD 0)) := by
  unfold fillIndex alignWith
  have hkeys : (indices.map fun t => (t, some v)).map Prod.fst = indices := by
    simp [Function.comp_def]
  rw [hkeys, unionIndex_eq indices _ hs (by
    intro t ht
    obtain ⟨p, hp, rfl⟩ := List.mem_map.1 ht
    exact hk p hp), List.map_map]
  apply List.map_congr_left
  intro t ht
  simp only [Function.comp_def, lookup_map indices (fun _ => some v) t ht, Option.bind_some]

/-- C90: with `fill_val = 0` missing entries are 0 and the others are those of the series.  What is
missing from the full claim: other fill values, for which it fails (see the counterexample). -/
theorem C90_fill_zero_partial (indices : List ℤ) (s : NanSeries K) (hs : indices.Pairwise (· < ·))
    (hk : ∀ p ∈ s, p.1 ∈ indices) :
    fillIndex indices s 0 = indices.map fun t => (t, some ((lookup s t).getD 0)) := by
  rw [C90_fill indices s 0 hs hk]
  apply List.map_congr_left
  intro t _
  cases lookup s t <;> simp

/-! ## C83 -/

theorem lookup_of_mem (s : NanSeries K) (hnd : (s.map Prod.fst).Nodup) (p : ℤ × Option K) (hp : p ∈ s) :
    lookup s p.1 = p.2 := by
  unfold lookup
  induction s with
  | nil => simp at hp
  | cons a s ih =>
    rw [List.map_cons, List.nodup_cons] at hnd
    rcases List.mem_cons.1 hp with rfl | hp
    · simp
    · have : a.1 ≠ p.1 := fun h => hnd.1 (h ▸ List.mem_map_of_mem hp)
      rw [List.find?_cons]
      simp only [this, decide_false]
      exact ih hnd.2 hp

theorem lookup_of_notMem (s : NanSeries K) (t : ℤ) (ht : t ∉ s.map Prod.fst) : lookup s t = none := by
  unfold lookup
  rw [List.find?_eq_none.2]
  · rfl
  · intro p hp
    simp only [decide_eq_true_eq]
    exact fun h => ht (h ▸ List.mem_map_of_mem hp)

/-- The events of one side, with open ends at the last bar. -/
def sideEvents (events : List (ℤ × Option ℤ × K)) (v : K) (last : ℤ) : List (ℤ × ℤ) :=
  (events.filter fun e => e.2.2 = v).map fun e => (e.1, e.2.1.getD last)

theorem counts_of_side (bars : List ℤ) (hs : bars.Pairwise (· < ·)) (last : ℤ)
    (hlast : bars.getLast? = some last) (events : List (ℤ × Option ℤ × K))
    (hord : (events.map Prod.fst).Pairwise (· ≤ ·)) (v : K) (hex : ∃ e ∈ events, e.2.2 = v) :
    ∃ res, countEventsPerBar bars (ofSide events v) = .ok res ∧ (res.map Prod.fst).Nodup ∧
      (∀ p ∈ res, p.1 ∈ bars ∧ p.2 = running (sideEvents events v last) p.1) ∧
      (∀ t ∈ bars, t ∉ res.map Prod.fst → running (sideEvents events v last) t = 0) := by
  have hne : ofSide events v ≠ [] := by
    obtain ⟨e, he, hv⟩ := hex
    intro h0
    have : (e.1, e.2.1) ∈ ofSide events v :=
      List.mem_map.2 ⟨e, List.mem_filter.2 ⟨he, by simpa using hv⟩, rfl⟩
    rw [h0] at this
    simp at this
  obtain ⟨first, hfirst⟩ : ∃ f, (ofSide events v).head? = some f := by
    cases h : ofSide events v with
    | nil => exact absurd h hne
    | cons a l => exact ⟨a, rfl⟩
  have hord' : ((ofSide events v).map Prod.fst).Pairwise (· ≤ ·) := by
    have : ((ofSide events v).map Prod.fst) = (events.filter fun e => e.2.2 = v).map Prod.fst := by
      simp [ofSide, Function.comp_def]
    rw [this]
    exact hord.sublist (List.filter_sublist.map _)
  have hmaxex : ∃ m, IsGreatest {x | ∃ e ∈ ofSide events v, e.2.getD last = x} m := by
    have : ∃ m, npMax ((ofSide events v).map fun e => e.2.getD last) = .ok m := by
      cases h : ofSide events v with
      | nil => exact absurd h hne
      | cons a l => exact ⟨_, rfl⟩
    obtain ⟨m, hm⟩ := this
    rw [npMax_eq_ok_iff] at hm
    refine ⟨m, ?_⟩
    have hset : {y | y ∈ (ofSide events v).map fun e => e.2.getD last} =
        {x | ∃ e ∈ ofSide events v, e.2.getD last = x} := by
      ext y; simp
    rwa [hset] at hm
  obtain ⟨m, hm⟩ := hmaxex
  obtain ⟨res, h1, h2, -, h4, h5⟩ := C32_counts bars hs last hlast _ first hfirst hord' m hm
  have hev : ((ofSide events v).map fun e => (e.1, e.2.getD last)) = sideEvents events v last := by
    simp [ofSide, sideEvents, Function.comp_def]
  rw [hev] at h4 h5
  exact ⟨res, h1, (hs.imp fun h => h.ne).sublist h2,
    fun p hp => ⟨h2.subset (List.mem_map_of_mem hp), h4 p hp⟩, h5⟩

theorem fill_counts (bars : List ℤ) (hs : bars.Pairwise (· < ·)) (res : Series ℕ) (c : ℤ → ℕ)
    (hnd : (res.map Prod.fst).Nodup) (h1 : ∀ p ∈ res, p.1 ∈ bars ∧ p.2 = c p.1)
    (h2 : ∀ t ∈ bars, t ∉ res.map Prod.fst → c t = 0) (g : ℕ → Option K) (hg : (g 0).getD 0 = 0) :
    fillIndex bars (res.map fun p => (p.1, g p.2)) 0 = bars.map fun t => (t, some ((g (c t)).getD 0)) := by
  have hkeys : (res.map fun p => (p.1, g p.2)).map Prod.fst = res.map Prod.fst := by
    simp [Function.comp_def]
  rw [C90_fill_zero_partial bars _ hs (by
    intro p hp
    obtain ⟨q, hq, rfl⟩ := List.mem_map.1 hp
    exact (h1 q hq).1)]
  apply List.map_congr_left
  intro t ht
  by_cases hm : t ∈ res.map Prod.fst
  · obtain ⟨p, hp, rfl⟩ := List.mem_map.1 hm
    have := lookup_of_mem (res.map fun p => (p.1, g p.2)) (hkeys ▸ hnd) (p.1, g p.2)
      (List.mem_map.2 ⟨p, hp, rfl⟩)
    simp only at this
    rw [this, (h1 p hp).2]
  · rw [lookup_of_notMem _ _ (hkeys ▸ hm), h2 t ht hm, hg]
    rfl

theorem align_map (bars : List ℤ) (hs : bars.Pairwise (· < ·)) (f : K → K → K) (a b : ℤ → K) :
    alignWith f (bars.map fun t => (t, some (a t))) (bars.map fun t => (t, some (b t))) =
      bars.map fun t => (t, some (f (a t) (b t))) := by
  unfold alignWith
  have hkeys : ∀ a : ℤ → K, (bars.map fun t => (t, some (a t))).map Prod.fst = bars := by
    intro a; simp [Function.comp_def]
  rw [hkeys, hkeys, unionIndex_eq bars bars hs fun _ h => h]
  apply List.map_congr_left
  intro t ht
  rw [lookup_map bars (fun t => some (a t)) t ht, lookup_map bars (fun t => some (b t)) t ht]
  rfl

theorem max_counts (bars : List ℤ) (res : Series ℕ) (c : ℤ → ℕ)
    (h1 : ∀ p ∈ res, p.1 ∈ bars ∧ p.2 = c p.1) (h2 : ∀ t ∈ bars, t ∉ res.map Prod.fst → c t = 0)
    (m : ℕ) (hm : IsGreatest {x | ∃ t ∈ bars, c t = x} m) (hpos : 0 < m) :
    npMax (res.map fun p => (p.2 : K)) = .ok (m : K) := by
  rw [npMax_eq_ok_iff]
  obtain ⟨⟨t, ht, hct⟩, hub⟩ := hm
  constructor
  · have hmem : t ∈ res.map Prod.fst := by
      by_contra hn
      have := h2 t ht hn
      omega
    obtain ⟨p, hp, rfl⟩ := List.mem_map.1 hmem
    exact List.mem_map.2 ⟨p, hp, by rw [(h1 p hp).2, hct]⟩
  · intro y hy
    obtain ⟨p, hp, rfl⟩ := List.mem_map.1 hy
    have := hub ⟨p.1, (h1 p hp).1, rfl⟩
    rw [(h1 p hp).2]
    exact_mod_cast this

/-- C83: for bars in order and events ordered by start (open ends running to the last bar), with at
least one long and one short event open at some bar: for each bar the size is the number of open long
events over its maximum minus the number of open short events over its maximum; it is in `[-1, 1]`
and 0 where nothing is open.  What is missing from the full claim: events of one side only, for which
the function raises (see the counterexample). -/
theorem C83_budgeted_partial (bars : List ℤ) (hs : bars.Pairwise (· < ·)) (last : ℤ)
    (hlast : bars.getLast? = some last) (events : List (ℤ × Option ℤ × K))
    (hord : (events.map Prod.fst).Pairwise (· ≤ ·)) (ml ms : ℕ)
    (hml : IsGreatest {x | ∃ t ∈ bars, running (sideEvents events 1 last) t = x} ml) (hml0 : 0 < ml)
    (hms : IsGreatest {x | ∃ t ∈ bars, running (sideEvents events (-1) last) t = x} ms) (hms0 : 0 < ms) :
    ∃ size : ℤ → K, budgetedPositionSize bars events npMax = .ok (bars.map fun t => (t, some (size t))) ∧
      (∀ t, size t = (running (sideEvents events 1 last) t : K) / ml -
        (running (sideEvents events (-1) last) t : K) / ms) ∧
      (∀ t ∈ bars, |size t| ≤ 1) ∧
      (∀ t, running (sideEvents events 1 last) t = 0 → running (sideEvents events (-1) last) t = 0 →
        size t = 0) := by
  have hex : ∀ v : K, ∀ m, IsGreatest {x | ∃ t ∈ bars, running (sideEvents events v last) t = x} m →
      0 < m → ∃ e ∈ events, e.2.2 = v := by
    rintro v m ⟨⟨t, -, ht⟩, -⟩ hm
    by_contra hc
    push Not at hc
    have : sideEvents events v last = [] := by
      unfold sideEvents
      rw [List.filter_eq_nil_iff.2 (by simpa using hc), List.map_nil]
    rw [this] at ht
    simp [running] at ht
    omega
  obtain ⟨rl, hl1, hl2, hl3, hl4⟩ := counts_of_side bars hs last hlast events hord 1 (hex 1 ml hml hml0)
  obtain ⟨rs, hs1, hs2, hs3, hs4⟩ :=
    counts_of_side bars hs last hlast events hord (-1) (hex (-1) ms hms hms0)
  have hmlK : (ml : K) ≠ 0 := by exact_mod_cast hml0.ne'
  have hmsK : (ms : K) ≠ 0 := by exact_mod_cast hms0.ne'
  have fl := fill_counts (K := K) bars hs rl _ hl2 hl3 hl4 (fun c => fdiv (c : K) (ml : K))
    (by simp [fdiv, hmlK])
  have fs := fill_counts (K := K) bars hs rs _ hs2 hs3 hs4 (fun c => fdiv (c : K) (ms : K))
    (by simp [fdiv, hmsK])
  refine ⟨fun t => (running (sideEvents events 1 last) t : K) / ml -
        (running (sideEvents events (-1) last) t : K) / ms, ?_, fun _ => rfl, ?_, ?_⟩
  · unfold budgetedPositionSize
    rw [hl1, py_bind_ok, hs1, py_bind_ok, max_counts bars rl _ hl3 hl4 ml hml hml0, py_bind_ok,
      max_counts bars rs _ hs3 hs4 ms hms hms0, py_bind_ok]
    unfold divSeries
    rw [fl, fs, align_map bars hs]
    simp [fdiv, hmlK, hmsK]
  · intro t ht
    have h1 : running (sideEvents events 1 last) t ≤ ml := hml.2 ⟨t, ht, rfl⟩
    have h2 : running (sideEvents events (-1) last) t ≤ ms := hms.2 ⟨t, ht, rfl⟩
    have a1 : (running (sideEvents events 1 last) t : K) / ml ≤ 1 :=
      div_le_one_of_le₀ (by exact_mod_cast h1) (by positivity)
    have a2 : (running (sideEvents events (-1) last) t : K) / ms ≤ 1 :=
      div_le_one_of_le₀ (by exact_mod_cast h2) (by positivity)
    have b1 : 0 ≤ (running (sideEvents events 1 last) t : K) / ml := by positivity
    have b2 : 0 ≤ (running (sideEvents events (-1) last) t : K) / ms := by positivity
    rw [abs_le]
    constructor <;> linarith
  · intro t h1 h2
    simp [h1, h2]

/-- C83: without long events, or without short ones, the function raises whatever the bars. -/
theorem C83_no_side_error (bars : List ℤ) (events : List (ℤ × Option ℤ × K)) (budget : List K → Py K)
    (h : (∀ e ∈ events, e.2.2 ≠ 1) ∨ ∀ e ∈ events, e.2.2 ≠ -1) :
    ∃ e, budgetedPositionSize bars events budget = .error e := by
  have hnil : ∀ v : K, (∀ e ∈ events, e.2.2 ≠ v) →
      countEventsPerBar bars (ofSide events v) = .error .indexError := by
    intro v hv
    apply C32_empty
    right
    unfold ofSide
    rw [List.filter_eq_nil_iff.2 (by simpa using hv), List.map_nil]
  unfold budgetedPositionSize
  rcases h with h | h
  · rw [hnil 1 h]
    exact ⟨_, rfl⟩
  · rw [hnil (-1) h]
    cases countEventsPerBar bars (ofSide events 1) with
    | error e => exact ⟨e, rfl⟩
    | ok a => exact ⟨_, rfl⟩

/-- The claim without the requirement that both sides occur. -/
def BudgetedDefined : Prop :=
  ∀ (bars : List ℤ) (events : List (ℤ × Option ℤ × ℚ)), bars.Pairwise (· < ·) → bars ≠ [] →
    (events.map Prod.fst).Pairwise (· ≤ ·) → (∀ e ∈ events, e.1 ∈ bars) →
    ∃ res, budgetedPositionSize bars events npMax = .ok res

/-- C83: with long events only the function raises. -/
theorem C83_one_sided_counterexample : ¬ BudgetedDefined := by
  intro h
  obtain ⟨res, hres⟩ := h [0, 1] [(0, some 1, 1)] (by decide) (by decide) (by decide) (by decide)
  obtain ⟨e, he⟩ := C83_no_side_error [0, 1] [(0, some 1, (1 : ℚ))] npMax
    (Or.inr (by simp; norm_num))
  rw [he] at hres
  cases hres

end

/-! ## C84 -/

/-- A fitted mixture: weights that are non-negative and sum to 1, positive variances. -/
structure IsMixture (cs : List Component) : Prop where
  weight : ∀ c ∈ cs, 0 ≤ c.weight
  total : (cs.map Component.weight).sum = 1
  var : ∀ c ∈ cs, 0 < c.var

theorem mixtureCdf_mono (cs : List Component) (h : ∀ c ∈ cs, 0 ≤ c.weight) (hv : ∀ c ∈ cs, 0 < c.var)
    (x y : ℝ) (hxy : x < y) : mixtureCdf cs x ≤ mixtureCdf cs y ∧
      ((cs.map Component.weight).sum ≠ 0 → mixtureCdf cs x < mixtureCdf cs y) := by
  unfold mixtureCdf
  induction cs with
  | nil => simp
  | cons c cs ih =>
    obtain ⟨i1, i2⟩ := ih (fun d hd => h d (by simp [hd])) fun d hd => hv d (by simp [hd])
    have hlt : normCdf ((x - c.mean) / √c.var) < normCdf ((y - c.mean) / √c.var) := by
      apply normCdf_strictMono
      exact div_lt_div_of_pos_right (by linarith) (Real.sqrt_pos.2 (hv c (by simp)))
    simp only [List.map_cons, List.sum_cons]
    rcases (h c (by simp)).eq_or_lt with hw | hw
    · rw [← hw]
      simp only [mul_zero, zero_add]
      exact ⟨i1, i2⟩
    · have := mul_lt_mul_of_pos_right hlt hw
      exact ⟨by linarith, fun _ => by linarith⟩

theorem mixtureCdf_range (cs : List Component) (h : IsMixture cs) (x : ℝ) :
    0 < mixtureCdf cs x ∧ mixtureCdf cs x < 1 := by
  have hgen : ∀ l : List Component, (∀ c ∈ l, 0 ≤ c.weight) →
      (0 ≤ mixtureCdf l x ∧ mixtureCdf l x ≤ (l.map Component.weight).sum) ∧
      ((l.map Component.weight).sum ≠ 0 →
        0 < mixtureCdf l x ∧ mixtureCdf l x < (l.map Component.weight).sum) := by
    intro l hl
    unfold mixtureCdf
    induction l with
    | nil => simp
    | cons c l ih =>
      obtain ⟨⟨i1, i2⟩, i3⟩ := ih fun d hd => hl d (by simp [hd])
      have p1 := normCdf_pos ((x - c.mean) / √c.var)
      have p2 := normCdf_lt_one ((x - c.mean) / √c.var)
      simp only [List.map_cons, List.sum_cons]
      rcases (hl c (by simp)).eq_or_lt with hw | hw
      · rw [← hw]
        simp only [mul_zero, zero_add]
        exact ⟨⟨i1, i2⟩, i3⟩
      · have e1 := mul_pos p1 hw
        have e2 := mul_lt_mul_of_pos_right p2 hw
        exact ⟨⟨by linarith, by linarith⟩, fun _ => ⟨by linarith, by linarith⟩⟩
  have := (hgen cs h.weight).2 (by rw [h.total]; norm_num)
  rwa [h.total] at this

/-- C84: for any fitted mixture the size as a function of the net count is in `(-1, 1)`, is 0 at net
count 0, has the sign of the count and is strictly increasing. -/
theorem C84_mixture (cs : List Component) (h : IsMixture cs) :
    (∀ c, |mixtureSize cs c| < 1) ∧ mixtureSize cs 0 = 0 ∧ (∀ c, 0 < c → 0 < mixtureSize cs c) ∧
      (∀ c, c < 0 → mixtureSize cs c < 0) ∧ StrictMono (mixtureSize cs) := by
  have hF : StrictMono (mixtureCdf cs) := fun x y hxy =>
    (mixtureCdf_mono cs h.weight h.var x y hxy).2 (by rw [h.total]; norm_num)
  have h0 := mixtureCdf_range cs h 0
  have hq : 0 < 1 - mixtureCdf cs 0 := by linarith [h0.2]
  have hpos : ∀ c, 0 < c → 0 < mixtureSize cs c := by
    intro c hc
    unfold mixtureSize
    rw [if_pos hc.le]
    exact div_pos (by linarith [hF hc]) hq
  have hneg : ∀ c, c < 0 → mixtureSize cs c < 0 := by
    intro c hc
    unfold mixtureSize
    rw [if_neg (not_le.2 hc)]
    exact div_neg_of_neg_of_pos (by linarith [hF hc]) h0.1
  have hz : mixtureSize cs 0 = 0 := by simp [mixtureSize]
  refine ⟨?_, hz, hpos, hneg, ?_⟩
  · intro c
    have hc := mixtureCdf_range cs h c
    unfold mixtureSize
    split_ifs with hc0
    · have : 0 ≤ mixtureCdf cs c - mixtureCdf cs 0 := by linarith [hF.monotone hc0]
      rw [abs_of_nonneg (div_nonneg this hq.le), div_lt_one hq]
      linarith [hc.2]
    · push Not at hc0
      have : mixtureCdf cs c - mixtureCdf cs 0 < 0 := by linarith [hF hc0]
      rw [abs_of_neg (div_neg_of_neg_of_pos this h0.1), neg_div', div_lt_one h0.1]
      linarith [hc.1]
  · intro x y hxy
    rcases le_or_gt 0 x with hx | hx
    · have hy : 0 ≤ y := hx.trans hxy.le
      unfold mixtureSize
      rw [if_pos hx, if_pos hy]
      exact div_lt_div_of_pos_right (by linarith [hF hxy]) hq
    · rcases le_or_gt 0 y with hy | hy
      · have h1 := hneg x hx
        rcases hy.eq_or_lt with rfl | hy
        · rw [hz]; exact h1
        · linarith [hpos y hy]
      · unfold mixtureSize
        rw [if_neg (not_le.2 hx), if_neg (not_le.2 hy)]
        exact div_lt_div_of_pos_right (by linarith [hF hxy]) h0.1

/-- C84: the sizes returned are these, at every bar, for the number of open long events minus the
number of open short events. -/
theorem C84_pipeline (fit : NanSeries ℝ → List Component) (bars : List ℤ) (hs : bars.Pairwise (· < ·))
    (last : ℤ) (hlast : bars.getLast? = some last) (events : List (ℤ × Option ℤ × ℝ))
    (hord : (events.map Prod.fst).Pairwise (· ≤ ·)) (hl : ∃ e ∈ events, e.2.2 = 1)
    (hsh : ∃ e ∈ events, e.2.2 = -1) (hfit : ∀ s, IsMixture (fit s)) :
    ∃ cs, IsMixture cs ∧ gaussianMixturePositionSize fit bars events = .ok (bars.map fun t =>
      (t, some (mixtureSize cs ((running (sideEvents events 1 last) t : ℝ) -
        (running (sideEvents events (-1) last) t : ℝ))))) := by
  obtain ⟨rl, hl1, hl2, hl3, hl4⟩ := counts_of_side bars hs last hlast events hord 1 hl
  obtain ⟨rs, hs1, hs2, hs3, hs4⟩ := counts_of_side bars hs last hlast events hord (-1) hsh
  have fl := fill_counts (K := ℝ) bars hs rl _ hl2 hl3 hl4 (fun c => some (c : ℝ)) (by simp)
  have fs := fill_counts (K := ℝ) bars hs rs _ hs2 hs3 hs4 (fun c => some (c : ℝ)) (by simp)
  have hnet : netConcurrency bars events = .ok (bars.map fun t =>
      (t, some ((running (sideEvents events 1 last) t : ℝ) -
        (running (sideEvents events (-1) last) t : ℝ)))) := by
    unfold netConcurrency
    rw [hl1, py_bind_ok, hs1, py_bind_ok]
    unfold asSeries
    rw [fl, fs, align_map bars hs]
    rfl
  refine ⟨fit (bars.map fun t => (t, some ((running (sideEvents events 1 last) t : ℝ) -
        (running (sideEvents events (-1) last) t : ℝ)))), hfit _, ?_⟩
  unfold gaussianMixturePositionSize
  rw [hnet, py_bind_ok, py_pure, List.map_map]
  rfl

example : IsMixture [⟨1 / 3, 2, 1⟩, ⟨2 / 3, -1, 4⟩] := by
  refine ⟨?_, ?_, ?_⟩ <;> norm_num

/-- The hypotheses of C83 hold for two overlapping events. -/
example : budgetedPositionSize [0, 1, 2, 3] [(0, some 2, (1 : ℚ)), (1, none, -1)] npMax =
    .ok [(0, some 1), (1, some 0), (2, some 0), (3, some (-1))] := by decide +kernel

end FinML.Alloc
