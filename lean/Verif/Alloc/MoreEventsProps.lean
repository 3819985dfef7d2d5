import Verif.Alloc.PosProps

/-! # One more event in budgeted sizes (C345) -/

set_option linter.unusedSectionVars false

namespace FinML.Alloc

open FinML.Weights

section
variable {K : Type} [Field K] [LinearOrder K] [IsStrictOrderedRing K]

/-- Whether an event is open at a bar; one that has not ended is open until the last bar. -/
def OpenFor (last : ℤ) (e : ℤ × Option ℤ × K) (t : ℤ) : Prop := e.1 ≤ t ∧ t ≤ e.2.1.getD last

/-- One more open event in a count. -/
theorem running_insert (pre post : List (ℤ × Option ℤ × K)) (x : ℤ × Option ℤ × K) (v : K) (last t : ℤ) :
    running (sideEvents (pre ++ x :: post) v last) t =
      running (sideEvents (pre ++ post) v last) t + (if x.2.2 = v ∧ x.1 ≤ t ∧ t ≤ x.2.1.getD last then 1 else 0) := by
  unfold running sideEvents
  simp only [List.filter_append, List.map_append, List.filter_cons]
  by_cases hv : x.2.2 = v
  · simp only [hv, decide_true, if_true, List.map_cons, true_and, List.countP_append, List.countP_cons, decide_eq_true_eq]
    omega
  · simp [hv]

theorem running_greatest (bars : List ℤ) (l : List (ℤ × ℤ)) (h : ∃ t ∈ bars, ∃ e ∈ l, e.1 ≤ t ∧ t ≤ e.2) :
    ∃ m, IsGreatest {x | ∃ t ∈ bars, running l t = x} m ∧ 0 < m := by
  obtain ⟨t, ht, e, he, hte⟩ := h
  have hb : BddAbove {x | ∃ t ∈ bars, running l t = x} := by
    refine ⟨l.length, ?_⟩
    rintro x ⟨u, -, rfl⟩
    exact List.countP_le_length
  have hne : {x | ∃ t ∈ bars, running l t = x}.Nonempty := ⟨_, t, ht, rfl⟩
  refine ⟨sSup {x | ∃ t ∈ bars, running l t = x}, ⟨Nat.sSup_mem hne hb, fun x hx => le_csSup hb hx⟩, ?_⟩
  refine lt_of_lt_of_le ?_ (le_csSup hb ⟨t, ht, rfl⟩)
  unfold running
  rw [List.countP_pos_iff]
  exact ⟨e, he, by simpa using hte⟩

/-- A count with one more event has a maximum that is the same or one more. -/
theorem greatest_insert (bars : List ℤ) (r r' : ℤ → ℕ) (P : ℤ → Prop) (hin : ∀ t, P t → r' t = r t + 1)
    (hout : ∀ t, ¬ P t → r' t = r t) (m : ℕ) (hm : IsGreatest {x | ∃ t ∈ bars, r t = x} m) :
    ∃ m', IsGreatest {x | ∃ t ∈ bars, r' t = x} m' ∧ m ≤ m' ∧ m' ≤ m + 1 := by
  obtain ⟨⟨t0, ht0, h0⟩, hub⟩ := hm
  have hle : ∀ t ∈ bars, r t ≤ m := fun t ht => hub ⟨t, ht, rfl⟩
  by_cases h : ∃ t ∈ bars, P t ∧ r t = m
  · obtain ⟨t, ht, hP, hr⟩ := h
    refine ⟨m + 1, ⟨⟨t, ht, by rw [hin t hP, hr]⟩, ?_⟩, by omega, le_rfl⟩
    rintro x ⟨u, hu, rfl⟩
    have := hle u hu
    by_cases hPu : P u
    · rw [hin u hPu]; omega
    · rw [hout u hPu]; omega
  · push Not at h
    refine ⟨m, ⟨⟨t0, ht0, ?_⟩, ?_⟩, le_rfl, by omega⟩
    · by_cases hP : P t0
      · exact absurd h0 (h t0 ht0 hP)
      · rw [hout t0 hP, h0]
    · rintro x ⟨u, hu, rfl⟩
      have h1 := hle u hu
      by_cases hPu : P u
      · have := h u hu hPu
        rw [hin u hPu]; omega
      · rw [hout u hPu]; omega

theorem share_insert (r r' m m' : ℕ) (hr : r ≤ m) (hm : 0 < m) (h1 : m ≤ m') (h2 : m' ≤ m + 1) :
    (r' = r + 1 → (r : K) / m ≤ (r' : K) / m') ∧ (r' = r → (r' : K) / m' ≤ (r : K) / m) := by
  have hm0 : (0 : K) < m := by exact_mod_cast hm
  have hm0' : (0 : K) < m' := by exact_mod_cast (show 0 < m' by omega)
  constructor
  · rintro rfl
    rw [div_le_div_iff₀ hm0 hm0']
    have e1 : r * m' ≤ r * (m + 1) := Nat.mul_le_mul_left r h2
    have : r * m' ≤ (r + 1) * m := by
      calc r * m' ≤ r * (m + 1) := e1
        _ = r * m + r := by ring
        _ ≤ r * m + m := by omega
        _ = (r + 1) * m := by ring
    exact_mod_cast this
  · rintro rfl
    exact div_le_div_of_nonneg_left (Nat.cast_nonneg _) hm0 (by exact_mod_cast h1)

/-- C345.  One more long (short) event never lowers (raises) the position while it is open, and never raises (lowers) it at any
other bar. -/
theorem C345_one_more (bars : List ℤ) (hs : bars.Pairwise (· < ·)) (last : ℤ) (hlast : bars.getLast? = some last)
    (pre post : List (ℤ × Option ℤ × K)) (x : ℤ × Option ℤ × K)
    (hord : ((pre ++ x :: post).map Prod.fst).Pairwise (· ≤ ·))
    (hl : ∃ t ∈ bars, ∃ e ∈ pre ++ post, e.2.2 = 1 ∧ OpenFor last e t)
    (hsh : ∃ t ∈ bars, ∃ e ∈ pre ++ post, e.2.2 = -1 ∧ OpenFor last e t) :
    ∃ size size' : ℤ → K, budgetedPositionSize bars (pre ++ post) npMax = .ok (bars.map fun t => (t, some (size t))) ∧
      budgetedPositionSize bars (pre ++ x :: post) npMax = .ok (bars.map fun t => (t, some (size' t))) ∧
      ∀ t ∈ bars, (x.2.2 = 1 → (OpenFor last x t → size t ≤ size' t) ∧ (¬ OpenFor last x t → size' t ≤ size t)) ∧
        (x.2.2 = -1 → (OpenFor last x t → size' t ≤ size t) ∧ (¬ OpenFor last x t → size t ≤ size' t)) := by
  have hex : ∀ v : K, (∃ t ∈ bars, ∃ e ∈ pre ++ post, e.2.2 = v ∧ OpenFor last e t) →
      ∃ t ∈ bars, ∃ e ∈ sideEvents (pre ++ post) v last, e.1 ≤ t ∧ t ≤ e.2 := by
    rintro v ⟨t, ht, e, he, hv, ho⟩
    exact ⟨t, ht, (e.1, e.2.1.getD last), List.mem_map.2 ⟨e, List.mem_filter.2 ⟨he, by simpa using hv⟩, rfl⟩, ho⟩
  obtain ⟨ml, hml, hml0⟩ := running_greatest bars _ (hex 1 hl)
  obtain ⟨ms, hms, hms0⟩ := running_greatest bars _ (hex (-1) hsh)
  have hmax : ∀ (v : K) m, IsGreatest {y | ∃ t ∈ bars, running (sideEvents (pre ++ post) v last) t = y} m →
      ∃ m', IsGreatest {y | ∃ t ∈ bars, running (sideEvents (pre ++ x :: post) v last) t = y} m' ∧ m ≤ m' ∧ m' ≤ m + 1 := by
    intro v m hm
    refine greatest_insert bars _ _ (fun t => x.2.2 = v ∧ x.1 ≤ t ∧ t ≤ x.2.1.getD last) ?_ ?_ m hm
    · intro t ht
      rw [running_insert, if_pos ht]
    · intro t ht
      rw [running_insert, if_neg ht, add_zero]
  obtain ⟨ml', hml', h1, h2⟩ := hmax 1 ml hml
  obtain ⟨ms', hms', h3, h4⟩ := hmax (-1) ms hms
  have hord0 : ((pre ++ post).map Prod.fst).Pairwise (· ≤ ·) := by
    refine hord.sublist ?_
    exact (List.Sublist.append (List.Sublist.refl pre) (List.sublist_cons_self x post)).map _
  obtain ⟨size, e1, e2, -⟩ := C83_budgeted_partial bars hs last hlast (pre ++ post) hord0 ml ms hml hml0 hms hms0
  obtain ⟨size', e1', e2', -⟩ := C83_budgeted_partial bars hs last hlast (pre ++ x :: post) hord ml' ms' hml' (by omega) hms'
    (by omega)
  refine ⟨size, size', e1, e1', fun t ht => ?_⟩
  have hne : (1 : K) ≠ -1 := by
    intro h
    have h2 : (0 : K) < 1 := one_pos
    linarith
  have same : ∀ (v : K) m m', x.2.2 ≠ v → IsGreatest {y | ∃ t ∈ bars, running (sideEvents (pre ++ post) v last) t = y} m →
      IsGreatest {y | ∃ t ∈ bars, running (sideEvents (pre ++ x :: post) v last) t = y} m' →
      m' = m ∧ running (sideEvents (pre ++ x :: post) v last) t = running (sideEvents (pre ++ post) v last) t := by
    intro v m m' hv hm hm'
    have : ∀ t, running (sideEvents (pre ++ x :: post) v last) t = running (sideEvents (pre ++ post) v last) t := by
      intro t
      rw [running_insert, if_neg fun h => hv h.1, add_zero]
    refine ⟨?_, this t⟩
    simp only [this] at hm'
    exact hm'.unique hm
  constructor
  · intro hx
    obtain ⟨q1, q2⟩ := same (-1) ms ms' (by rw [hx]; exact hne) hms hms'
    have hle : running (sideEvents (pre ++ post) 1 last) t ≤ ml := hml.2 ⟨t, ht, rfl⟩
    obtain ⟨g1, g2⟩ := share_insert (K := K) _ (running (sideEvents (pre ++ x :: post) 1 last) t) ml ml' hle hml0 h1 h2
    constructor
    · intro ho
      rw [e2, e2', q1, q2]
      exact sub_le_sub_right (g1 (by rw [running_insert, if_pos ⟨hx, ho⟩])) _
    · intro ho
      rw [e2, e2', q1, q2]
      exact sub_le_sub_right (g2 (by rw [running_insert, if_neg fun h => ho h.2, add_zero])) _
  · intro hx
    obtain ⟨q1, q2⟩ := same 1 ml ml' (by rw [hx]; exact hne.symm) hml hml'
    have hle : running (sideEvents (pre ++ post) (-1) last) t ≤ ms := hms.2 ⟨t, ht, rfl⟩
    obtain ⟨g1, g2⟩ := share_insert (K := K) _ (running (sideEvents (pre ++ x :: post) (-1) last) t) ms ms' hle hms0 h3 h4
    constructor
    · intro ho
      rw [e2, e2', q1, q2]
      exact sub_le_sub_left (g1 (by rw [running_insert, if_pos ⟨hx, ho⟩])) _
    · intro ho
      rw [e2, e2', q1, q2]
      exact sub_le_sub_left (g2 (by rw [running_insert, if_neg fun h => ho h.2, add_zero])) _

end

/-- A second long event from 1 to 2: the position stays full while it is open and is halved before. -/
example : budgetedPositionSize [0, 1, 2, 3] [(0, some 2, (1 : ℚ)), (3, some 3, -1)] npMax =
      .ok [(0, some 1), (1, some 1), (2, some 1), (3, some (-1))] ∧
    budgetedPositionSize [0, 1, 2, 3] [(0, some 2, (1 : ℚ)), (1, some 2, 1), (3, some 3, -1)] npMax =
      .ok [(0, some (1 / 2)), (1, some 1), (2, some 1), (3, some (-1))] := by
  decide +kernel

end FinML.Alloc
