import Verif.TimeSeries.GapModel
import Verif.TimeSeries.EwmProps
import Mathlib.Data.Rat.Floor

/-! # Daily volatility of closes with missing values (C365) -/

namespace FinML.TimeSeries

set_option linter.unusedSectionVars false

variable {K : Type} [Field K] [LinearOrder K]

/-- The same closes with values in the gaps. -/
def FillsClose (f : List (ℤ × K)) (close : List (ℤ × Option K)) : Prop :=
  List.Forall₂ (fun p q => p.1 = q.1 ∧ ∀ x, p.2 = some x → q.2 = x) close f

/-- The close at the time is missing. -/
def MissingAt (close : List (ℤ × Option K)) (t : ℤ) : Prop := (t, none) ∈ close

theorem closeAtM_of_mem (close : List (ℤ × Option K)) (hn : (close.map Prod.fst).Nodup) (t : ℤ) (o : Option K)
    (h : (t, o) ∈ close) : closeAtM close t = .ok o := by
  induction close with
  | nil => cases h
  | cons p l ih =>
    rw [List.map_cons, List.nodup_cons] at hn
    unfold closeAtM
    rcases List.mem_cons.mp h with rfl | h
    · simp
    · have hne : p.1 ≠ t := by
        rintro rfl
        exact hn.1 (List.mem_map.mpr ⟨_, h, rfl⟩)
      have := ih hn.2 h
      unfold closeAtM at this
      rw [List.find?_cons_of_neg (by simpa using hne)]
      exact this

theorem closeAt_fill (f : List (ℤ × K)) (close : List (ℤ × Option K)) (hf : FillsClose f close) (t : ℤ) (o : Option K)
    (h : closeAtM close t = .ok o) : (t, o) ∈ close ∧ ∃ x, closeAt f t = .ok x ∧ ∀ y, o = some y → x = y := by
  unfold FillsClose at hf
  induction hf with
  | nil => cases h
  | @cons p q l m hpq _ ih =>
    unfold closeAtM at h
    unfold closeAt
    by_cases he : p.1 = t
    · rw [List.find?_cons_of_pos (by simpa using he)] at h
      rw [List.find?_cons_of_pos (by simpa [← hpq.1] using he)]
      simp only [Except.ok.injEq] at h
      subst h he
      exact ⟨List.mem_cons_self, q.2, rfl, hpq.2⟩
    · rw [List.find?_cons_of_neg (by simpa using he)] at h
      rw [List.find?_cons_of_neg (by simpa [← hpq.1] using he)]
      obtain ⟨h1, h2⟩ := ih h
      exact ⟨List.mem_cons_of_mem _ h1, h2⟩

/-- C365.  Exactly the returns to or from a missing close are missing, the others are those for any values in the gaps. -/
theorem C365_returns (f : List (ℤ × K)) (close : List (ℤ × Option K)) (hf : FillsClose f close)
    (hn : (close.map Prod.fst).Nodup) (intraday : Bool) (rets : List (Option K))
    (h : dailyReturnsM close intraday = .ok rets) :
    ∃ rets', dailyReturns f intraday = .ok rets' ∧ rets.length = rets'.length ∧
      ∀ (i : ℕ) (p : ℤ × ℤ), (dayPairs (close.map Prod.fst) intraday)[i]? = some p →
        ((MissingAt close p.1 ∨ MissingAt close p.2) → rets[i]? = some none) ∧
        (¬ (MissingAt close p.1 ∨ MissingAt close p.2) → rets[i]? = rets'[i]?) := by
  have hidx : f.map Prod.fst = close.map Prod.fst := by
    unfold FillsClose at hf
    clear h hn
    induction hf with
    | nil => rfl
    | @cons p q l m hpq _ ih => rw [List.map_cons, List.map_cons, ih, hpq.1]
  unfold dailyReturnsM at h
  unfold dailyReturns
  rw [hidx]
  rw [mapM_eq_ok_iff] at h
  generalize dayPairs (close.map Prod.fst) intraday = ps at h
  induction h with
  | nil => exact ⟨[], rfl, rfl, by simp⟩
  | @cons p r ps rs hpr _ ih =>
    obtain ⟨rets', he, hlen, hi⟩ := ih
    rw [py_bind_eq_ok] at hpr
    obtain ⟨a, ha, hpr⟩ := hpr
    rw [py_bind_eq_ok] at hpr
    obtain ⟨b, hb, hpr⟩ := hpr
    simp only [py_pure, Except.ok.injEq] at hpr
    obtain ⟨ma, x, hx, hxa⟩ := closeAt_fill f close hf p.1 a ha
    obtain ⟨mb, y, hy, hyb⟩ := closeAt_fill f close hf p.2 b hb
    refine ⟨((fdiv x y).map fun x => x - 1) :: rets', ?_, by simp [hlen], ?_⟩
    · rw [mapM_cons_py, hx, py_bind_ok, hy, py_bind_ok, py_pure, py_bind_ok, he, py_bind_ok]; rfl
    · intro i q hq
      cases i with
      | succ i => simpa using hi i q (by simpa using hq)
      | zero =>
        simp only [List.getElem?_cons_zero, Option.some.injEq] at hq
        subst hq
        constructor
        · rintro (hm | hm)
          · have := closeAtM_of_mem close hn _ _ hm
            rw [ha] at this
            cases this
            simp [← hpr, returnM]
          · have := closeAtM_of_mem close hn _ _ hm
            rw [hb] at this
            cases this
            cases a <;> simp [← hpr, returnM]
        · intro hm
          cases a with
          | none => exact absurd (Or.inl ma) hm
          | some a =>
            cases b with
            | none => exact absurd (Or.inr mb) hm
            | some b =>
              rw [← hpr, hxa a rfl, hyb b rfl]
              simp [returnM]

theorem ewmOut_none (q : ℝ) (hq : 0 < q) (s : EwmState) : ewmOut (ewmStep q s none) = ewmOut s := by
  cases hm : s.mean with
  | none => simp [ewmStep, hm]
  | some m =>
    have e : s.sumWt * q * (s.sumWt * q) - s.sumWt2 * (q * q) = (q * q) * (s.sumWt * s.sumWt - s.sumWt2) := by ring
    have hqq : 0 < q * q := by positivity
    simp only [ewmStep, hm, ewmOut, e]
    by_cases h : 0 < s.sumWt * s.sumWt - s.sumWt2
    · rw [if_pos (by positivity), if_pos h]
      congr 3
      field_simp
    · rw [if_neg (by rw [mul_pos_iff_of_pos_left hqq]; exact h), if_neg h]

theorem ewmRun_repeat (q : ℝ) (hq : 0 < q) (l : List (Option ℝ)) (s : EwmState) (i : ℕ) (h : l[i + 1]? = some none) :
    (ewmRun q s l)[i + 1]? = (ewmRun q s l)[i]? := by
  induction l generalizing s i with
  | nil => cases h
  | cons x l ih =>
    cases i with
    | succ i => simpa [ewmRun] using ih _ i (by simpa using h)
    | zero =>
      cases l with
      | nil => cases h
      | cons y l =>
        simp only [zero_add, List.getElem?_cons_succ, List.getElem?_cons_zero, Option.some.injEq] at h
        subst h
        simp only [ewmRun, zero_add, List.getElem?_cons_succ, List.getElem?_cons_zero, ewmOut_none q hq]

/-- C365.  At a bar whose return lacks a close, the volatility of the bar before is repeated. -/
theorem C365_repeat (close : List (ℤ × Option ℝ)) (hn : (close.map Prod.fst).Nodup) (span : ℝ) (hs : 1 < span)
    (intraday : Bool) (vols : List (Option ℝ)) (h : dailyVolatilityM close span intraday = .ok vols) (i : ℕ) (p : ℤ × ℤ)
    (hp : (dayPairs (close.map Prod.fst) intraday)[i + 1]? = some p) (hm : MissingAt close p.1 ∨ MissingAt close p.2) :
    vols[i + 1]? = vols[i]? := by
  unfold dailyVolatilityM at h
  rw [py_bind_eq_ok] at h
  obtain ⟨rets, hr, h⟩ := h
  have hf : FillsClose (close.map fun p => (p.1, p.2.getD 0)) close := by
    unfold FillsClose
    rw [List.forall₂_map_right_iff, List.forall₂_same]
    rintro p _
    exact ⟨rfl, fun x hx => by simp [hx]⟩
  obtain ⟨_, _, _, hi⟩ := C365_returns _ close hf hn intraday rets hr
  have hnone := (hi (i + 1) p hp).1 hm
  unfold ewmStd at h
  rw [if_neg (by linarith)] at h
  cases h
  apply ewmRun_repeat _ _ _ _ _ hnone
  have : 2 / (span + 1) < 1 := by rw [div_lt_one (by linarith)]; linarith
  linarith

/-- C365.  A missing close does not change the volatilities at the bars before its first return. -/
theorem C365_before (f : List (ℤ × ℝ)) (close : List (ℤ × Option ℝ)) (hf : FillsClose f close)
    (hn : (close.map Prod.fst).Nodup) (span : ℝ) (intraday : Bool) (vols : List (Option ℝ))
    (h : dailyVolatilityM close span intraday = .ok vols) (k : ℕ)
    (hk : ∀ p ∈ (dayPairs (close.map Prod.fst) intraday).take k, ¬ (MissingAt close p.1 ∨ MissingAt close p.2)) :
    ∃ vols', dailyVolatility f span intraday = .ok vols' ∧ vols.take k = (vols'.map Prod.snd).take k := by
  unfold dailyVolatilityM at h
  rw [py_bind_eq_ok] at h
  obtain ⟨rets, hr, h⟩ := h
  obtain ⟨rets', hr', hlen, hi⟩ := C365_returns _ close hf hn intraday rets hr
  have hrun : ∀ (q : ℝ) (l : List (Option ℝ)) (s : EwmState) (k : ℕ), (ewmRun q s l).take k = ewmRun q s (l.take k) := by
    intro q l
    induction l with
    | nil => intro s k; cases k <;> rfl
    | cons x l ih =>
      intro s k
      cases k with
      | zero => rfl
      | succ k => rw [List.take_succ_cons, ewmRun, ewmRun, List.take_succ_cons, ih]
  have hplen : (dayPairs (close.map Prod.fst) intraday).length = rets.length := by
    unfold dailyReturnsM at hr
    rw [mapM_eq_ok_iff] at hr
    exact hr.length_eq
  have htake : rets.take k = rets'.take k := by
    apply List.ext_getElem?
    intro i
    rw [List.getElem?_take, List.getElem?_take]
    by_cases hik : i < k
    · rw [if_pos hik, if_pos hik]
      by_cases hl : i < rets.length
      · have hp := List.getElem?_eq_getElem (hplen ▸ hl : i < (dayPairs (close.map Prod.fst) intraday).length)
        refine (hi i _ hp).2 (hk _ ?_)
        rw [List.mem_take_iff_getElem]
        exact ⟨i, by rw [hplen]; omega, rfl⟩
      · rw [List.getElem?_eq_none (by omega), List.getElem?_eq_none (by omega)]
    · rw [if_neg hik, if_neg hik]
  unfold dailyVolatility
  rw [hr', py_bind_ok]
  unfold ewmStd at h ⊢
  by_cases hs : span < 1
  · rw [if_pos hs] at h; cases h
  · rw [if_neg hs] at h ⊢
    cases h
    refine ⟨_, rfl, ?_⟩
    rw [List.map_map]
    have : (Prod.snd ∘ fun p : Option ℝ × ℕ => (Label.pos p.2, p.1)) = Prod.fst := rfl
    rw [this, List.zipIdx_map_fst, hrun, hrun, htake]

/-- Five days, no close on the fourth. -/
def fiveDays : List (ℤ × Option ℚ) := [(0, some 4), (day, some 8), (2 * day, some 4), (3 * day, none), (4 * day, some 2)]

/-- The returns to and from the fourth day are missing. -/
example : (fiveDays.map Prod.fst).Nodup ∧
    dayPairs (fiveDays.map Prod.fst) false = [(2 * day, day), (3 * day, 2 * day), (4 * day, 3 * day)] ∧
    dailyReturnsM fiveDays false = .ok [some (-1 / 2), none, none] := by decide +kernel

end FinML.TimeSeries
