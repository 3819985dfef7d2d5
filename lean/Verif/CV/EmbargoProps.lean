import Verif.CV.KFoldProps
import Verif.CV.CombiProps

/-! # Property C249: a longer embargo trains on no more -/

namespace FinML.CV

variable {K : Type} [Field K] [LinearOrder K] [IsStrictOrderedRing K] [FloorRing K]

omit [IsStrictOrderedRing K] in
theorem pyInt_mono {a b : K} (h0 : 0 ≤ a) (h : a ≤ b) : 0 ≤ pyInt a ∧ pyInt a ≤ pyInt b := by
  unfold pyInt
  rw [if_pos h0, if_pos (h0.trans h)]
  exact ⟨Int.floor_nonneg.2 h0, Int.floor_mono h⟩

theorem pyDrop_longer {l : List ℕ} {a b : ℤ} (h0 : 0 ≤ a) (h : a ≤ b) :
    (pyDrop b l).Sublist (pyDrop a l) ∧ (pyDrop a l).length ≤ (pyDrop b l).length + (b - a).toNat := by
  unfold pyDrop
  rw [if_pos h0, if_pos (h0.trans h)]
  refine ⟨?_, by simp only [List.length_drop]; omega⟩
  rw [show b.toNat = a.toNat + (b.toNat - a.toNat) by omega, ← List.drop_drop]
  exact List.drop_sublist _ _

theorem kfoldOne_longer {events : List Event} {e e' : ℤ} (h0 : 0 ≤ e) (h : e ≤ e') {b : ℕ × ℕ}
    {r : List ℕ × List ℕ} (hr : kfoldOne events e b = .ok r) :
    ∃ r', kfoldOne events e' b = .ok r' ∧ r'.2 = r.2 ∧ r'.1.Sublist r.1 ∧
      r.1.length ≤ r'.1.length + (e' - e).toNat := by
  unfold kfoldOne at hr ⊢
  simp only [py_bind_eq_ok, py_pure, Except.ok.injEq] at hr
  obtain ⟨first, h1, te, h2, m, h3, rfl⟩ := hr
  refine ⟨(if searchRight (events.map Prod.fst) m + 1 < events.length then
      (events.zipIdx.filter fun r => oLt r.1.2 first.1).map Prod.snd ++
        pyDrop (((searchRight (events.map Prod.fst) m + 1 : ℕ) : ℤ) + e') (List.range events.length)
    else (events.zipIdx.filter fun r => oLt r.1.2 first.1).map Prod.snd,
    ((List.range events.length).take b.2).drop b.1), by simp only [h1, h2, h3, py_bind_ok]; rfl, rfl, ?_, ?_⟩
  · dsimp only
    split
    · exact List.Sublist.append (List.Sublist.refl _) (pyDrop_longer (by omega) (by omega)).1
    · exact List.Sublist.refl _
  · dsimp only
    split
    · have := (pyDrop_longer (l := List.range events.length)
        (a := ((searchRight (events.map Prod.fst) m + 1 : ℕ) : ℤ) + e)
        (b := ((searchRight (events.map Prod.fst) m + 1 : ℕ) : ℤ) + e') (by omega) (by omega)).2
      rw [List.length_append, List.length_append]
      omega
    · omega

/-- C249, k folds: with a longer embargo the same calls succeed, the test sets are the same, each train set is
part of what it was, and a fold loses at most as many observations as the embargo grew by. -/
theorem C249_kfold (nSplits : ℤ) {p q : K} (hp : 0 ≤ p) (hpq : p ≤ q) (arg : SplitArg)
    {res : List (List ℕ × List ℕ)} (h : kfoldSplit nSplits p arg = .ok res) :
    ∃ (events : List Event) (res' : List (List ℕ × List ℕ)), arg = .series true events ∧
      kfoldSplit nSplits q arg = .ok res' ∧
      List.Forall₂ (fun r r' => r'.2 = r.2 ∧ r'.1.Sublist r.1 ∧
        (r.1.length : ℤ) ≤ r'.1.length + (⌊(events.length : K) * q⌋ - ⌊(events.length : K) * p⌋)) res res' := by
  cases arg with
  | notSeries => simp [kfoldSplit] at h
  | series b events =>
    cases b with
    | false => simp [kfoldSplit] at h
    | true =>
      have hl : (0 : K) ≤ events.length := Nat.cast_nonneg _
      have hpi : ∀ r : K, 0 ≤ r → pyInt ((events.length : K) * r) = ⌊(events.length : K) * r⌋ := fun r hr => by
        unfold pyInt; rw [if_pos (mul_nonneg hl hr)]
      have hm := pyInt_mono (mul_nonneg hl hp) (mul_le_mul_of_nonneg_left hpq hl)
      unfold kfoldSplit kfoldEvents at h
      simp only [py_bind_eq_ok] at h
      obtain ⟨pieces, h1, bounds, h2, h3⟩ := h
      rw [mapM_eq_ok_iff] at h3
      have key : ∃ res', List.Forall₂ (fun b r => kfoldOne events (pyInt ((events.length : K) * q)) b = .ok r)
          bounds res' ∧ List.Forall₂ (fun r r' => r'.2 = r.2 ∧ r'.1.Sublist r.1 ∧
        (r.1.length : ℤ) ≤ r'.1.length + (⌊(events.length : K) * q⌋ - ⌊(events.length : K) * p⌋)) res res' := by
        clear h2
        induction h3 with
        | nil => exact ⟨[], .nil, .nil⟩
        | cons hb _ ih =>
          obtain ⟨res', e1, e2⟩ := ih
          obtain ⟨r', f1, f2, f3, f4⟩ := kfoldOne_longer hm.1 hm.2 hb
          refine ⟨r' :: res', .cons f1 e1, .cons ⟨f2, f3, ?_⟩ e2⟩
          rw [← hpi p hp, ← hpi q (hp.trans hpq)]
          have := hm.2
          omega
      obtain ⟨res', e1, e2⟩ := key
      refine ⟨events, res', rfl, ?_, e2⟩
      unfold kfoldSplit kfoldEvents
      simp only [h1, h2, py_bind_ok]
      exact (mapM_eq_ok_iff _ _ _).2 e1

/-- C249, combinatorial splits: with a longer embargo the test sets are the same and each train set is part of
what it was. -/
theorem C249_combinatorial (c : Cpcv K) (events : List (ℤ × ℤ)) (hev : c.events = events.map closeEv)
    (he : ∀ e ∈ events, e.1 ≤ e.2) (bars : List ℤ) (hcb : c.bars = some bars)
    (hbars : bars.Pairwise (· < ·)) (hends : ∀ e ∈ events, e.2 ∈ bars) (q : K) (hp : 0 ≤ c.pct)
    (hpq : c.pct ≤ q) {res res' : List (List ℕ × List ℕ)} (h : c.splitAll = .ok res)
    (h' : Cpcv.splitAll { c with pct := q } = .ok res') :
    List.Forall₂ (fun r r' => r'.2 = r.2 ∧ r'.1.Sublist r.1) res res' := by
  unfold Cpcv.splitAll at h h'
  rw [mapM_eq_ok_iff] at h h'
  have hch : Cpcv.choices { c with pct := q } = c.choices := rfl
  rw [hch] at h'
  have hone : ∀ grps r r', c.splitOne grps = .ok r → Cpcv.splitOne { c with pct := q } grps = .ok r' →
      r'.2 = r.2 ∧ r'.1.Sublist r.1 := by
    intro grps r r' hr hr'
    unfold Cpcv.splitOne at hr hr'
    simp only [py_bind_eq_ok, py_pure, Except.ok.injEq] at hr hr'
    obtain ⟨te, h1, tr, h2, rfl⟩ := hr
    obtain ⟨te', h1', tr', h2', rfl⟩ := hr'
    have e : te = te' := Except.ok.inj (h1.symm.trans h1')
    subst e
    refine ⟨rfl, ?_⟩
    obtain ⟨tests, rfl, htm⟩ : ∃ tests : List (ℤ × ℤ), te = tests.map closeEv ∧ ∀ t ∈ tests, t ∈ events := by
      rw [mapM_eq_ok_iff, hev] at h1
      clear h1' h2 h2'
      generalize c.testOf grps = is at h1
      induction h1 with
      | nil => exact ⟨[], rfl, by simp⟩
      | cons ha _ ih =>
        obtain ⟨ts, e1, e2⟩ := ih
        rw [pyGet_eq_ok_iff, List.getElem?_map, Option.map_eq_some_iff] at ha
        obtain ⟨t, ht, rfl⟩ := ha
        refine ⟨t :: ts, by rw [List.map_cons, e1], ?_⟩
        intro x hx
        rcases List.mem_cons.1 hx with rfl | hx
        · exact List.mem_of_getElem? ht
        · exact e2 x hx
    rw [hcb, hev] at h2
    simp only [hcb, hev] at h2'
    exact C40_antitone events tests he (fun t ht => he t (htm t ht)) bars hbars (fun t ht => hends t (htm t ht))
      c.pct q hp hpq tr tr' h2 h2'
  clear hch
  generalize c.choices = cs at h h'
  induction h generalizing res' with
  | nil => cases h'; exact .nil
  | cons ha _ ih =>
    cases h' with
    | cons hb hr => exact .cons (hone _ _ _ ha hb) (ih hr)

/-- Eight events in two folds, without embargo and with one of a quarter. -/
example : kfoldSplit 2 (0 : ℚ) (.series true (([(0, 1), (1, 2), (2, 3), (3, 4), (4, 5), (5, 6), (6, 7), (7, 8)] :
      List (ℤ × ℤ)).map closeEv)) = .ok [([6, 7], [0, 1, 2, 3]), ([0, 1, 2], [4, 5, 6, 7])] ∧
    kfoldSplit 2 (1 / 4 : ℚ) (.series true (([(0, 1), (1, 2), (2, 3), (3, 4), (4, 5), (5, 6), (6, 7), (7, 8)] :
      List (ℤ × ℤ)).map closeEv)) = .ok [([], [0, 1, 2, 3]), ([0, 1, 2], [4, 5, 6, 7])] := by
  decide +kernel

/-- The same for a combinatorial split. -/
example : Cpcv.splitAll (⟨2, 1, some [0, 1, 2, 3, 4], ([(0, 1), (1, 2), (2, 3), (3, 4)] : List (ℤ × ℤ)).map closeEv,
      (0 : ℚ), id⟩ : Cpcv ℚ) = .ok [([3], [0, 1]), ([0], [2, 3])] ∧
    Cpcv.splitAll (⟨2, 1, some [0, 1, 2, 3, 4], ([(0, 1), (1, 2), (2, 3), (3, 4)] : List (ℤ × ℤ)).map closeEv,
      (1 / 5 : ℚ), id⟩ : Cpcv ℚ) = .ok [([], [0, 1]), ([0], [2, 3])] := by
  decide +kernel

end FinML.CV
