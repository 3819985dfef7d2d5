import Verif.Default.SystemModel
import Verif.Default.CountProps
import Verif.Default.FirmProps
import Mathlib.Data.List.Forall2
import Mathlib.Data.List.Perm.Basic

/-!
# Properties C154, C155 and C156
-/

namespace FinML.Default

open FinML.Options

/-! ## C154: the probabilities of systematic defaults -/

/-- A predicted probability of default is between 0 and 1, for any root finder and any input. -/
theorem predictDefault_range (newton : (ℝ → Py (Option ℝ)) → ℝ → ℝ → ℕ → Py ℝ) (p : FirmParams)
    (equity debt maturity riskFree marketRet x : ℝ)
    (h : predictDefault newton p equity debt maturity riskFree marketRet = .ok (some x)) :
    0 ≤ x ∧ x ≤ 1 := by
  unfold predictDefault at h
  simp only at h
  rw [py_bind_eq_ok] at h
  obtain ⟨v, -, h⟩ := h
  simp only [py_pure, Except.ok.injEq, Option.map_eq_some_iff] at h
  obtain ⟨a, ha, rfl⟩ := h
  generalize condD2 v (max 1 debt) riskFree p.sigma maturity p.alpha p.beta
    (marketRet - riskFree * maturity) = y at ha
  cases y <;> simp only [FExt.cdf, Option.some.injEq, reduceCtorEq] at ha <;> subst ha
  · exact ⟨sub_nonneg.2 (normCdf_lt_one _).le, sub_le_self _ (normCdf_pos _).le⟩
  all_goals norm_num

/-- C154. Every firm gets parameters from its own dataset and a probability from its own entry in
`firms_data`, in the order of the datasets; the counts follow the law of independent defaults with these
probabilities: they are non-negative, sum to 1 and have the expected number of defaults as mean. -/
theorem C154_systematic (newton : (ℝ → Py (Option ℝ)) → ℝ → ℝ → ℕ → Py ℝ)
    (ols : List (List ℝ) → List ℝ → List ℝ) (datasets : List (String × List FirmRow)) (interval : ℝ)
    (firmsData : List (String × FirmState)) (marketRet : ℝ) (v : List ℝ) (probs : List (String × ℝ))
    (models : List (String × FirmParams))
    (h : getSystematicDefaultProbs newton ols datasets interval firmsData marketRet = .ok (v, probs, models)) :
    probs.length = datasets.length ∧ models.length = datasets.length ∧
    (∀ (i : ℕ) (name : String) (rows : List FirmRow), datasets[i]? = some (name, rows) →
      ∃ q a p s, models[i]? = some (name, q) ∧ probs[i]? = some (name, p) ∧
        createFirmModel newton ols rows interval marketRet (81 / 100) = .ok (q, a) ∧
        (name, s) ∈ firmsData ∧
        predictDefault newton q s.equity s.debt s.maturity s.riskFree marketRet = .ok (some p) ∧
        0 ≤ p ∧ p ≤ 1) ∧
    v.length = datasets.length + 1 ∧
    (∀ (k : ℕ) (hk : k < v.length), v[k] = exactlyDefault (probs.map Prod.snd) k) ∧
    (∀ x ∈ v, 0 ≤ x ∧ x ≤ 1) ∧ v.sum = 1 ∧
    ∑ k ∈ Finset.range v.length, (k : ℝ) * v.getD k 0 = (probs.map Prod.snd).sum := by
  unfold getSystematicDefaultProbs at h
  rw [py_bind_eq_ok] at h
  obtain ⟨ms, h1, h⟩ := h
  rw [py_bind_eq_ok] at h
  obtain ⟨ps, h2, h⟩ := h
  rw [py_bind_eq_ok] at h
  obtain ⟨w, h3, h⟩ := h
  simp only [py_pure, Except.ok.injEq, Prod.mk.injEq] at h
  obtain ⟨rfl, rfl, rfl⟩ := h
  rw [mapM_eq_ok_iff] at h1 h2
  have l1 := h1.length_eq
  have l2 := h2.length_eq
  have hpt : ∀ (i : ℕ) (name : String) (rows : List FirmRow), datasets[i]? = some (name, rows) →
      ∃ q a p s, ms[i]? = some (name, q) ∧ ps[i]? = some (name, p) ∧
        createFirmModel newton ols rows interval marketRet (81 / 100) = .ok (q, a) ∧
        (name, s) ∈ firmsData ∧
        predictDefault newton q s.equity s.debt s.maturity s.riskFree marketRet = .ok (some p) ∧
        0 ≤ p ∧ p ≤ 1 := by
    intro i name rows hi
    obtain ⟨hlt, hi'⟩ := List.getElem?_eq_some_iff.1 hi
    have hm := h1.get hlt (l1 ▸ hlt)
    have hp := h2.get (l1 ▸ hlt) (l2 ▸ l1 ▸ hlt)
    simp only [List.get_eq_getElem] at hm hp
    rw [hi'] at hm
    unfold firmModel at hm
    rw [py_bind_eq_ok] at hm
    obtain ⟨⟨q, a⟩, hm1, hm⟩ := hm
    simp only [py_pure, Except.ok.injEq] at hm
    rw [← hm] at hp
    unfold firmProb at hp
    simp only at hp
    rw [py_bind_eq_ok] at hp
    obtain ⟨s, hs, hp⟩ := hp
    rw [py_bind_eq_ok] at hp
    obtain ⟨o, ho, hp⟩ := hp
    rw [py_bind_eq_ok] at hp
    obtain ⟨p, hk, hp⟩ := hp
    simp only [py_pure, Except.ok.injEq] at hp
    cases o with
    | none => cases hk
    | some x =>
      simp only [knownProb, Except.ok.injEq] at hk
      subst hk
      have hs' : (name, s) ∈ firmsData := by
        unfold dictGet at hs
        cases hf : firmsData.find? fun p => decide (p.1 = name) with
        | none => rw [hf] at hs; cases hs
        | some e =>
          rw [hf] at hs
          simp only [Except.ok.injEq] at hs
          have e1 := List.mem_of_find?_eq_some hf
          have e2 := List.find?_some hf
          simp only [decide_eq_true_eq] at e2
          rwa [← e2, ← hs]
      refine ⟨q, a, x, s, ?_, ?_, hm1, hs', ho, predictDefault_range _ _ _ _ _ _ _ _ ho⟩
      · rw [List.getElem?_eq_getElem (l1 ▸ hlt), ← hm]
      · rw [List.getElem?_eq_getElem (l2 ▸ l1 ▸ hlt), ← hp]
  have hr : ∀ p ∈ ps.map Prod.snd, 0 ≤ p ∧ p ≤ 1 := by
    intro p hp
    obtain ⟨e, he, rfl⟩ := List.mem_map.1 hp
    obtain ⟨i, hi, rfl⟩ := List.mem_iff_getElem.1 he
    have hd : i < datasets.length := by omega
    obtain ⟨q, a, p, s, -, e1, -, -, -, e2⟩ := hpt i datasets[i].1 datasets[i].2 (by simp [hd])
    rw [List.getElem?_eq_getElem hi] at e1
    rw [Option.some.inj e1]
    exact e2
  have hne : ps.map Prod.snd ≠ [] := by
    intro hp
    rw [hp, C114_empty] at h3
    cases h3
  obtain ⟨v', e1, e2, e3⟩ := C114_law (ps.map Prod.snd) hne
  rw [h3] at e1
  cases e1
  obtain ⟨e4, e5, -⟩ := C114_moments _ _ h3
  refine ⟨by omega, by omega, hpt, ?_, e3, (C114_probability _ _ h3 hr).1, e4, e5⟩
  rw [e2, List.length_map]
  omega

/-- C154. Without firms there is an IndexError, and a firm without an entry in `firms_data` is a KeyError
when all parameters could be estimated. -/
theorem C154_raises (newton : (ℝ → Py (Option ℝ)) → ℝ → ℝ → ℕ → Py ℝ)
    (ols : List (List ℝ) → List ℝ → List ℝ) (interval : ℝ) (firmsData : List (String × FirmState))
    (marketRet : ℝ) :
    getSystematicDefaultProbs newton ols [] interval firmsData marketRet = .error .indexError ∧
    ∀ (name : String) (rows : List FirmRow) (rest : List (String × List FirmRow)),
      (∀ e ∈ (name, rows) :: rest, ∃ q,
        createFirmModel newton ols e.2 interval marketRet (81 / 100) = .ok q) →
      (∀ s, (name, s) ∉ firmsData) →
      getSystematicDefaultProbs newton ols ((name, rows) :: rest) interval firmsData marketRet =
        .error .keyError := by
  constructor
  · unfold getSystematicDefaultProbs
    simp only [List.mapM_nil, py_pure, py_bind_ok, List.map_nil, C114_empty]
    rfl
  · intro name rows rest hall hno
    have : Nonempty FirmParams := ⟨⟨0, 0, 0⟩⟩
    choose! q hq using hall
    unfold getSystematicDefaultProbs
    rw [mapM_ok_of_forall _ (fun e => (e.1, (q e).1)) _ fun e he => by
      unfold firmModel
      rw [hq e he]
      rfl]
    rw [py_bind_ok, List.map_cons, mapM_cons_py]
    have : firmProb newton firmsData marketRet (name, (q (name, rows)).1) = .error .keyError := by
      unfold firmProb dictGet
      rw [List.find?_eq_none.2 fun e he => by
        simp only [decide_eq_true_eq]
        rintro rfl
        exact hno e.2 he]
      rfl
    rw [this]
    rfl

theorem perm_forall₂ {A B : Type} {R : A → B → Prop} {l l' : List A} (hp : l.Perm l') {m : List B}
    (h : List.Forall₂ R l m) : ∃ m', m.Perm m' ∧ List.Forall₂ R l' m' := by
  have := List.forall₂_comp_perm_eq_perm_comp_forall₂ (r := R) ▸
    (show Relation.Comp (List.Perm) (List.Forall₂ R) l' m from ⟨l, hp.symm, h⟩)
  obtain ⟨m', h1, h2⟩ := this
  exact ⟨m', h2.symm, h1⟩

/-- C154. The order of the firms does not matter for the counts. -/
theorem C154_order (newton : (ℝ → Py (Option ℝ)) → ℝ → ℝ → ℕ → Py ℝ)
    (ols : List (List ℝ) → List ℝ → List ℝ) (datasets datasets' : List (String × List FirmRow))
    (hp : datasets.Perm datasets') (interval : ℝ)
    (firmsData : List (String × FirmState)) (marketRet : ℝ) (v : List ℝ) (probs : List (String × ℝ))
    (models : List (String × FirmParams))
    (h : getSystematicDefaultProbs newton ols datasets interval firmsData marketRet = .ok (v, probs, models)) :
    ∃ probs' models', probs.Perm probs' ∧ models.Perm models' ∧
      getSystematicDefaultProbs newton ols datasets' interval firmsData marketRet =
        .ok (v, probs', models') := by
  unfold getSystematicDefaultProbs at h
  rw [py_bind_eq_ok] at h
  obtain ⟨ms, h1, h⟩ := h
  rw [py_bind_eq_ok] at h
  obtain ⟨ps, h2, h⟩ := h
  rw [py_bind_eq_ok] at h
  obtain ⟨w, h3, h⟩ := h
  simp only [py_pure, Except.ok.injEq, Prod.mk.injEq] at h
  obtain ⟨rfl, rfl, rfl⟩ := h
  rw [mapM_eq_ok_iff] at h1 h2
  obtain ⟨ms', p1, q1⟩ := perm_forall₂ hp h1
  obtain ⟨ps', p2, q2⟩ := perm_forall₂ p1 h2
  refine ⟨ps', ms', p2, p1, ?_⟩
  unfold getSystematicDefaultProbs
  rw [(mapM_eq_ok_iff _ _ _).2 q1, py_bind_ok, (mapM_eq_ok_iff _ _ _).2 q2, py_bind_ok,
    ← C115_firms _ _ (p2.map Prod.snd), h3]
  rfl

/-- C154. The call returns exactly if there are firms, every firm's parameters can be estimated, and its entry in
`firms_data` gives it a probability. -/
theorem C154_returns (newton : (ℝ → Py (Option ℝ)) → ℝ → ℝ → ℕ → Py ℝ)
    (ols : List (List ℝ) → List ℝ → List ℝ) (datasets : List (String × List FirmRow)) (interval : ℝ)
    (firmsData : List (String × FirmState)) (hk : (firmsData.map Prod.fst).Nodup) (marketRet : ℝ) :
    (∃ r, getSystematicDefaultProbs newton ols datasets interval firmsData marketRet = .ok r) ↔
      datasets ≠ [] ∧ ∀ e ∈ datasets, ∃ q a s p, createFirmModel newton ols e.2 interval marketRet (81 / 100) = .ok (q, a) ∧
        (e.1, s) ∈ firmsData ∧ predictDefault newton q s.equity s.debt s.maturity s.riskFree marketRet = .ok (some p) := by
  constructor
  · rintro ⟨⟨v, probs, models⟩, h⟩
    obtain ⟨-, -, h3, -⟩ := C154_systematic newton ols datasets interval firmsData marketRet v probs models h
    constructor
    · rintro rfl
      rw [(C154_raises newton ols interval firmsData marketRet).1] at h
      cases h
    · intro e he
      obtain ⟨i, hi, rfl⟩ := List.mem_iff_getElem.1 he
      obtain ⟨q, a, p, s, -, -, h4, h5, h6, -⟩ := h3 i datasets[i].1 datasets[i].2 (by simp [hi])
      exact ⟨q, a, s, p, h4, h5, h6⟩
  · rintro ⟨hne, hall⟩
    have : Nonempty FirmParams := ⟨⟨0, 0, 0⟩⟩
    have : Nonempty FirmState := ⟨⟨0, 0, 0, 0⟩⟩
    choose! q a s p h1 h2 h3 using hall
    have e1 : datasets.mapM (firmModel newton ols interval marketRet) = .ok (datasets.map fun e => (e.1, q e)) :=
      mapM_ok_of_forall _ _ _ fun e he => by
        unfold firmModel
        rw [h1 e he]
        rfl
    have e2 : (datasets.map fun e => (e.1, q e)).mapM (firmProb newton firmsData marketRet) =
        .ok (datasets.map fun e => (e.1, p e)) := by
      rw [mapM_eq_ok_iff, List.forall₂_map_left_iff, List.forall₂_map_right_iff, List.forall₂_same]
      intro e he
      have hd : dictGet firmsData e.1 = .ok (s e) := by
        unfold dictGet
        have hf : ∃ r, firmsData.find? (fun r => decide (r.1 = e.1)) = some r := by
          rw [← Option.isSome_iff_exists, List.find?_isSome]
          exact ⟨_, h2 e he, by simp⟩
        obtain ⟨r, hf⟩ := hf
        have hr := List.mem_of_find?_eq_some hf
        have hr1 := List.find?_some hf
        simp only [decide_eq_true_eq] at hr1
        have : r = (e.1, s e) := List.inj_on_of_nodup_map hk hr (h2 e he) hr1
        rw [hf, this]
      unfold firmProb
      rw [hd, py_bind_ok, h3 e he, py_bind_ok]
      rfl
    obtain ⟨v, hv, -⟩ := C114_law ((datasets.map fun e => (e.1, p e)).map Prod.snd) (by simpa using hne)
    refine ⟨(v, datasets.map fun e => (e.1, p e), datasets.map fun e => (e.1, q e)), ?_⟩
    unfold getSystematicDefaultProbs
    rw [e1, py_bind_ok, e2, py_bind_ok, hv]
    rfl

/-- Three dates of a firm without returns. -/
noncomputable def flatFirm : List FirmRow :=
  [⟨1, 1, 0, 0, 1, 1⟩, ⟨1, 1, 0, 0, Real.exp 1, Real.exp 1⟩, ⟨1, 1, 0, 0, Real.exp 3, Real.exp 3⟩]

theorem flatFirm_model : createFirmModel (fun _ _ _ _ => .ok 2) (fun _ _ => [0, 1]) flatFirm 1 0 (81 / 100) =
    .ok (⟨1 / 8, 1, 1 / 2⟩, ([0, 0], [2, 2])) := by
  have hl : logDiff [1, Real.exp 1, Real.exp 3] = .ok [1, 2] := by
    unfold logDiff
    rw [if_pos (by simp [Real.exp_pos])]
    simp only [List.tail_cons, List.zipWith_cons_cons, List.zipWith_nil_right, Real.log_exp, Real.log_one]
    norm_num
  have hm : marketRets [1, Real.exp 1, Real.exp 3] [1, Real.exp 1, Real.exp 3] (81 / 100) = .ok [1, 2] := by
    unfold marketRets npZip
    simp only [hl, py_bind_ok, if_true, List.zipWith_cons_cons, List.zipWith_nil_right]
    norm_num
  unfold createFirmModel flatFirm
  simp only [List.map_cons, List.map_nil, hm, py_bind_ok, debtValues, List.zipWith_cons_cons,
    List.zipWith_nil_right, List.dropLast_cons_cons, List.dropLast_singleton]
  have := fit_converges (1 / 1000000) (by norm_num) 99
  norm_num at this ⊢
  exact this

/-- Two such firms: the hypothesis of `C154_systematic` can be met. -/
example : ∃ v probs models, getSystematicDefaultProbs (fun _ _ _ _ => .ok 2) (fun _ _ => [0, 1])
    [("A", flatFirm), ("B", flatFirm)] 1 [("B", ⟨1, 1, 1, 0⟩), ("A", ⟨1, 2, 1, 0⟩)] 0 =
      .ok (v, probs, models) := by
  have hp : ∀ debt, ∃ x, predictDefault (fun _ _ _ _ => .ok 2) ⟨1 / 8, 1, 1 / 2⟩ 1 debt 1 0 0 =
      .ok (some x) := by
    intro debt
    have h1 : predictDefault (fun _ _ _ _ => .ok 2) ⟨1 / 8, 1, 1 / 2⟩ 1 debt 1 0 0 =
        .ok ((condD2 2 (max 1 debt) 0 (1 / 2) 1 (1 / 8) 1 (0 - 0 * 1)).cdf.map fun x => 1 - x) := rfl
    obtain ⟨-, x, hx, -⟩ := C117_probability (fun _ _ _ _ => .ok 2) ⟨1 / 8, 1, 1 / 2⟩ 1 debt 1 0 0 2 _
      (by norm_num) (by norm_num) (by norm_num) rfl h1
    exact ⟨x, by rw [h1, hx]⟩
  obtain ⟨x, hx⟩ := hp 2
  obtain ⟨y, hy⟩ := hp 1
  obtain ⟨v, hv, -⟩ := C114_law [x, y] (by simp)
  have hm : ∀ s, firmModel (fun _ _ _ _ => .ok 2) (fun _ _ => [0, 1]) 1 0 (s, flatFirm) =
      .ok (s, ⟨1 / 8, 1, 1 / 2⟩) := by
    intro s
    unfold firmModel
    rw [flatFirm_model]
    rfl
  refine ⟨v, [("A", x), ("B", y)], [("A", ⟨1 / 8, 1, 1 / 2⟩), ("B", ⟨1 / 8, 1, 1 / 2⟩)], ?_⟩
  unfold getSystematicDefaultProbs
  have e1 : firmProb (fun _ _ _ _ => .ok 2) [("B", ⟨1, 1, 1, 0⟩), ("A", ⟨1, 2, 1, 0⟩)] 0
      ("A", ⟨1 / 8, 1, 1 / 2⟩) = .ok ("A", x) := by
    unfold firmProb dictGet
    simp only [List.find?, show decide ("B" = "A") = false by decide, decide_true,
      py_bind_ok, hx, knownProb, py_pure]
  have e2 : firmProb (fun _ _ _ _ => .ok 2) [("B", ⟨1, 1, 1, 0⟩), ("A", ⟨1, 2, 1, 0⟩)] 0
      ("B", ⟨1 / 8, 1, 1 / 2⟩) = .ok ("B", y) := by
    unfold firmProb dictGet
    simp only [List.find?, decide_true, py_bind_ok, hy, knownProb, py_pure]
  simp only [mapM_cons_py, List.mapM_nil, hm, py_bind_ok, py_pure, e1, e2, List.map_cons, List.map_nil, hv]

end FinML.Default
