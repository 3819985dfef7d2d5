import Verif.Stats.PboFloatModel
import Verif.Stats.KdeProps
import Verif.CV.PboProps

/-! # Property C300: strategies without a Sharpe ratio in compute_pbo -/

namespace FinML.Stats

open FinML.Metrics FinML.CV

/-- The order of `np.argsort`: NaN comes last. -/
def Before (a b : FinML.Flt ℝ) : Prop := b = .nan ∨ leF a b

/-- `np.argsort`: a permutation of the positions that sorts the entries, NaN last. -/
def IsArgsortF (argsort : List (FinML.Flt ℝ) → List ℕ) : Prop := ∀ l : List (FinML.Flt ℝ),
  (argsort l).Perm (List.range l.length) ∧ (argsort l).Pairwise fun i j => Before (l.getD i .nan) (l.getD j .nan)

/-- The returns of a strategy on given rows. -/
def returnsOn (M : List (List ℝ)) (idx : List ℕ) (j : ℕ) : List ℝ := idx.map fun i => (M.getD i []).getD j 0

/-- C300, the full claim: no strategy with a Sharpe ratio does better on the train rows than the selected one. -/
def BestSelected : Prop :=
  ∀ (argsort : List (FinML.Flt ℝ) → List ℕ), IsArgsortF argsort → ∀ (n : ℕ) (M : List (List ℝ)),
    (∀ r ∈ M, r.length = n) → ∀ (size : ℕ) (ps : List ℕ) (row : PboRowF),
    pboOneF (evalSharpeF n) argsort M size ps = .ok row → ∀ j < n,
    let l := returnsOn M (pboTrain size ps) j
    npStd l ≠ 0 → leF (.fin (npAvg l / npStd l)) row.trainBest

theorem leF_refl (x : FinML.Flt ℝ) (h : x ≠ .nan) : leF x x := by
  cases x with
  | fin x => exact le_refl x
  | posInf => trivial
  | negInf => trivial
  | nan => exact h rfl

theorem leF_total (x y : FinML.Flt ℝ) (hx : x ≠ .nan) (hy : y ≠ .nan) : leF x y ∨ leF y x := by
  cases x <;> cases y <;> simp_all [leF, le_total]

theorem leF_trans (x y z : FinML.Flt ℝ) (h1 : leF x y) (h2 : leF y z) : leF x z := by
  cases x <;> cases y <;> cases z <;> simp_all [leF]
  exact h1.trans h2

theorem isNan_iff (x : FinML.Flt ℝ) : x.isNan = true ↔ x = .nan := by
  cases x <;> simp [FinML.Flt.isNan]

theorem not_leF_nan (v : FinML.Flt ℝ) : ¬ leF .nan v := by
  cases v <;> simp [leF]

/-- A Sharpe ratio is NaN exactly if no return differs from zero. -/
theorem sharpeF_nan (l : List ℝ) : sharpeF l = .nan ↔ ∀ x ∈ l, x = 0 := by
  unfold sharpeF
  simp only [FinML.Flt.div, FinML.Flt.infOf]
  constructor
  · intro h
    split_ifs at h with h1 h2 h3
    have ha : npAvg l = 0 := le_antisymm (not_lt.1 h2) (not_lt.1 h3)
    intro x hx
    have hlen : (0 : ℝ) < l.length := by exact_mod_cast List.length_pos_of_mem hx
    unfold npStd at h1
    have hm : 0 ≤ Metrics.moment 2 l := by
      unfold Metrics.moment npAvg
      refine div_nonneg (List.sum_nonneg ?_) (Nat.cast_nonneg _)
      intro y hy
      obtain ⟨z, -, rfl⟩ := List.mem_map.1 hy
      exact sq_nonneg _
    rw [Real.sqrt_eq_zero hm] at h1
    unfold Metrics.moment at h1
    rw [ha] at h1
    unfold npAvg at h1
    rw [List.length_map, div_eq_zero_iff] at h1
    have hs := h1.resolve_right hlen.ne'
    have := sum_sq_zero l (fun x => x - 0) hs x hx
    simpa using this
  · intro h
    have hz : l = List.replicate l.length 0 := List.eq_replicate_iff.2 ⟨rfl, h⟩
    have ha : npAvg l = 0 := by
      unfold npAvg
      rw [hz]; simp
    have hs : npStd l = 0 := by
      unfold npStd Metrics.moment
      rw [ha, hz]
      simp [npAvg]
    rw [if_pos hs, ha]
    simp

theorem argmaxFromF_nan (best : ℕ) (v : FinML.Flt ℝ) (i : ℕ) (l : List (FinML.Flt ℝ)) (k : ℕ)
    (hk : l[k]? = some .nan) (hfirst : ∀ m < k, l[m]? ≠ some .nan) : argmaxFromF best v i l = i + k := by
  induction l generalizing best v i k with
  | nil => simp at hk
  | cons x xs ih =>
    unfold argmaxFromF
    cases k with
    | zero =>
      simp only [List.getElem?_cons_zero, Option.some.injEq] at hk
      subst hk
      rw [if_neg (not_leF_nan v), if_pos ((isNan_iff _).2 rfl), Nat.add_zero]
    | succ k =>
      have hx : ¬ x.isNan = true := by
        rw [isNan_iff]
        intro h
        exact hfirst 0 (Nat.succ_pos _) (by rw [h]; rfl)
      rw [List.getElem?_cons_succ] at hk
      have hf : ∀ m < k, xs[m]? ≠ some .nan := fun m hm => by
        have := hfirst (m + 1) (by omega)
        rwa [List.getElem?_cons_succ] at this
      rw [if_neg hx, ih _ _ _ k hk hf, ih _ _ _ k hk hf, ite_self]
      omega

theorem npArgmaxF_nan (l : List (FinML.Flt ℝ)) (k : ℕ) (hk : l[k]? = some .nan)
    (hfirst : ∀ m < k, l[m]? ≠ some .nan) : npArgmaxF l = .ok k := by
  cases l with
  | nil => simp at hk
  | cons x xs =>
    unfold npArgmaxF
    simp only
    cases k with
    | zero =>
      simp only [List.getElem?_cons_zero, Option.some.injEq] at hk
      rw [if_pos ((isNan_iff _).2 hk)]
    | succ k =>
      have hx : ¬ x.isNan = true := by
        rw [isNan_iff]
        intro h
        exact hfirst 0 (Nat.succ_pos _) (by rw [h]; rfl)
      rw [if_neg hx, argmaxFromF_nan 0 x 1 xs k (by simpa using hk) fun m hm => by
        have := hfirst (m + 1) (by omega)
        rwa [List.getElem?_cons_succ] at this]
      rw [Nat.add_comm]

theorem argmaxFromF_spec (pre : List (FinML.Flt ℝ)) (best : ℕ) (v : FinML.Flt ℝ) (l : List (FinML.Flt ℝ))
    (hb : best < pre.length) (hv : pre[best]? = some v) (hmax : ∀ x ∈ pre, leF x v) (hn : ∀ x ∈ l, x ≠ .nan) :
    ∃ m, (pre ++ l)[argmaxFromF best v pre.length l]? = some m ∧ ∀ x ∈ pre ++ l, leF x m := by
  induction l generalizing pre best v with
  | nil => exact ⟨v, by simpa [argmaxFromF] using hv, by simpa using hmax⟩
  | cons y l ih =>
    unfold argmaxFromF
    have happ : pre ++ y :: l = (pre ++ [y]) ++ l := by simp
    have hlen : (pre ++ [y]).length = pre.length + 1 := by simp
    have hy : y ≠ .nan := hn y (by simp)
    have hvn : v ≠ .nan := by
      intro h
      exact not_leF_nan v (h ▸ hmax v (List.mem_of_getElem? hv))
    by_cases hle : leF y v
    · rw [if_pos hle]
      have := ih (pre ++ [y]) best v (by simp; omega) (by
        rw [List.getElem?_append_left hb]; exact hv) (by
        intro x hx
        rcases List.mem_append.1 hx with h | h
        · exact hmax x h
        · rw [List.mem_singleton] at h; rw [h]; exact hle) fun x hx => hn x (by simp [hx])
      rw [hlen] at this
      rw [happ]
      exact this
    · rw [if_neg hle, if_neg (by rw [isNan_iff]; exact hy)]
      have hvy : leF v y := (leF_total y v hy hvn).resolve_left hle
      have := ih (pre ++ [y]) pre.length y (by simp) (by simp) (by
        intro x hx
        rcases List.mem_append.1 hx with h | h
        · exact leF_trans _ _ _ (hmax x h) hvy
        · rw [List.mem_singleton] at h; rw [h]; exact leF_refl _ hy) fun x hx => hn x (by simp [hx])
      rw [hlen] at this
      rw [happ]
      exact this

theorem npArgmaxF_spec (l : List (FinML.Flt ℝ)) (b : ℕ) (v : FinML.Flt ℝ) (h : npArgmaxF l = .ok b)
    (hv : l[b]? = some v) (hn : ∀ x ∈ l, x ≠ .nan) : ∀ x ∈ l, leF x v := by
  cases l with
  | nil => simp at hv
  | cons x xs =>
    unfold npArgmaxF at h
    simp only at h
    have hx : x ≠ .nan := hn x (by simp)
    rw [if_neg (by rw [isNan_iff]; exact hx)] at h
    cases h
    obtain ⟨m, h1, h2⟩ := argmaxFromF_spec [x] 0 x xs (by simp) rfl (by
      intro y hy
      rw [List.mem_singleton] at hy
      rw [hy]; exact leF_refl _ hx) fun y hy => hn y (by simp [hy])
    rw [List.singleton_append, List.length_singleton] at h1
    rw [hv] at h1
    cases h1
    exact h2

theorem rows_get (M : List (List ℝ)) (idx : List ℕ) (h : ∀ i ∈ idx, i < M.length) :
    idx.mapM (pyGet M) = .ok (idx.map fun i => M.getD i []) :=
  mapM_ok_of_forall _ _ _ fun i hi => by
    rw [pyGet_eq_ok_iff, List.getD_eq_getElem?_getD, List.getElem?_eq_getElem (h i hi)]
    rfl

theorem rows_lt (M : List (List ℝ)) (idx : List ℕ) (rows : List (List ℝ)) (h : idx.mapM (pyGet M) = .ok rows) :
    ∀ i ∈ idx, i < M.length := by
  rw [mapM_eq_ok_iff] at h
  intro i hi
  obtain ⟨v, -, hv⟩ := forall₂_exists_left h i hi
  rw [pyGet_eq_ok_iff] at hv
  exact (List.getElem?_eq_some_iff.1 hv).1

/-- The performances on given rows. -/
theorem perf_eq (n : ℕ) (M : List (List ℝ)) (idx : List ℕ) :
    evalSharpeF n (idx.map fun i => M.getD i []) =
      .ok ((List.range n).map fun j : ℕ => sharpeF (returnsOn M idx j)) := by
  unfold evalSharpeF returnsOn
  simp only [List.map_map]
  rfl

/-- One choice, opened. -/
theorem pboOneF_eq (n : ℕ) (argsort : List (FinML.Flt ℝ) → List ℕ) (M : List (List ℝ)) (size : ℕ) (ps : List ℕ)
    (h : ∀ i ∈ pboTrain size ps, i < M.length) (b : ℕ)
    (hb : npArgmaxF ((List.range n).map fun j : ℕ => sharpeF (returnsOn M (pboTrain size ps) j)) = .ok b)
    (hbn : b < n) :
    pboOneF (evalSharpeF n) argsort M size ps =
      .ok ⟨rankLogit ((rankIn (argsort ((List.range n).map fun j : ℕ =>
          sharpeF (returnsOn M (pboTest M.length (pboTrain size ps)) j))) b : ℝ) / (n : ℝ)),
        sharpeF (returnsOn M (pboTrain size ps) b),
        sharpeF (returnsOn M (pboTest M.length (pboTrain size ps)) b)⟩ := by
  have ht : ∀ i ∈ pboTest M.length (pboTrain size ps), i < M.length := fun i hi => by
    unfold pboTest at hi
    exact List.mem_range.1 (List.mem_filter.1 hi).1
  have g : ∀ f : ℕ → FinML.Flt ℝ, pyGet ((List.range n).map f) b = .ok (f b) := fun f => by
    rw [pyGet_eq_ok_iff, List.getElem?_map, List.getElem?_range hbn]
    rfl
  unfold pboOneF
  simp only
  rw [rows_get M _ h, py_bind_ok, rows_get M _ ht, py_bind_ok, perf_eq, py_bind_ok, hb, py_bind_ok, g, py_bind_ok,
    perf_eq, py_bind_ok, g, py_bind_ok, List.length_map, List.length_range]
  rfl

theorem argmaxFromF_lt (best : ℕ) (v : FinML.Flt ℝ) (i : ℕ) (l : List (FinML.Flt ℝ)) (hb : best < i) :
    argmaxFromF best v i l < i + l.length := by
  induction l generalizing best v i with
  | nil => simpa [argmaxFromF] using hb
  | cons x xs ih =>
    unfold argmaxFromF
    rw [List.length_cons]
    split
    · have := ih best v (i + 1) (by omega); omega
    · split
      · omega
      · have := ih i x (i + 1) (Nat.lt_succ_self _); omega

theorem npArgmaxF_lt (l : List (FinML.Flt ℝ)) (b : ℕ) (h : npArgmaxF l = .ok b) : b < l.length := by
  cases l with
  | nil => cases h
  | cons x xs =>
    unfold npArgmaxF at h
    cases h
    split
    · simp
    · have := argmaxFromF_lt 0 x 1 xs Nat.one_pos
      rw [List.length_cons]
      omega

/-- What a choice that returns has gone through. -/
theorem pboOneF_inv (n : ℕ) (argsort : List (FinML.Flt ℝ) → List ℕ) (M : List (List ℝ)) (size : ℕ) (ps : List ℕ)
    (row : PboRowF) (h : pboOneF (evalSharpeF n) argsort M size ps = .ok row) :
    (∀ i ∈ pboTrain size ps, i < M.length) ∧ ∃ b < n,
      npArgmaxF ((List.range n).map fun j : ℕ => sharpeF (returnsOn M (pboTrain size ps) j)) = .ok b ∧
      row.trainBest = sharpeF (returnsOn M (pboTrain size ps) b) ∧
      row.testAssoc = sharpeF (returnsOn M (pboTest M.length (pboTrain size ps)) b) ∧
      row.logit = rankLogit ((rankIn (argsort ((List.range n).map fun j : ℕ =>
          sharpeF (returnsOn M (pboTest M.length (pboTrain size ps)) j))) b : ℝ) / (n : ℝ)) := by
  have h' := h
  unfold pboOneF at h'
  simp only at h'
  rw [py_bind_eq_ok] at h'
  obtain ⟨tr, h1, h'⟩ := h'
  have hlt := rows_lt M _ _ h1
  rw [rows_get M _ hlt] at h1
  cases h1
  rw [py_bind_eq_ok] at h'
  obtain ⟨te, -, h'⟩ := h'
  rw [perf_eq, py_bind_ok, py_bind_eq_ok] at h'
  obtain ⟨b, hb, -⟩ := h'
  have hbn : b < n := by
    have := npArgmaxF_lt _ _ hb
    simpa using this
  rw [pboOneF_eq n argsort M size ps hlt b hb hbn] at h
  cases h
  exact ⟨hlt, b, hbn, hb, rfl, rfl, rfl⟩

/-- C300. What is missing: strategies without a Sharpe ratio.  If every strategy has a return other than zero on the
train rows, the selected one does best; a deviation of zero counts as an infinite Sharpe ratio. -/
theorem C300_selected_partial (argsort : List (FinML.Flt ℝ) → List ℕ) (n : ℕ) (M : List (List ℝ)) (size : ℕ)
    (ps : List ℕ) (row : PboRowF) (h : pboOneF (evalSharpeF n) argsort M size ps = .ok row)
    (hact : ∀ j < n, ∃ x ∈ returnsOn M (pboTrain size ps) j, x ≠ 0) (j : ℕ) (hj : j < n) :
    row.trainBest ≠ .nan ∧
    (npStd (returnsOn M (pboTrain size ps) j) ≠ 0 →
      leF (.fin (npAvg (returnsOn M (pboTrain size ps) j) / npStd (returnsOn M (pboTrain size ps) j)))
        row.trainBest) ∧
    (npStd (returnsOn M (pboTrain size ps) j) = 0 → 0 < npAvg (returnsOn M (pboTrain size ps) j) →
      row.trainBest = .posInf) := by
  obtain ⟨-, b, hbn, hb, ht, -, -⟩ := pboOneF_inv n argsort M size ps row h
  have hnn : ∀ i < n, sharpeF (returnsOn M (pboTrain size ps) i) ≠ .nan := fun i hi hc => by
    obtain ⟨x, hx, hx0⟩ := hact i hi
    exact hx0 ((sharpeF_nan _).1 hc x hx)
  have hmax := npArgmaxF_spec _ b row.trainBest hb (by
    rw [List.getElem?_map, List.getElem?_range hbn, ht]; rfl) (by
    intro x hx
    obtain ⟨i, hi, rfl⟩ := List.mem_map.1 hx
    exact hnn i (List.mem_range.1 hi)) _ (List.mem_map.2 ⟨j, List.mem_range.2 hj, rfl⟩)
  refine ⟨ht ▸ hnn b hbn, fun hs => ?_, fun hs ha => ?_⟩
  · have e : sharpeF (returnsOn M (pboTrain size ps) j) =
        .fin (npAvg (returnsOn M (pboTrain size ps) j) / npStd (returnsOn M (pboTrain size ps) j)) := by
      unfold sharpeF
      exact if_neg hs
    rwa [e] at hmax
  · have e : sharpeF (returnsOn M (pboTrain size ps) j) = .posInf := by
      unfold sharpeF
      simp only [FinML.Flt.div, FinML.Flt.infOf]
      rw [if_pos hs, if_pos ha]
    rw [e] at hmax
    cases hr : row.trainBest with
    | posInf => rfl
    | fin x => rw [hr] at hmax; exact hmax.elim
    | negInf => rw [hr] at hmax; exact hmax.elim
    | nan => rw [hr] at hmax; exact hmax.elim

/-- Not vacuous: two strategies, one that gains every day and one that varies. -/
example (argsort : List (FinML.Flt ℝ) → List ℕ) : ∃ row,
    pboOneF (evalSharpeF 2) argsort [[1, 3], [1, 5], [1, 2], [1, 4]] 2 [0] = .ok row ∧
    ∀ j < 2, ∃ x ∈ returnsOn [[1, 3], [1, 5], [1, 2], [1, 4]] (pboTrain 2 [0]) j, x ≠ 0 := by
  have htr : pboTrain 2 [0] = [0, 1] := by decide
  obtain ⟨b, hb⟩ : ∃ b, npArgmaxF ((List.range 2).map fun j : ℕ =>
      sharpeF (returnsOn [[1, 3], [1, 5], [1, 2], [1, 4]] (pboTrain 2 [0]) j)) = .ok b := ⟨_, rfl⟩
  refine ⟨_, pboOneF_eq 2 argsort _ 2 [0] (by rw [htr]; simp) b hb (by simpa using npArgmaxF_lt _ _ hb), ?_⟩
  intro j hj
  rw [htr]
  have : j = 0 ∨ j = 1 := by omega
  rcases this with rfl | rfl <;> simp [returnsOn]

/-- C300. If a strategy does not trade on the train rows, one that does not trade there is selected. -/
theorem C300_idle_selected (argsort : List (FinML.Flt ℝ) → List ℕ) (n : ℕ) (M : List (List ℝ)) (size : ℕ)
    (ps : List ℕ) (row : PboRowF) (h : pboOneF (evalSharpeF n) argsort M size ps = .ok row) (j : ℕ) (hj : j < n)
    (hidle : ∀ x ∈ returnsOn M (pboTrain size ps) j, x = 0) : row.trainBest = .nan := by
  obtain ⟨-, b, hbn, hb, ht, -, -⟩ := pboOneF_inv n argsort M size ps row h
  classical
  have hex : ∃ k, k < n ∧ sharpeF (returnsOn M (pboTrain size ps) k) = .nan := ⟨j, hj, (sharpeF_nan _).2 hidle⟩
  obtain ⟨hk, hkn⟩ := Nat.find_spec hex
  have := npArgmaxF_nan ((List.range n).map fun j : ℕ => sharpeF (returnsOn M (pboTrain size ps) j)) (Nat.find hex) (by
    rw [List.getElem?_map, List.getElem?_range hk, Option.map_some, hkn]) (by
    intro m hm hc
    rw [List.getElem?_map, List.getElem?_range (hm.trans hk), Option.map_some, Option.some.injEq] at hc
    exact Nat.find_min hex hm ⟨hm.trans hk, hc⟩)
  rw [hb] at this
  cases this
  rw [ht, hkn]

theorem rank_last (argsort : List (FinML.Flt ℝ) → List ℕ) (hsort : IsArgsortF argsort) (l : List (FinML.Flt ℝ)) (j : ℕ)
    (hj : l[j]? = some .nan) (hone : ∀ i, l[i]? = some .nan → i = j) : rankIn (argsort l) j = l.length - 1 := by
  obtain ⟨hp, hs⟩ := hsort l
  have hjl : j < l.length := (List.getElem?_eq_some_iff.1 hj).1
  have hmem : j ∈ argsort l := hp.mem_iff.2 (List.mem_range.2 hjl)
  have hnd : (argsort l).Nodup := hp.nodup_iff.2 List.nodup_range
  have hlen : (argsort l).length = l.length := by rw [hp.length_eq, List.length_range]
  obtain ⟨k, hk, hkj⟩ := List.getElem_of_mem hmem
  have hlast : k + 1 = (argsort l).length := by
    by_contra hne
    have hk' : k + 1 < (argsort l).length := by omega
    have hb := List.pairwise_iff_getElem.1 hs k (k + 1) hk hk' (Nat.lt_succ_self k)
    have hm : (argsort l)[k + 1] < l.length := List.mem_range.1 (hp.mem_iff.1 (List.getElem_mem hk'))
    have e : l.getD (argsort l)[k + 1] .nan = .nan := by
      rcases hb with hb | hb
      · exact hb
      · exfalso
        rw [hkj, List.getD_eq_getElem?_getD, hj] at hb
        exact not_leF_nan _ hb
    rw [List.getD_eq_getElem?_getD, List.getElem?_eq_getElem hm, Option.getD_some] at e
    have := hone _ (by rw [List.getElem?_eq_getElem hm, e])
    rw [← hkj] at this
    exact absurd ((hnd.getElem_inj_iff).1 this) (by omega)
  rw [rankIn_getElem (argsort l) hnd k j (by rw [List.getElem?_eq_getElem hk, hkj])]
  omega

theorem logit_last (n : ℕ) (hn : 0 < n) :
    rankLogit (((n - 1 : ℕ) : ℝ) / (n : ℝ)) = some (Real.log ((n : ℝ) - 1 + 1 / 1000)) := by
  have hn' : (0 : ℝ) < n := by exact_mod_cast hn
  have h1 : (1 : ℝ) ≤ n := by exact_mod_cast hn
  have e : ((n - 1 : ℕ) : ℝ) = (n : ℝ) - 1 := by rw [Nat.cast_sub hn]; simp
  have e1 : 1 - ((n : ℝ) - 1) / n = 1 / n := by field_simp; ring
  have e2 : ((n : ℝ) - 1) / n / (1 / n) = n - 1 := by field_simp
  unfold rankLogit
  rw [e, e1, e2, if_neg]
  rintro (h | h)
  · have : (0 : ℝ) < 1 / n := by positivity
    linarith
  · linarith

/-- C300. One strategy that never trades among others that trade in every partition: it is selected in every choice and
counts as the best one on the test rows too, the logits agree and `compute_pbo` raises. -/
theorem C300_idle (argsort : List (FinML.Flt ℝ) → List ℕ) (hsort : IsArgsortF argsort) (n : ℕ) (M : List (List ℝ))
    (N : ℕ) (hN : 0 < N) (heven : N % 2 = 0) (j : ℕ) (hj : j < n) (hidle : ∀ r ∈ M, r.getD j 0 = 0)
    (hact : ∀ i < n, i ≠ j → ∀ p < N, ∃ t < M.length, t / (M.length / N) = p ∧ (M.getD t []).getD i 0 ≠ 0) :
    computePboF (evalSharpeF n) argsort M N =
      .ok (List.replicate (N.choose (N / 2)) ⟨some (Real.log ((n : ℝ) - 1 + 1 / 1000)), .nan, .nan⟩) ∧
    pboProbabilityF (evalSharpeF n) argsort M N = .error .exception := by
  have hcomb := C44_choices (K := ℚ) ⟨N, N / 2, none, [], 0, id⟩
  unfold Cpcv.choices at hcomb
  simp only at hcomb
  have hzero : ∀ idx : List ℕ, sharpeF (returnsOn M idx j) = .nan := fun idx => by
    rw [sharpeF_nan]
    intro x hx
    obtain ⟨t, -, rfl⟩ := List.mem_map.1 hx
    by_cases ht : t < M.length
    · rw [List.getD_eq_getElem?_getD (l := M), List.getElem?_eq_getElem ht]
      exact hidle _ (List.getElem_mem ht)
    · simp only [List.getD_eq_getElem?_getD (l := M)]
      rw [List.getElem?_eq_none (by omega)]
      rfl
  have key : ∀ ps ∈ combinations (N / 2) (List.range N),
      pboOneF (evalSharpeF n) argsort M (M.length / N) ps =
        .ok ⟨some (Real.log ((n : ℝ) - 1 + 1 / 1000)), .nan, .nan⟩ := by
    intro ps hps
    obtain ⟨hsorted, hlen, hps⟩ := (hcomb.1 ps).1 hps
    obtain ⟨hmem, hin, htest, -⟩ := C48_indices M.length N ps hps
    have hnn : ∀ idx : List ℕ, (∃ p < N, ∀ t < M.length, t / (M.length / N) = p → t ∈ idx) →
        ∀ i < n, i ≠ j → sharpeF (returnsOn M idx i) ≠ .nan := by
      rintro idx ⟨p, hp, hidx⟩ i hi hij hc
      obtain ⟨t, ht, htp, hne⟩ := hact i hi hij p hp
      exact hne ((sharpeF_nan _).1 hc _ (List.mem_map.2 ⟨t, hidx t ht htp, rfl⟩))
    -- a train partition and a test partition
    obtain ⟨p, hp⟩ : ∃ p, p ∈ ps := List.exists_mem_of_length_pos (by omega)
    obtain ⟨q, hq, hqps⟩ : ∃ q < N, q ∉ ps := by
      by_contra hall
      push Not at hall
      have hsub : (List.range N).Subset ps := fun x hx => hall x (List.mem_range.1 hx)
      have := (List.nodup_range.subperm hsub).length_le
      rw [List.length_range] at this
      omega
    have htr : ∀ i < n, i ≠ j → sharpeF (returnsOn M (pboTrain (M.length / N) ps) i) ≠ .nan := fun i hi hij => by
      obtain ⟨t0, ht0, ht0p, -⟩ := hact i hi hij p (hps p hp)
      refine hnn _ ⟨p, hps p hp, fun t ht htp => (hmem t).2 ⟨?_, htp ▸ hp⟩⟩ i hi hij
      by_contra h0
      obtain ⟨t1, -, ht1, -⟩ := hact i hi hij q hq
      have hz : M.length / N = 0 := Nat.eq_zero_of_not_pos h0
      rw [hz, Nat.div_zero] at ht0p ht1
      exact hqps (ht1 ▸ ht0p ▸ hp)
    have hte : ∀ i < n, i ≠ j →
        sharpeF (returnsOn M (pboTest M.length (pboTrain (M.length / N) ps)) i) ≠ .nan := fun i hi hij =>
      hnn _ ⟨q, hq, fun t ht htq => (htest t).2 ⟨ht, fun hc => hqps (htq ▸ ((hmem t).1 hc).2)⟩⟩ i hi hij
    have hb := npArgmaxF_nan ((List.range n).map fun j : ℕ => sharpeF (returnsOn M (pboTrain (M.length / N) ps) j)) j (by
      rw [List.getElem?_map, List.getElem?_range hj, Option.map_some, hzero]) (by
      intro m hm hc
      rw [List.getElem?_map, List.getElem?_range (hm.trans hj), Option.map_some, Option.some.injEq] at hc
      exact htr m (hm.trans hj) (by omega) hc)
    rw [pboOneF_eq n argsort M _ ps (fun i hi => (hin i hi).2) j hb hj, hzero, hzero]
    have hr := rank_last argsort hsort ((List.range n).map fun i : ℕ =>
      sharpeF (returnsOn M (pboTest M.length (pboTrain (M.length / N) ps)) i)) j (by
      rw [List.getElem?_map, List.getElem?_range hj, Option.map_some, hzero]) (by
      intro i hi
      rw [List.getElem?_map] at hi
      by_cases hin : i < n
      · rw [List.getElem?_range hin, Option.map_some, Option.some.injEq] at hi
        by_contra hij
        exact hte i hin hij hi
      · rw [List.getElem?_eq_none (by simpa using hin)] at hi
        cases hi)
    rw [hr, List.length_map, List.length_range, logit_last n (by omega)]
  have hrows : computePboF (evalSharpeF n) argsort M N =
      .ok (List.replicate (N.choose (N / 2)) ⟨some (Real.log ((n : ℝ) - 1 + 1 / 1000)), .nan, .nan⟩) := by
    unfold computePboF
    have c1 : ¬ ((N : ℤ) % 2 ≠ 0) := by omega
    have c2 : ¬ ((N : ℤ) = 0) := by omega
    have c3 : ¬ ((N : ℤ) < 0) := by omega
    rw [if_neg c1, if_neg c2, if_neg c3, Int.toNat_natCast, mapM_ok_of_forall _ _ _ key]
    rw [List.map_const', hcomb.2.2]
  refine ⟨hrows, ?_⟩
  unfold pboProbabilityF
  rw [hrows, py_bind_ok, mapM_ok_of_forall _ (fun _ => Real.log ((n : ℝ) - 1 + 1 / 1000)), py_bind_ok,
    gaussianKde_constant _ ?_ (Real.log ((n : ℝ) - 1 + 1 / 1000)) ?_]
  · rfl
  · rw [List.length_map, List.length_replicate]
    obtain ⟨m, rfl⟩ : ∃ m, N = 2 * (m + 1) := ⟨N / 2 - 1, by omega⟩
    rw [Nat.mul_div_cancel_left _ (by norm_num)]
    exact Nat.le_of_dvd (Nat.centralBinom_pos (m + 1)) (Nat.two_dvd_centralBinom_of_one_le (n := m + 1) (by omega))
  · intro x hx
    obtain ⟨-, -, rfl⟩ := List.mem_map.1 hx
    rfl
  · intro r hr
    rw [List.eq_of_mem_replicate hr]
    rfl

theorem before_total (a b : FinML.Flt ℝ) : Before a b ∨ Before b a := by
  by_cases ha : a = .nan
  · exact Or.inr (Or.inl ha)
  by_cases hb : b = .nan
  · exact Or.inl (Or.inl hb)
  rcases leF_total a b ha hb with h | h
  · exact Or.inl (Or.inr h)
  · exact Or.inr (Or.inr h)

theorem before_trans (a b c : FinML.Flt ℝ) (h1 : Before a b) (h2 : Before b c) : Before a c := by
  rcases h2 with h2 | h2
  · exact Or.inl h2
  rcases h1 with h1 | h1
  · rw [h1] at h2
    exact (not_leF_nan c h2).elim
  · exact Or.inr (leF_trans a b c h1 h2)

theorem exists_argsortF : ∃ argsort, IsArgsortF argsort := by
  classical
  refine ⟨fun l => (List.range l.length).mergeSort fun i j => decide (Before (l.getD i .nan) (l.getD j .nan)), fun l =>
    ⟨List.mergeSort_perm _ _, ?_⟩⟩
  have := List.pairwise_mergeSort (le := fun i j => decide (Before (l.getD i .nan) (l.getD j .nan)))
    (fun a b c => by simpa using before_trans _ _ _) (fun a b => by simpa using before_total _ _) (List.range l.length)
  exact this.imp fun h => by simpa using h

/-- Two strategies over four days: the first does not trade, the second gains every day. -/
def idleMatrix : List (List ℝ) := [[0, 1], [0, 2], [0, 1], [0, 2]]

theorem idleMatrix_active : ∀ i < 2, i ≠ 0 → ∀ p < 2, ∃ t < idleMatrix.length, t / (idleMatrix.length / 2) = p ∧
    (idleMatrix.getD t []).getD i 0 ≠ 0 := by
  intro i hi h0 p hp
  obtain rfl : i = 1 := by omega
  have : p = 0 ∨ p = 1 := by omega
  rcases this with rfl | rfl
  · exact ⟨0, by decide, by decide, by simp [idleMatrix]⟩
  · exact ⟨2, by decide, by decide, by simp [idleMatrix]⟩

/-- C300_idle is not vacuous: the probability of overfitting of the two strategies is not defined. -/
example (argsort : List (FinML.Flt ℝ) → List ℕ) (hsort : IsArgsortF argsort) :
    pboProbabilityF (evalSharpeF 2) argsort idleMatrix (2 : ℕ) = .error .exception :=
  (C300_idle argsort hsort 2 idleMatrix 2 (by norm_num) (by norm_num) 0 (by norm_num)
    (by simp [idleMatrix]) idleMatrix_active).2

/-- C300. The idle strategy is selected though the other one gains every day. -/
theorem C300_selected_counterexample : ¬ BestSelected := by
  intro hall
  obtain ⟨argsort, hsort⟩ := exists_argsortF
  have htr : pboTrain 2 [0] = [0, 1] := by decide
  have hz : sharpeF (returnsOn idleMatrix (pboTrain 2 [0]) 0) = .nan := by
    rw [sharpeF_nan, htr]
    simp [returnsOn, idleMatrix]
  have hb := npArgmaxF_nan ((List.range 2).map fun j : ℕ => sharpeF (returnsOn idleMatrix (pboTrain 2 [0]) j)) 0 (by
    rw [List.getElem?_map, List.getElem?_range (by norm_num), Option.map_some, hz]) (by simp)
  have hrow := pboOneF_eq 2 argsort idleMatrix 2 [0] (by rw [htr]; simp [idleMatrix]) 0 hb (by norm_num)
  have h2 : returnsOn idleMatrix (pboTrain 2 [0]) 1 = [1, 2] := by rw [htr]; simp [returnsOn, idleMatrix]
  have hs : npStd (returnsOn idleMatrix (pboTrain 2 [0]) 1) ≠ 0 := by
    rw [h2]
    unfold npStd Metrics.moment npAvg
    norm_num
  have := hall argsort hsort 2 idleMatrix (by simp [idleMatrix]) 2 [0] _ hrow 1 (by norm_num) hs
  simp only [hz] at this
  exact this

/-! ### Agreement with finite numbers -/

/-- A row of finite numbers. -/
def finRow (r : PboRow) : PboRowF := ⟨r.logit, .fin r.trainBest, .fin r.testAssoc⟩

theorem argmaxFromF_fin (best : ℕ) (v : ℝ) (i : ℕ) (l : List ℝ) :
    argmaxFromF best (.fin v) i (l.map .fin) = argmaxFrom best v i l := by
  induction l generalizing best v i with
  | nil => rfl
  | cons x xs ih =>
    rw [List.map_cons]
    unfold argmaxFromF argmaxFrom
    by_cases h : v < x
    · rw [if_pos h, if_neg (show ¬ leF (.fin x) (.fin v) from not_le.2 h), if_neg (by simp [FinML.Flt.isNan]), ih]
    · rw [if_neg h, if_pos (show leF (.fin x) (.fin v) from not_lt.1 h), ih]

theorem npArgmaxF_fin (l : List ℝ) : npArgmaxF (l.map .fin) = npArgmax l := by
  cases l with
  | nil => rfl
  | cons x xs =>
    rw [List.map_cons]
    unfold npArgmaxF npArgmax
    simp only
    rw [if_neg (by simp [FinML.Flt.isNan]), argmaxFromF_fin]

theorem evalSharpeF_fin (n : ℕ) (rows : List (List ℝ)) (hne : rows ≠ []) (hn : ∀ r ∈ rows, r.length = n)
    (perf : List ℝ) (h : evalSharpe rows = .ok perf) : evalSharpeF n rows = .ok (perf.map .fin) := by
  unfold evalSharpe at h
  cases hs : allSome (sharpeRatio rows .rows) with
  | none => rw [hs] at h; cases h
  | some v =>
    rw [hs] at h
    cases h
    rw [allSome_eq] at hs
    unfold sharpeRatio lines at hs
    have hlen : (rows.headD []).length = n := by
      cases rows with
      | nil => exact absurd rfl hne
      | cons r rows => exact hn r (by simp)
    rw [hlen] at hs
    unfold evalSharpeF
    congr 1
    apply List.ext_getElem?
    intro j
    have hj := congrArg (fun l : List (Option ℝ) => l[j]?) hs
    simp only [List.getElem?_map] at hj ⊢
    by_cases hjn : j < n
    · rw [List.getElem?_range hjn] at hj ⊢
      cases hp : perf[j]? with
      | none => rw [hp] at hj; cases hj
      | some x =>
        rw [hp] at hj
        simp only [Option.map_some, Option.some.injEq] at hj ⊢
        unfold sharpe fdiv at hj
        unfold sharpeF FinML.Flt.div
        split_ifs at hj with h0
        rw [Option.some.injEq] at hj
        exact (if_neg h0).trans (congrArg _ hj)
    · have hr : (List.range n)[j]? = none := List.getElem?_eq_none (by simpa using hjn)
      rw [hr] at hj ⊢
      cases hp : perf[j]? with
      | none => rfl
      | some x => rw [hp] at hj; cases hj

/-- C300. If every strategy varies on the train and test rows of every choice, the result is that of exact numbers. -/
theorem C300_agree (argsort : List (FinML.Flt ℝ) → List ℕ) (n : ℕ) (M : List (List ℝ)) (hM : ∀ r ∈ M, r.length = n)
    (N : ℤ) (rows : List PboRow) (h : computePbo evalSharpe (fun l => argsort (l.map .fin)) M N = .ok rows) :
    computePboF (evalSharpeF n) argsort M N = .ok (rows.map finRow) := by
  unfold computePbo at h
  unfold computePboF
  by_cases h1 : N % 2 ≠ 0
  · rw [if_pos h1] at h; cases h
  by_cases h2 : N = 0
  · rw [if_neg h1, if_pos h2] at h; cases h
  by_cases h3 : N < 0
  · rw [if_neg h1, if_neg h2, if_pos h3] at h; cases h
  rw [if_neg h1, if_neg h2, if_neg h3] at h ⊢
  rw [mapM_eq_ok_iff] at h ⊢
  rw [List.forall₂_map_right_iff]
  refine h.imp fun ps row hrow => ?_
  clear h h1 h2 h3
  unfold pboOne at hrow
  simp only [py_bind_eq_ok] at hrow
  obtain ⟨tr, e1, te, e2, trp, e3, b, e4, x, e5, tep, e6, y, e7, e8⟩ := hrow
  have htr : tr ≠ [] := by
    rintro rfl
    cases e3
    cases e4
  have hte : te ≠ [] := by
    rintro rfl
    cases e6
    cases e7
  have g : ∀ (l : List ℝ) (v : ℝ), pyGet l b = .ok v → pyGet (l.map FinML.Flt.fin) b = .ok (.fin v) := fun l v hv => by
    rw [pyGet_eq_ok_iff] at hv ⊢
    rw [List.getElem?_map, hv]
    rfl
  unfold pboOneF
  simp only
  rw [e1, py_bind_ok, e2, py_bind_ok,
    evalSharpeF_fin n tr htr (fun r hr => hM r (mem_of_mapM_pyGet e1 r hr)) _ e3, py_bind_ok, npArgmaxF_fin, e4, py_bind_ok,
    g _ _ e5, py_bind_ok, evalSharpeF_fin n te hte (fun r hr => hM r (mem_of_mapM_pyGet e2 r hr)) _ e6, py_bind_ok,
    g _ _ e7, py_bind_ok, List.length_map]
  cases e8
  rfl

end FinML.Stats
