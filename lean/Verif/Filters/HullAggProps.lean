import Verif.Filters.HullAggModel
import Verif.Filters.MmiProps

/-! # Property C325: Hull moving averages with other aggregates and window weights -/

set_option linter.unusedSectionVars false

namespace FinML.Filters

variable {K : Type} [Field K] [LinearOrder K] [IsStrictOrderedRing K]

/-- The `w` values up to position `i`. -/
def windowAt (w : ℕ) (f : ℕ → K) (i : ℕ) : List K := (List.range w).map fun j : ℕ => f (i + 1 - w + j)

/-- C325: with the default arguments this is the Hull moving average of C57. -/
theorem C325_default (series : List K) (n : ℕ) : hullAgg .mean series n = hullMa series n := rfl

/-- C325, value.  Missing exactly in the first `n + ⌊√n⌋ - 2` positions; elsewhere the aggregate over `⌊√n⌋` positions of
twice the short aggregate minus the long one. -/
theorem C325_value (agg : Agg K) (series : List K) (n : ℕ) (hn : 2 ≤ n) :
    ∃ h, hullAgg agg series n = .ok h ∧
      Has h series.length (n + Nat.sqrt n - 2) (fun i => aggOf agg (Nat.sqrt n) (windowAt (Nat.sqrt n)
        (fun k => 2 * aggOf agg (n / 2) (windowAt (n / 2) (fun j => series.getD j 0) k) -
          aggOf agg n (windowAt n (fun j => series.getD j 0) k)) i)) := by
  have hsq : 1 ≤ Nat.sqrt n := Nat.sqrt_pos.2 (by omega)
  have h0 := has_map_some series 0
  have h1 := has_rolling h0 (n / 2) (by omega) (aggOf agg (n / 2))
  have h2 := has_rolling h0 n (by omega) (aggOf agg n)
  have h3 := has_zipO (fun s l : K => 2 * s - l) h1 h2
  have h4 := has_rolling h3 (Nat.sqrt n) hsq (aggOf agg (Nat.sqrt n))
  refine ⟨_, by unfold hullAgg; rw [if_neg (by omega)], ?_⟩
  rw [show max (0 + n / 2 - 1) (0 + n - 1) + Nat.sqrt n - 1 = n + Nat.sqrt n - 2 by
    have : max (0 + n / 2 - 1) (0 + n - 1) = n - 1 := by omega
    rw [this]; omega] at h4
  exact h4

/-- The full claim: with every aggregate function the Hull average commutes with affine changes of the values. -/
def CommutesAffine : Prop :=
  ∀ (agg : Agg ℚ) (series : List ℚ) (n : ℕ) (a b : ℚ) (h h' : List (Option ℚ)), 2 ≤ n →
    hullAgg agg series n = .ok h → hullAgg agg (series.map fun x => a * x + b) n = .ok h' →
    h' = h.map (Option.map fun x => a * x + b)

/-- C325 (refuted).  Sums of a constant series: raising the values by 1 does not raise the result. -/
theorem C325_affine_counterexample : ¬ CommutesAffine := by
  intro h
  have := h .sum [0, 0] 2 1 1 [none, some 0] [none, some 0] (le_refl _) (by decide +kernel) (by decide +kernel)
  revert this
  decide +kernel

/-- The aggregates of all windows commute with `x ↦ a x + b`, and those of `agg` go to those of `agg'`. -/
def Maps (agg agg' : Agg K) (a b : K) : Prop :=
  ∀ (n : ℕ) (l : List K), 1 ≤ n → l.length = n → aggOf agg' n (l.map fun x => a * x + b) = a * aggOf agg n l + b

theorem windowAt_length (w : ℕ) (f : ℕ → K) (i : ℕ) : (windowAt w f i).length = w := by simp [windowAt]

theorem windowAt_map (w : ℕ) (f : ℕ → K) (g : K → K) (i : ℕ) :
    windowAt w (fun j => g (f j)) i = (windowAt w f i).map g := by
  unfold windowAt
  rw [List.map_map]
  rfl

theorem windowAt_congr (w : ℕ) (f g : ℕ → K) (i : ℕ) (h : ∀ j, i + 1 - w ≤ j → j < i + 1 - w + w → f j = g j) :
    windowAt w f i = windowAt w g i := by
  unfold windowAt
  apply List.map_congr_left
  intro j hj
  have := List.mem_range.1 hj
  exact h _ (by omega) (by omega)

theorem hull_maps {agg agg' : Agg K} {a b : K} (hm : Maps agg agg' a b) (series : List K) (n : ℕ) (hn : 2 ≤ n) :
    ∃ h h', hullAgg agg series n = .ok h ∧ hullAgg agg' (series.map fun x => a * x + b) n = .ok h' ∧
      h' = h.map (Option.map fun x => a * x + b) := by
  have hsq : 1 ≤ Nat.sqrt n := Nat.sqrt_pos.2 (by omega)
  obtain ⟨h, e1, e2⟩ := C325_value agg series n hn
  obtain ⟨h', e1', e2'⟩ := C325_value agg' (series.map fun x => a * x + b) n hn
  refine ⟨h, h', e1, e1', ?_⟩
  rw [List.length_map] at e2'
  refine has_unique e2' (has_congr (has_map e2 _) ?_)
  intro i hi hlo
  rw [← hm _ _ hsq (windowAt_length _ _ _), ← windowAt_map]
  congr 1
  apply windowAt_congr
  intro k hk1 hk2
  have hin : ∀ w, 1 ≤ w → w ≤ n → aggOf agg' w (windowAt w (fun j => (series.map fun x => a * x + b).getD j 0) k) =
      a * aggOf agg w (windowAt w (fun j => series.getD j 0) k) + b := by
    intro w hw hwn
    rw [← hm _ _ hw (windowAt_length _ _ _), ← windowAt_map]
    congr 1
    apply windowAt_congr
    intro j hj1 hj2
    have hlt : j < series.length := by omega
    simp [List.getD_eq_getElem?_getD, hlt]
  rw [hin _ (by omega) (by omega), hin _ (by omega) (by omega)]
  ring

/-- The weights of `win_type`: as many as values in the window, with a sum other than 0. -/
def GoodWeights (w : ℕ → List K) : Prop := ∀ n, 1 ≤ n → (w n).length = n ∧ (w n).sum ≠ 0

theorem maps_mean (a b : K) : Maps (.mean : Agg K) .mean a b := by
  intro n l hn hl
  have h0 : (n : K) ≠ 0 := by exact_mod_cast (by omega : n ≠ 0)
  have : (l.map fun x => a * x + b).sum = a * l.sum + l.length * b := by
    clear hl
    induction l with
    | nil => simp
    | cons x l ih =>
      simp only [List.map_cons, List.sum_cons, ih, List.length_cons]
      push_cast
      ring
  simp only [aggOf, meanW]
  rw [this, hl]
  field_simp

theorem maps_weighted (w : ℕ → List K) (hw : GoodWeights w) (a b : K) : Maps (.weighted w) (.weighted w) a b := by
  intro n l hn hl
  obtain ⟨h1, h2⟩ := hw n hn
  have : ∀ (u l : List K), u.length = l.length → (List.zipWith (· * ·) u (l.map fun x => a * x + b)).sum =
      a * (List.zipWith (· * ·) u l).sum + b * u.sum := by
    intro u l hul
    induction u generalizing l with
    | nil => simp
    | cons c u ih =>
      cases l with
      | nil => simp at hul
      | cons x l =>
        simp only [List.map_cons, List.zipWith_cons_cons, List.sum_cons]
        rw [ih l (by simpa using hul)]
        ring
  simp only [aggOf]
  rw [this _ _ (by rw [h1, hl])]
  field_simp

theorem npMedian_const (b : K) (l : List K) (hne : l ≠ []) (h : ∀ x ∈ l, x = b) : npMedian l = b := by
  have h' : l = List.replicate l.length b := List.eq_replicate_iff.2 ⟨rfl, h⟩
  have hs : l.Pairwise (· ≤ ·) := by
    rw [h']
    exact List.pairwise_replicate.2 (Or.inr le_rfl)
  have hl : 0 < l.length := List.length_pos_of_ne_nil hne
  rw [npMedian_sorted l hs hne]
  have hg : ∀ i < l.length, l.getD i 0 = b := by
    intro i hi
    rw [List.getD_eq_getElem _ _ hi]
    exact h _ (List.getElem_mem _)
  rw [hg _ (by omega), hg _ (by omega)]
  ring

theorem maps_median (a b : K) : Maps (.median : Agg K) .median a b := by
  intro n l hn hl
  have hne : l ≠ [] := by rintro rfl; simp at hl; omega
  simp only [aggOf]
  rcases lt_trichotomy a 0 with h | h | h
  · have e : (l.map fun x => a * x + b) = (l.map fun x => -x).map fun x => -a * x + b := by
      rw [List.map_map]
      apply List.map_congr_left
      intro x _
      simp
    rw [e, npMedian_affine _ _ (by linarith) _ (by simpa using hne), npMedian_neg l hne]
    ring
  · subst h
    rw [npMedian_const b _ (by simpa using hne)]
    · ring
    · intro x hx
      obtain ⟨y, -, rfl⟩ := List.mem_map.1 hx
      ring
  · exact npMedian_affine a b h l hne

/-- C325 (partial).  Means, weighted means and medians commute with all affine changes of the values.  Missing: sums, and
maxima and minima for negative factors. -/
theorem C325_affine_partial (agg : Agg K) (hagg : agg = .mean ∨ agg = .median ∨ ∃ w, GoodWeights w ∧ agg = .weighted w)
    (series : List K) (n : ℕ) (hn : 2 ≤ n) (a b : K) :
    ∃ h h', hullAgg agg series n = .ok h ∧ hullAgg agg (series.map fun x => a * x + b) n = .ok h' ∧
      h' = h.map (Option.map fun x => a * x + b) := by
  rcases hagg with rfl | rfl | ⟨w, hw, rfl⟩
  · exact hull_maps (maps_mean a b) series n hn
  · exact hull_maps (maps_median a b) series n hn
  · exact hull_maps (maps_weighted w hw a b) series n hn

theorem foldl_mono_map (g : K → K) (op op' : K → K → K) (h : ∀ x y, g (op x y) = op' (g x) (g y)) (x : K) (l : List K) :
    (l.map g).foldl op' (g x) = g (l.foldl op x) := by
  induction l generalizing x with
  | nil => rfl
  | cons y l ih => rw [List.map_cons, List.foldl_cons, List.foldl_cons, ← h, ih]

/-- C325.  Maxima and minima commute with increasing affine changes; a decreasing one exchanges them. -/
theorem C325_extremes (series : List K) (n : ℕ) (hn : 2 ≤ n) (a b : K) :
    (0 ≤ a → ∃ h h', hullAgg .max series n = .ok h ∧ hullAgg .max (series.map fun x => a * x + b) n = .ok h' ∧
      h' = h.map (Option.map fun x => a * x + b)) ∧
    (0 ≤ a → ∃ h h', hullAgg .min series n = .ok h ∧ hullAgg .min (series.map fun x => a * x + b) n = .ok h' ∧
      h' = h.map (Option.map fun x => a * x + b)) ∧
    (a ≤ 0 → ∃ h h', hullAgg .min series n = .ok h ∧ hullAgg .max (series.map fun x => a * x + b) n = .ok h' ∧
      h' = h.map (Option.map fun x => a * x + b)) := by
  have key : ∀ (agg agg' : Agg K) (op op' : K → K → K), (∀ n x l, aggOf agg n (x :: l) = l.foldl op x) →
      (∀ n x l, aggOf agg' n (x :: l) = l.foldl op' x) → (∀ x y, a * op x y + b = op' (a * x + b) (a * y + b)) →
      Maps agg agg' a b := by
    intro agg agg' op op' h1 h2 h3 n l hn hl
    match l, hl with
    | [], hl => simp at hl; omega
    | x :: l, _ =>
      rw [h1, List.map_cons, h2]
      exact foldl_mono_map (fun x => a * x + b) op op' h3 x l
  refine ⟨fun ha => ?_, fun ha => ?_, fun ha => ?_⟩
  · exact hull_maps (key .max .max max max (fun _ _ _ => rfl) (fun _ _ _ => rfl) fun x y => by
      rw [mul_max_of_nonneg _ _ ha, max_add_add_right]) series n hn
  · exact hull_maps (key .min .min min min (fun _ _ _ => rfl) (fun _ _ _ => rfl) fun x y => by
      rw [mul_min_of_nonneg _ _ ha, min_add_add_right]) series n hn
  · exact hull_maps (key .min .max min max (fun _ _ _ => rfl) (fun _ _ _ => rfl) fun x y => by
      rcases le_total x y with h | h
      · rw [min_eq_left h, max_eq_left (by nlinarith)]
      · rw [min_eq_right h, max_eq_right (by nlinarith)]) series n hn

theorem winMax_le (M : K) (l : List K) (hne : l ≠ []) (h : ∀ x ∈ l, x ≤ M) : winMax l ≤ M := by
  match l, hne with
  | x :: l, _ =>
    unfold winMax
    have : ∀ (l : List K) (x : K), x ≤ M → (∀ y ∈ l, y ≤ M) → l.foldl max x ≤ M := by
      intro l
      induction l with
      | nil => intro x hx _; exact hx
      | cons y l ih =>
        intro x hx hl
        exact ih _ (max_le hx (hl y (by simp))) fun z hz => hl z (by simp [hz])
    exact this l x (h x (by simp)) fun y hy => h y (by simp [hy])

theorem le_winMax (l : List K) (x : K) (hx : x ∈ l) : x ≤ winMax l := by
  match l, hx with
  | y :: l, hx =>
    unfold winMax
    have : ∀ (l : List K) (y : K), y ≤ l.foldl max y ∧ ∀ z ∈ l, z ≤ l.foldl max y := by
      intro l
      induction l with
      | nil => intro y; exact ⟨le_rfl, by simp⟩
      | cons z l ih =>
        intro y
        obtain ⟨h1, h2⟩ := ih (max y z)
        refine ⟨(le_max_left _ _).trans h1, fun u hu => ?_⟩
        rcases List.mem_cons.1 hu with rfl | hu
        · exact (le_max_right _ _).trans h1
        · exact h2 u hu
    rcases List.mem_cons.1 hx with rfl | hx
    · exact (this l x).1
    · exact (this l y).2 x hx

/-- C325.  With maxima the Hull average never exceeds the largest value of the series. -/
theorem C325_max_bound (series : List K) (n : ℕ) (hn : 2 ≤ n) (M : K) (hM : ∀ x ∈ series, x ≤ M) :
    ∃ h, hullAgg .max series n = .ok h ∧ ∀ v, some v ∈ h → v ≤ M := by
  have hsq : 1 ≤ Nat.sqrt n := Nat.sqrt_pos.2 (by omega)
  obtain ⟨h, e1, e2, e3⟩ := C325_value .max series n hn
  refine ⟨h, e1, fun v hv => ?_⟩
  obtain ⟨i, hi, hv⟩ := List.getElem_of_mem hv
  rw [e2] at hi
  have := e3 i hi
  rw [List.getElem?_eq_getElem (by omega), hv, Option.some.injEq] at this
  split_ifs at this with hlo
  rw [Option.some.injEq] at this
  subst this
  simp only [aggOf]
  have hne : ∀ w (f : ℕ → K) i, 1 ≤ w → windowAt w f i ≠ [] := by
    intro w f i hw h0
    have := windowAt_length w f i
    rw [h0] at this
    simp at this
    omega
  apply winMax_le _ _ (hne _ _ _ hsq)
  intro y hy
  obtain ⟨j, hj, rfl⟩ := List.mem_map.1 hy
  have hj := List.mem_range.1 hj
  generalize hk : i + 1 - Nat.sqrt n + j = k
  have hkn : n ≤ k + 1 := by omega
  have hki : k ≤ i := by omega
  have h1 : winMax (windowAt (n / 2) (fun j => series.getD j 0) k) ≤ winMax (windowAt n (fun j => series.getD j 0) k) := by
    apply winMax_le _ _ (hne _ _ _ (by omega))
    intro y hy
    obtain ⟨p, hp, rfl⟩ := List.mem_map.1 hy
    have hp := List.mem_range.1 hp
    apply le_winMax
    refine List.mem_map.2 ⟨n - n / 2 + p, List.mem_range.2 (by omega), ?_⟩
    rw [show k + 1 - n + (n - n / 2 + p) = k + 1 - n / 2 + p by omega]
  have h2 : winMax (windowAt (n / 2) (fun j => series.getD j 0) k) ≤ M := by
    apply winMax_le _ _ (hne _ _ _ (by omega))
    intro y hy
    obtain ⟨p, hp, rfl⟩ := List.mem_map.1 hy
    have hp := List.mem_range.1 hp
    show series.getD (k + 1 - n / 2 + p) 0 ≤ M
    rw [List.getD_eq_getElem _ _ (by omega)]
    exact hM _ (List.getElem_mem _)
  show 2 * _ - _ ≤ M
  linarith

theorem foldl_mem (f : K → K → K) (hf : ∀ x y, f x y = x ∨ f x y = y) :
    ∀ (l : List K) (x : K), l.foldl f x = x ∨ l.foldl f x ∈ l
  | [], _ => Or.inl rfl
  | y :: l, x => by
    rw [List.foldl_cons]
    rcases foldl_mem f hf l (f x y) with h | h
    · rw [h]
      rcases hf x y with h' | h'
      · exact Or.inl h'
      · rw [h']; exact Or.inr (by simp)
    · exact Or.inr (List.mem_cons_of_mem _ h)

theorem winMin_le (l : List K) (x : K) (hx : x ∈ l) : winMin l ≤ x := by
  match l, hx with
  | y :: l, hx =>
    unfold winMin
    have : ∀ (l : List K) (y : K), l.foldl min y ≤ y ∧ ∀ z ∈ l, l.foldl min y ≤ z := by
      intro l
      induction l with
      | nil => intro y; exact ⟨le_rfl, by simp⟩
      | cons z l ih =>
        intro y
        obtain ⟨h1, h2⟩ := ih (min y z)
        refine ⟨h1.trans (min_le_left _ _), fun u hu => ?_⟩
        rcases List.mem_cons.1 hu with rfl | hu
        · exact h1.trans (min_le_right _ _)
        · exact h2 u hu
    rcases List.mem_cons.1 hx with rfl | hx
    · exact (this l x).1
    · exact (this l y).2 x hx

/-- C325.  What the aggregates of a window are: mean, sum, middle of the sorted values, largest and smallest value, weighted
mean. -/
theorem C325_aggregates (l : List K) (n : ℕ) (hn : 1 ≤ n) (hl : l.length = n) :
    aggOf .mean n l * n = l.sum ∧ aggOf .sum n l = l.sum ∧
    (∀ s : List K, s.Perm l → s.Pairwise (· ≤ ·) →
      aggOf .median n l = (s.getD ((n - 1) / 2) 0 + s.getD (n / 2) 0) / 2) ∧
    IsGreatest {x | x ∈ l} (aggOf .max n l) ∧ IsLeast {x | x ∈ l} (aggOf .min n l) ∧
    ∀ w : ℕ → List K, (w n).sum ≠ 0 →
      aggOf (.weighted w) n l * (w n).sum = (List.zipWith (fun a x => a * x) (w n) l).sum := by
  have hne : l ≠ [] := by rintro rfl; simp at hl; omega
  have hn0 : (n : K) ≠ 0 := by exact_mod_cast (by omega : n ≠ 0)
  refine ⟨?_, rfl, ?_, ?_, ?_, ?_⟩
  · show l.sum / (n : K) * n = _
    field_simp
  · intro s hs hp
    show npMedian l = _
    rw [← npMedian_perm l s hs, npMedian_sorted s hp (by rintro rfl; exact hne (List.nil_perm.1 hs)), hs.length_eq, hl]
  · refine ⟨?_, fun x hx => le_winMax l x hx⟩
    match l, hne with
    | x :: l, _ =>
      show l.foldl max x ∈ x :: l
      rcases foldl_mem max (fun a b => by rcases le_total a b with h | h <;> simp [h]) l x with h | h
      · rw [h]; simp
      · exact List.mem_cons_of_mem _ h
  · refine ⟨?_, fun x hx => winMin_le l x hx⟩
    match l, hne with
    | x :: l, _ =>
      show l.foldl min x ∈ x :: l
      rcases foldl_mem min (fun a b => by rcases le_total a b with h | h <;> simp [h]) l x with h | h
      · rw [h]; simp
      · exact List.mem_cons_of_mem _ h
  · intro w hw
    show _ / _ * _ = _
    field_simp

/-- With means the Hull average can exceed it: 2·1 - 1/2. -/
example : hullAgg .mean [(0 : ℚ), 1] 2 = .ok [none, some (3 / 2)] ∧
    hullAgg .max [(0 : ℚ), 1] 2 = .ok [none, some 1] := by decide +kernel

/-- Weights within the hypotheses: 1, 2, 3 and so on. -/
example : GoodWeights fun n => (List.range n).map fun j : ℕ => (j : ℚ) + 1 := by
  intro n hn
  refine ⟨by simp, ne_of_gt ?_⟩
  apply List.sum_pos
  · intro x hx
    obtain ⟨j, -, rfl⟩ := List.mem_map.1 hx
    positivity
  · intro h
    rw [List.map_eq_nil_iff, List.range_eq_nil] at h
    omega

end FinML.Filters
