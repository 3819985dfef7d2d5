import Verif.Entropy.EncodeProps

/-!
# Property C163: what the symbols of the quantile encoder stand for
-/

namespace FinML.Entropy

variable {K : Type} [Field K] [LinearOrder K] [IsStrictOrderedRing K] [FloorRing K]

/-- Fit an encoder with `n` quantiles on `data` and encode `series`. -/
def quantileCode (n : ℕ) (data series : List K) : Py (List Char) :=
  (Encoder.init n >>= fun e : Encoder K => e.fit data) >>= fun e => e.transform series

theorem quantileAt_between (s : List K) (p θ : K) (k : ℕ) (h0 : 0 ≤ θ) (h1 : θ ≤ 1)
    (hk : k + 1 < s.length ∨ θ = 0) (h : p * ((s.length - 1 : ℕ) : K) = k + θ) :
    quantileAt s p = (1 - θ) * s.getD k 0 + θ * s.getD (k + 1) 0 := by
  unfold quantileAt
  simp only [h]
  rcases hk with hk | rfl
  · rcases lt_or_eq_of_le h1 with h1 | rfl
    · have hf : ⌊(k : K) + θ⌋ = k := by
        rw [Int.floor_eq_iff]
        push_cast
        exact ⟨by linarith, by linarith⟩
      rw [hf, Int.toNat_natCast, min_eq_left (by omega)]
      ring
    · have hf : ⌊(k : K) + 1⌋ = ((k + 1 : ℕ) : ℤ) := by
        rw [Int.floor_eq_iff]
        push_cast
        exact ⟨by linarith, by linarith⟩
      rw [hf, Int.toNat_natCast]
      push_cast
      ring
  · rw [add_zero, Int.floor_natCast, Int.toNat_natCast]
    ring

theorem quantileCode_eq (n : ℕ) (hn : 2 ≤ n) (hn' : n ≤ 62) (data : List K) (hd : data ≠ []) :
    ∃ q : List K, q.length = n ∧ q.Pairwise (· ≤ ·) ∧
      (∀ i < n, q[i]? = some (quantileAt (data.insertionSort (· ≤ ·)) ((i : K) / ((n - 1 : ℕ) : K)))) ∧
      ∀ series, quantileCode n data series =
        .ok (series.map fun v => (fullAlphabet.take n ++ ['?']).getD (searchLeft q v) ' ') := by
  obtain ⟨q, h1, h2, h3, -⟩ := fit_quantiles n hn hn' data hd
  have hfa : fullAlphabet.length = 62 := by decide
  have halen : (fullAlphabet.take n ++ ['?']).length = n + 1 := by simp [hfa]; omega
  have hq : q = (linspace01 n).map (quantileAt (data.insertionSort (· ≤ ·))) := by
    unfold Encoder.init at h1
    rw [if_pos (by omega), py_bind_ok] at h1
    unfold Encoder.fit at h1
    rw [if_neg hd] at h1
    simp only [Except.ok.injEq, Encoder.mk.injEq, Option.some.injEq, true_and] at h1
    exact h1.symm
  refine ⟨q, h2, h3, ?_, ?_⟩
  · intro i hi
    rw [hq]
    unfold linspace01
    rw [List.getElem?_map, List.getElem?_map, List.getElem?_range hi]
    rfl
  · intro series
    unfold quantileCode
    rw [h1, py_bind_ok]
    apply mapM_ok_of_forall
    intro v _
    have hv : searchLeft q v ≤ n := h2 ▸ searchLeft_le q v
    change pyGet (fullAlphabet.take n ++ ['?']) (searchLeft q v) = _
    rw [pyGet_eq_ok_iff, List.getElem?_eq_getElem (by omega), List.getD_eq_getElem _ _ (by omega)]

theorem symbol_le_iff (n : ℕ) (hn' : n ≤ 62) (j i : ℕ) (hj : j ≤ n) (hi : i < n) :
    (fullAlphabet.take n ++ ['?']).getD j ' ' ∈ fullAlphabet.take (i + 1) ↔ j ≤ i := by
  have hfa : fullAlphabet.length = 62 := by decide
  have hnd : (fullAlphabet ++ ['?']).Nodup := by decide
  have hfn : fullAlphabet.Nodup := (List.nodup_append.1 hnd).1
  have hq : '?' ∉ fullAlphabet := by decide
  rcases Nat.lt_or_ge j n with h | h
  · rw [List.getD_eq_getElem _ _ (by simp [hfa]; omega), List.getElem_append_left (by simp [hfa]; omega),
      List.getElem_take]
    constructor
    · intro hm
      obtain ⟨k, hk, hke⟩ := List.getElem_of_mem hm
      rw [List.getElem_take] at hke
      have := (List.Nodup.getElem_inj_iff hfn).1 hke
      simp at hk
      omega
    · intro hle
      rw [List.mem_take_iff_getElem]
      exact ⟨j, by omega, rfl⟩
  · have : j = n := by omega
    subst this
    have e : (fullAlphabet.take j ++ ['?']).getD j ' ' = '?' := by
      rw [List.getD_eq_getElem _ _ (by simp [hfa]; omega), List.getElem_append_right (by simp [hfa])]
      simp
    rw [e]
    constructor
    · intro hm
      exact (hq (List.mem_of_mem_take hm)).elim
    · intro hle; omega

/-- C163. A value gets one of the first `i+1` symbols exactly when it is at most the `i/(n-1)` quantile of the
fitted data, interpolated linearly between the sorted data. -/
theorem C163_thresholds (n : ℕ) (hn : 2 ≤ n) (hn' : n ≤ 62) (data sorted : List K) (hd : data ≠ [])
    (hs : sorted.Pairwise (· ≤ ·)) (hp : sorted.Perm data) (i : ℕ) (hi : i < n) (k : ℕ) (θ : K) (h0 : 0 ≤ θ)
    (h1 : θ ≤ 1) (hk : k + 1 < data.length ∨ θ = 0)
    (h : (i : K) * ((data.length : K) - 1) = ((n : K) - 1) * (k + θ)) (v : K) :
    ∃ c, quantileCode n data [v] = .ok [c] ∧
      (c ∈ fullAlphabet.take (i + 1) ↔ v ≤ (1 - θ) * sorted.getD k 0 + θ * sorted.getD (k + 1) 0) := by
  have he : data.insertionSort (· ≤ ·) = sorted :=
    List.Perm.eq_of_pairwise' (List.pairwise_insertionSort _ _) hs
      ((List.perm_insertionSort _ _).trans hp.symm)
  obtain ⟨q, h2, h3, h4, h5⟩ := quantileCode_eq n hn hn' data hd
  refine ⟨_, h5 [v], ?_⟩
  have hlen : sorted.length = data.length := hp.length_eq
  have hdl : 0 < data.length := List.length_pos_of_ne_nil hd
  have hq := h4 i hi
  rw [he, quantileAt_between sorted _ θ k h0 h1 (by rwa [hlen])] at hq
  · rw [symbol_le_iff n hn' _ i (h2 ▸ searchLeft_le q v) hi, ← not_lt, lt_searchLeft_iff q h3 v i _ hq, not_lt]
  · rw [hlen, Nat.cast_sub (by omega), Nat.cast_sub (by omega), Nat.cast_one]
    have hne : (n : K) - 1 ≠ 0 := by
      have : (1 : K) < n := by exact_mod_cast hn
      linarith
    rw [div_mul_eq_mul_div, h, mul_div_assoc, mul_comm, div_mul_cancel₀ _ hne]

/-- The number of symbols of a code among the first `i`. -/
def countFirst (code : List Char) (i : ℕ) : ℕ := code.countP fun c => decide (c ∈ fullAlphabet.take i)

theorem count_first (n : ℕ) (hn : 2 ≤ n) (hn' : n ≤ 62) (data : List K) (hd : data ≠ []) (hnd : data.Nodup) :
    ∃ code, quantileCode n data data = .ok code ∧ code.length = data.length ∧
      ∀ i < n, countFirst code (i + 1) = i * (data.length - 1) / (n - 1) + 1 := by
  obtain ⟨q, h2, h3, h4, h5⟩ := quantileCode_eq n hn hn' data hd
  refine ⟨_, h5 data, by simp, fun i hi => ?_⟩
  set s := data.insertionSort (· ≤ ·) with hs
  have hsort : s.Pairwise (· ≤ ·) := List.pairwise_insertionSort _ _
  have hperm : s.Perm data := List.perm_insertionSort _ _
  have hsn : s.Nodup := hperm.nodup_iff.2 hnd
  have hlt : s.Pairwise (· < ·) := by
    refine (hsort.and hsn).imp fun h => lt_of_le_of_ne h.1 h.2
  have hlen : s.length = data.length := hperm.length_eq
  have hdl : 0 < data.length := List.length_pos_of_ne_nil hd
  have hn1 : 0 < n - 1 := by omega
  set k := i * (data.length - 1) / (n - 1) with hkdef
  have hdiv := Nat.div_add_mod (i * (data.length - 1)) (n - 1)
  have hmod := Nat.mod_lt (i * (data.length - 1)) hn1
  rw [← hkdef] at hdiv
  set r := i * (data.length - 1) % (n - 1) with hr
  have hkle : k ≤ data.length - 1 := by
    rw [hkdef]
    apply Nat.div_le_of_le_mul
    exact Nat.mul_le_mul_right _ (by omega)
  have hkr : k = data.length - 1 → r = 0 := by
    intro hk
    rw [hk] at hdiv
    have : i * (data.length - 1) ≤ (n - 1) * (data.length - 1) := Nat.mul_le_mul_right _ (by omega)
    omega
  have hn1' : (0 : K) < ((n - 1 : ℕ) : K) := by exact_mod_cast hn1
  have hq := h4 i hi
  have hθ1 : (r : K) / ((n - 1 : ℕ) : K) < 1 := by
    rw [div_lt_one hn1']
    exact_mod_cast hmod
  have hθ0 : 0 ≤ (r : K) / ((n - 1 : ℕ) : K) := by positivity
  rw [quantileAt_between s _ ((r : K) / ((n - 1 : ℕ) : K)) k hθ0 hθ1.le] at hq
  rotate_left
  · rcases Nat.lt_or_ge (k + 1) s.length with h | h
    · exact Or.inl h
    · right
      rw [hkr (by omega)]
      simp
  · rw [hlen, div_mul_eq_mul_div, div_eq_iff hn1'.ne', add_mul, div_mul_cancel₀ _ hn1'.ne']
    have : ((i * (data.length - 1) : ℕ) : K) = ((n - 1) * k + r : ℕ) := by rw [hdiv]
    push_cast [Nat.cast_mul, Nat.cast_add] at this ⊢
    rw [this]
    ring
  have hkey : ∀ v ∈ data, ((fullAlphabet.take n ++ ['?']).getD (searchLeft q v) ' ' ∈ fullAlphabet.take (i + 1) ↔
      v ≤ s.getD k 0) := by
    intro v hv
    rw [symbol_le_iff n hn' _ i (h2 ▸ searchLeft_le q v) hi, ← not_lt, lt_searchLeft_iff q h3 v i _ hq, not_lt]
    rw [← hperm.mem_iff] at hv
    obtain ⟨j, hj, rfl⟩ := List.getElem_of_mem hv
    rcases Nat.lt_or_ge (k + 1) s.length with h | h
    · have hkk : s.getD k 0 < s.getD (k + 1) 0 := by
        rw [List.getD_eq_getElem _ _ (by omega), List.getD_eq_getElem _ _ h]
        exact List.pairwise_iff_getElem.1 hlt k (k + 1) _ _ (by omega)
      constructor
      · intro hle
        by_contra hc
        rw [not_le, List.getD_eq_getElem _ _ (by omega)] at hc
        have hjk : k < j := by
          by_contra hjk
          have := getD_mono s hsort j k (by omega) (by omega)
          rw [List.getD_eq_getElem _ _ hj, List.getD_eq_getElem _ _ (by omega)] at this
          exact absurd hc (not_lt.2 this)
        have h1 := getD_mono s hsort (k + 1) j (by omega) hj
        rw [List.getD_eq_getElem _ _ hj] at h1
        nlinarith
      · intro hle
        nlinarith
    · rw [hkr (by omega)]
      simp
  unfold countFirst
  rw [List.countP_map]
  have e1 : data.countP ((fun c => decide (c ∈ fullAlphabet.take (i + 1))) ∘ fun v =>
      (fullAlphabet.take n ++ ['?']).getD (searchLeft q v) ' ') = data.countP fun v => decide (v ≤ s.getD k 0) := by
    apply List.countP_congr
    intro v hv
    simp only [Function.comp, decide_eq_true_eq]
    exact hkey v hv
  rw [e1, ← hperm.countP_eq, ← List.take_append_drop (k + 1) s, List.countP_append]
  have e2 : (s.take (k + 1)).countP (fun v => decide (v ≤ s.getD k 0)) = k + 1 := by
    rw [List.countP_eq_length.2]
    · simp; omega
    · intro v hv
      obtain ⟨j, hj, rfl⟩ := List.mem_take_iff_getElem.1 hv
      have := getD_mono s hsort j k (by omega) (by omega)
      rw [List.getD_eq_getElem _ _ (by omega)] at this
      simpa using this
  have e3 : (s.drop (k + 1)).countP (fun v => decide (v ≤ s.getD k 0)) = 0 := by
    rw [List.countP_eq_zero]
    intro v hv
    obtain ⟨j, hj, rfl⟩ := List.getElem_of_mem hv
    rw [List.getElem_drop]
    rw [List.length_drop] at hj
    simp only [decide_eq_true_eq, not_le]
    rw [List.getD_eq_getElem _ _ (by omega)]
    exact List.pairwise_iff_getElem.1 hlt k (k + 1 + j) _ _ (by omega)
  rw [List.take_append_drop]
  rw [e2, e3]

/-- C163, the full claim: the symbols split distinct fitted data evenly. -/
def EvenCodes : Prop :=
  ∀ (n : ℕ), 2 ≤ n → n ≤ 62 → ∀ (data : List ℚ) (code : List Char), data ≠ [] → data.Nodup →
    quantileCode n data data = .ok code →
    ∀ a ∈ fullAlphabet.take n, ∀ b ∈ fullAlphabet.take n, code.count a ≤ code.count b + 1

/-- C163. With two quantiles the first symbol stands for the smallest value and the second for all others. -/
theorem C163_even_counterexample : ¬ EvenCodes := by
  intro h
  have := h 2 (by norm_num) (by norm_num) [1, 2, 3, 4] ['0', '1', '1', '1'] (by simp) (by decide +kernel)
    (by decide +kernel) '1' (by decide) '0' (by decide)
  revert this
  decide

/-- C163. What is missing: the first symbol, which stands for the smallest value only.  Of `N` distinct values,
`i*(N-1)/(n-1) + 1` (rounded down) get one of the first `i+1` symbols; the other symbols differ by at most one
in frequency. -/
theorem C163_even_partial (n : ℕ) (hn : 2 ≤ n) (hn' : n ≤ 62) (data : List K) (hd : data ≠ [])
    (hnd : data.Nodup) :
    ∃ code, quantileCode n data data = .ok code ∧ code.length = data.length ∧
      (∀ i < n, countFirst code (i + 1) = i * (data.length - 1) / (n - 1) + 1) ∧
      code.count '0' = 1 ∧
      ∀ a ∈ (fullAlphabet.take n).tail, ∀ b ∈ (fullAlphabet.take n).tail, code.count a ≤ code.count b + 1 := by
  obtain ⟨code, h1, h2, h3⟩ := count_first n hn hn' data hd hnd
  have hfa : fullAlphabet.length = 62 := by decide
  have hfn : fullAlphabet.Nodup := by decide
  refine ⟨code, h1, h2, h3, ?_, ?_⟩
  · have := h3 0 (by omega)
    rw [zero_mul, Nat.zero_div, zero_add] at this
    rw [← this]
    unfold countFirst
    rw [List.count_eq_countP]
    apply List.countP_congr
    intro c _
    have : fullAlphabet.take 1 = ['0'] := by decide
    rw [this]
    simp
  · have hcount : ∀ a ∈ (fullAlphabet.take n).tail, ∃ i, i + 1 < n ∧ code.count a =
        (i + 1) * (data.length - 1) / (n - 1) - i * (data.length - 1) / (n - 1) := by
      intro a ha
      obtain ⟨i, hi, rfl⟩ := List.getElem_of_mem ha
      rw [List.length_tail, List.length_take, hfa] at hi
      refine ⟨i, by omega, ?_⟩
      have e1 := h3 i (by omega)
      have e2 := h3 (i + 1) (by omega)
      rw [List.getElem_tail, List.getElem_take]
      have hsplit : countFirst code (i + 1 + 1) = countFirst code (i + 1) +
          code.count (fullAlphabet[i + 1]'(by omega)) := by
        unfold countFirst
        have ht : fullAlphabet.take (i + 1 + 1) = fullAlphabet.take (i + 1) ++ [fullAlphabet[i + 1]'(by omega)] :=
          List.take_succ_eq_append_getElem (by omega)
        have hnm : fullAlphabet[i + 1]'(by omega) ∉ fullAlphabet.take (i + 1) := by
          intro hm
          obtain ⟨k, hk, hke⟩ := List.mem_take_iff_getElem.1 hm
          have := (List.Nodup.getElem_inj_iff hfn).1 hke
          omega
        rw [ht]
        generalize fullAlphabet[i + 1]'(by omega) = x at hnm
        generalize fullAlphabet.take (i + 1) = l at hnm
        clear h1 h2 h3 e1 e2 ht
        induction code with
        | nil => simp
        | cons c code ih =>
          rw [List.countP_cons, List.countP_cons, List.count_cons, ih]
          by_cases hc : c = x
          · subst hc; simp [hnm]; omega
          · by_cases hl : c ∈ l
            · simp [hl, hc]; omega
            · simp [hl, hc]
      omega
    intro a ha b hb
    obtain ⟨i, hi, hia⟩ := hcount a ha
    obtain ⟨j, hj, hjb⟩ := hcount b hb
    rw [hia, hjb]
    have key : ∀ i m d : ℕ, 0 < d → m / d ≤ (i + 1) * m / d - i * m / d ∧
        (i + 1) * m / d - i * m / d ≤ m / d + 1 := by
      intro i m d hd
      have h1 := Nat.add_div (a := i * m) (b := m) hd
      rw [add_mul, one_mul, h1]
      generalize i * m / d = x
      generalize m / d = y
      split_ifs <;> omega
    have := (key i (data.length - 1) (n - 1) (by omega)).2
    have := (key j (data.length - 1) (n - 1) (by omega)).1
    omega

/-- Nine values and five quantiles. -/
example : quantileCode 5 ([9, 1, 2, 8, 3, 7, 4, 6, 5] : List ℚ) [9, 1, 2, 8, 3, 7, 4, 6, 5] =
    .ok ['4', '0', '1', '4', '1', '3', '2', '3', '2'] := by decide +kernel

end FinML.Entropy
