import Verif.Entropy.Model
import Verif.Py.Lemmas
import Verif.Py.Search
import Mathlib.Tactic.FieldSimp
import Mathlib.Data.List.GetD
import Mathlib.Algebra.Order.Floor.Semiring
import Mathlib.Data.Rat.Floor

/-! # Properties C75-C77: encoders -/

set_option linter.unusedSectionVars false

namespace FinML.Entropy

variable {K : Type} [Field K] [LinearOrder K] [IsStrictOrderedRing K]

/-- C75.  One symbol per value, `1` exactly if the value exceeds the threshold, otherwise `0`. -/
theorem C75_binary (series : List K) (thr : K) :
    (binaryEncode series thr).length = series.length ∧
    ∀ (i : ℕ) x, series[i]? = some x → ∃ c, (binaryEncode series thr)[i]? = some c ∧
      (c = '1' ↔ thr < x) ∧ (c = '0' ↔ x ≤ thr) := by
  unfold binaryEncode
  refine ⟨by simp, ?_⟩
  intro i x hx
  rw [List.getElem?_map, hx]
  refine ⟨_, rfl, ?_⟩
  by_cases h : thr < x
  · simp [h]
  · simp [h, not_lt.1 h]

example : binaryEncode [(1 : ℚ), 3, 2] 2 = "010".toList := by decide +kernel

/-! ## C76 -/

variable [FloorRing K]

theorem getD_mono (s : List K) (hs : s.Pairwise (· ≤ ·)) (i j : ℕ) (hij : i ≤ j) (hj : j < s.length) :
    s.getD i 0 ≤ s.getD j 0 := by
  rw [List.getD_eq_getElem _ _ (by omega), List.getD_eq_getElem _ _ hj]
  rcases Nat.eq_or_lt_of_le hij with rfl | h
  · exact le_rfl
  · exact List.pairwise_iff_getElem.1 hs i j (by omega) hj h

theorem floor_bounds (h : K) (h0 : 0 ≤ h) : (⌊h⌋.toNat : K) ≤ h ∧ h < (⌊h⌋.toNat : K) + 1 := by
  have hn : 0 ≤ ⌊h⌋ := Int.floor_nonneg.2 h0
  have e : ((⌊h⌋.toNat : ℕ) : K) = ((⌊h⌋ : ℤ) : K) := by
    have : ((⌊h⌋.toNat : ℕ) : ℤ) = ⌊h⌋ := Int.toNat_of_nonneg hn
    calc ((⌊h⌋.toNat : ℕ) : K) = (((⌊h⌋.toNat : ℕ) : ℤ) : K) := by rw [Int.cast_natCast]
      _ = _ := by rw [this]
  rw [e]
  exact ⟨Int.floor_le h, Int.lt_floor_add_one h⟩

/-- Position `h` between sorted values: interpolation. -/
theorem quantileAt_mono (s : List K) (hs : s.Pairwise (· ≤ ·)) (hne : s ≠ []) (p q : K) (h0 : 0 ≤ p)
    (hpq : p ≤ q) (h1 : q ≤ 1) : quantileAt s p ≤ quantileAt s q := by
  have hlen := List.length_pos_iff.2 hne
  have hm : (0 : K) ≤ ((s.length - 1 : ℕ) : K) := Nat.cast_nonneg _
  unfold quantileAt
  simp only
  have hp0 : 0 ≤ p * ((s.length - 1 : ℕ) : K) := mul_nonneg h0 hm
  have hle : p * ((s.length - 1 : ℕ) : K) ≤ q * ((s.length - 1 : ℕ) : K) :=
    mul_le_mul_of_nonneg_right hpq hm
  have hqm : q * ((s.length - 1 : ℕ) : K) ≤ ((s.length - 1 : ℕ) : K) := by nlinarith
  generalize p * ((s.length - 1 : ℕ) : K) = hp at *
  generalize q * ((s.length - 1 : ℕ) : K) = hq at *
  have bp := floor_bounds hp hp0
  have bq := floor_bounds hq (hp0.trans hle)
  have hqn : ⌊hq⌋.toNat ≤ s.length - 1 := by
    have : ((⌊hq⌋.toNat : ℕ) : K) ≤ ((s.length - 1 : ℕ) : K) := bq.1.trans hqm
    exact_mod_cast this
  have hpn : ⌊hp⌋.toNat ≤ ⌊hq⌋.toNat := Int.toNat_le_toNat (Int.floor_mono hle)
  generalize ⌊hp⌋.toNat = i at *
  generalize ⌊hq⌋.toNat = j at *
  have hjj : s.getD j 0 ≤ s.getD (min (j + 1) (s.length - 1)) 0 :=
    getD_mono s hs _ _ (by omega) (by omega)
  rcases Nat.eq_or_lt_of_le hpn with rfl | hlt
  · nlinarith
  · have hii : s.getD i 0 ≤ s.getD (min (i + 1) (s.length - 1)) 0 :=
      getD_mono s hs _ _ (by omega) (by omega)
    have hij : s.getD (min (i + 1) (s.length - 1)) 0 ≤ s.getD j 0 :=
      getD_mono s hs _ _ (by omega) (by omega)
    nlinarith

theorem quantileAt_one (s : List K) : quantileAt s 1 = s.getD (s.length - 1) 0 := by
  unfold quantileAt
  simp only [one_mul, Int.floor_natCast, Int.toNat_natCast, sub_self, zero_mul, add_zero]

theorem linspace01_pairwise (n : ℕ) : (linspace01 n : List K).Pairwise (· ≤ ·) := by
  unfold linspace01
  rw [List.pairwise_map]
  refine List.pairwise_lt_range.imp ?_
  intro a b hab
  apply div_le_div_of_nonneg_right _ (Nat.cast_nonneg _)
  exact_mod_cast hab.le

theorem linspace01_mem (n : ℕ) (p : K) (hp : p ∈ (linspace01 n : List K)) : 0 ≤ p ∧ p ≤ 1 := by
  unfold linspace01 at hp
  obtain ⟨i, hi, rfl⟩ := List.mem_map.1 hp
  rw [List.mem_range] at hi
  constructor
  · positivity
  · apply div_le_one_of_le₀ _ (Nat.cast_nonneg _)
    have : i ≤ n - 1 := by omega
    exact_mod_cast this

theorem linspace01_last (n : ℕ) (hn : 2 ≤ n) : (linspace01 n : List K)[n - 1]? = some 1 := by
  unfold linspace01
  rw [List.getElem?_map, List.getElem?_range (by omega)]
  have : ((n - 1 : ℕ) : K) ≠ 0 := by
    have : n - 1 ≠ 0 := by omega
    exact_mod_cast this
  simp [this]

/-- The quantiles of a fitted encoder. -/
theorem fit_quantiles (n : ℕ) (hn : 2 ≤ n) (hn' : n ≤ 62) (data : List K) (hd : data ≠ []) :
    ∃ q : List K, (Encoder.init n >>= fun e : Encoder K => e.fit data) =
        .ok ⟨fullAlphabet.take n ++ ['?'], linspace01 n, some q⟩ ∧
      q.length = n ∧ q.Pairwise (· ≤ ·) ∧ ∃ m, q[n - 1]? = some m ∧ IsGreatest {x | x ∈ data} m := by
  have hfa : fullAlphabet.length = 62 := by decide
  set s := data.insertionSort (· ≤ ·) with hs
  have hsort : s.Pairwise (· ≤ ·) := List.pairwise_insertionSort _ _
  have hperm : s.Perm data := List.perm_insertionSort _ _
  have hsne : s ≠ [] := by
    intro h
    rw [h] at hperm
    exact hd hperm.symm.eq_nil
  have hlen := List.length_pos_iff.2 hsne
  refine ⟨(linspace01 n).map (quantileAt s), ?_, by simp [linspace01], ?_, ?_⟩
  · unfold Encoder.init
    rw [if_pos (by omega), py_bind_ok]
    unfold Encoder.fit
    rw [if_neg hd]
  · rw [List.pairwise_map]
    refine (linspace01_pairwise n).imp_of_mem ?_
    intro a b ha hb hab
    exact quantileAt_mono s hsort hsne a b (linspace01_mem n a ha).1 hab (linspace01_mem n b hb).2
  · refine ⟨s.getD (s.length - 1) 0, ?_, ?_, ?_⟩
    · rw [List.getElem?_map, linspace01_last n hn]
      simp [quantileAt_one]
    · simp only [Set.mem_ofPred_eq]
      rw [← hperm.mem_iff, List.getD_eq_getElem _ _ (by omega)]
      exact List.getElem_mem _
    · intro x hx
      simp only [Set.mem_ofPred_eq] at hx
      rw [← hperm.mem_iff] at hx
      obtain ⟨i, hi, rfl⟩ := List.getElem_of_mem hx
      rw [← List.getD_eq_getElem _ 0 hi]
      exact getD_mono s hsort _ _ (by omega) (by omega)

/-- C76.  After a fit, `transform` returns one symbol per value.  Symbol number `k` of the alphabet
stands for the values above exactly `k` fitted quantiles, so the code is order preserving; `?` is used
exactly for values above the fitted maximum. -/
theorem C76_transform (n : ℕ) (hn : 2 ≤ n) (hn' : n ≤ 62) (data series : List K) (hd : data ≠ []) :
    ∃ (enc : Encoder K) (q : List K) (code : List Char) (pos : List ℕ),
      (Encoder.init n >>= fun e : Encoder K => e.fit data) = .ok enc ∧ enc.quantiles = some q ∧
      q.length = n ∧ q.Pairwise (· ≤ ·) ∧ enc.transform series = .ok code ∧
      code.length = series.length ∧ pos.length = series.length ∧
      ∀ (i : ℕ) v, series[i]? = some v → ∃ k, pos[i]? = some k ∧
        code[i]? = (fullAlphabet.take n ++ ['?'])[k]? ∧ k = (q.filter fun x => x < v).length ∧
        (code[i]? = some '?' ↔ ∀ x ∈ data, x < v) := by
  obtain ⟨q, h1, h2, h3, m, h4, h5⟩ := fit_quantiles n hn hn' data hd
  have hfa : fullAlphabet.length = 62 := by decide
  have halen : (fullAlphabet.take n ++ ['?']).length = n + 1 := by simp [hfa]; omega
  have hsl : ∀ v, searchLeft q v ≤ n := fun v => h2 ▸ searchLeft_le q v
  have hcode : series.mapM (fun v => pyGet (fullAlphabet.take n ++ ['?']) (searchLeft q v)) =
      .ok (series.map fun v => (fullAlphabet.take n ++ ['?']).getD (searchLeft q v) ' ') := by
    apply mapM_ok_of_forall
    intro v _
    have hv := hsl v
    rw [pyGet_eq_ok_iff, List.getElem?_eq_getElem (by omega), List.getD_eq_getElem _ _ (by omega)]
  refine ⟨_, q, _, series.map (searchLeft q), h1, rfl, h2, h3, hcode, by simp, by simp, ?_⟩
  intro i v hv
  have hb := hsl v
  have hci : (series.map fun v => (fullAlphabet.take n ++ ['?']).getD (searchLeft q v) ' ')[i]? =
      (fullAlphabet.take n ++ ['?'])[searchLeft q v]? := by
    rw [List.getElem?_map, hv, Option.map_some, List.getD_eq_getElem _ _ (by omega),
      List.getElem?_eq_getElem (by omega)]
  refine ⟨searchLeft q v, by rw [List.getElem?_map, hv]; rfl, hci, ?_, ?_⟩
  · unfold searchLeft
    congr 1
    clear hci hb hcode hsl h1 h4 h2
    induction q with
    | nil => rfl
    | cons a q ih =>
      rw [List.pairwise_cons] at h3
      rw [List.takeWhile_cons, List.filter_cons]
      by_cases ha : a < v
      · simp only [ha, decide_true, if_true]
        rw [ih h3.2]
      · have : q.filter (fun x => decide (x < v)) = [] := by
          rw [List.filter_eq_nil_iff]
          intro b hb
          have := h3.1 b hb
          simp only [decide_eq_true_eq]
          exact fun hbv => ha (lt_of_le_of_lt this hbv)
        simp [ha, this]
  · rw [hci]
    have hq : '?' ∉ fullAlphabet := by decide
    have hlast : (fullAlphabet.take n ++ ['?'])[searchLeft q v]? = some '?' ↔ searchLeft q v = n := by
      constructor
      · intro h
        by_contra hc
        have hlt : searchLeft q v < n := by omega
        rw [List.getElem?_append_left (by simp [hfa]; omega)] at h
        exact hq (List.mem_of_mem_take (List.mem_of_getElem? h))
      · intro h
        rw [h, List.getElem?_append_right (by simp [hfa])]
        simp [hfa, hn']
    rw [hlast, ← h2, searchLeft_eq_length_iff q h3 v]
    have hmq : m ∈ q := List.mem_of_getElem? h4
    constructor
    · intro h x hx
      exact lt_of_le_of_lt (h5.2 hx) (h m hmq)
    · intro h x hx
      obtain ⟨k, hk, rfl⟩ := List.getElem_of_mem hx
      have hle : q[k] ≤ m := by
        have e : q[n - 1]'(by omega) = m := by
          rw [List.getElem?_eq_getElem (by omega)] at h4
          simpa using h4
        rw [← e]
        rcases Nat.eq_or_lt_of_le (show k ≤ n - 1 by omega) with hk' | hk'
        · subst hk'; exact le_rfl
        · exact List.pairwise_iff_getElem.1 h3 k (n - 1) hk (by omega) hk'
      exact lt_of_le_of_lt hle (h m h5.1)

/-- C76.  Larger values never get an earlier symbol (the number of quantiles below cannot shrink). -/
theorem C76_order (q : List K) (v w : K) (h : v ≤ w) :
    (q.filter fun x => x < v).length ≤ (q.filter fun x => x < w).length := by
  rw [← List.countP_eq_length_filter, ← List.countP_eq_length_filter]
  apply List.countP_mono_left
  intro x _ hx
  simp only [decide_eq_true_eq] at hx ⊢
  exact lt_of_lt_of_le hx h

/-- C76.  Transform before fit raises; more than 62 quantiles fail the assertion. -/
theorem C76_errors (n : ℕ) (series : List K) :
    (n ≤ 62 → (Encoder.init n >>= fun e : Encoder K => e.transform series) = .error .runtimeError) ∧
    (62 < n → (Encoder.init n : Py (Encoder K)) = .error .assertionError) := by
  have hfa : fullAlphabet.length = 62 := by decide
  unfold Encoder.init
  constructor
  · intro h
    rw [if_pos (by omega), py_bind_ok]
    rfl
  · intro h
    rw [if_neg (by omega)]

example : (Encoder.init 3 >>= fun e : Encoder ℚ => e.fit [4, 1, 2] >>= fun e => e.transform [0, 1, 3 / 2, 4, 5]) =
    .ok "0012?".toList := by decide +kernel

/-! ## C77 -/

/-- Number of the symbol of a value. -/
def sigmaPos (lo sigma x : K) : ℕ := min ⌊(x - lo) / sigma⌋.toNat 62

theorem sigmaEncode_eq (series : List K) (sigma lo : K) (hs : 0 < sigma)
    (hlo : IsLeast {x | x ∈ series} lo) :
    sigmaEncode series sigma =
      .ok (series.map fun x => (fullAlphabet ++ ['?']).getD (sigmaPos lo sigma x) ' ') := by
  have hfa : (fullAlphabet ++ ['?']).length = 63 := by decide
  unfold sigmaEncode
  have hne : series ≠ [] := List.ne_nil_of_mem hlo.1
  rw [if_neg hne, if_neg hs.ne', (npMin_eq_ok_iff series lo).2 hlo, py_bind_ok]
  apply mapM_ok_of_forall
  intro x hx
  have : sigmaPos lo sigma x < 63 := by unfold sigmaPos; omega
  have h0 : 0 ≤ ⌊(x - lo) / sigma⌋ := Int.floor_nonneg.2 (div_nonneg (sub_nonneg.2 (hlo.2 hx)) hs.le)
  have hi : (min ⌊(x - lo) / sigma⌋ 62).toNat = sigmaPos lo sigma x := by unfold sigmaPos; omega
  unfold npIndex
  rw [if_pos (by omega), hi]
  rw [pyGet_eq_ok_iff, List.getD_eq_getElem _ _ (by omega)]
  exact List.getElem?_eq_getElem (by omega)

/-- C77.  With `sigma > 0` a non-empty series is encoded with one symbol per value; the symbol number
`k` of value `x` satisfies `k·sigma ≤ x - min < (k+1)·sigma` below the overflow symbol `?` (number 62),
which stands for `62·sigma ≤ x - min`. -/
theorem C77_symbols (series : List K) (sigma lo : K) (hs : 0 < sigma)
    (hlo : IsLeast {x | x ∈ series} lo) :
    ∃ code, sigmaEncode series sigma = .ok code ∧ code.length = series.length ∧
      ∀ (i : ℕ) x, series[i]? = some x → ∃ k : ℕ, k ≤ 62 ∧ code[i]? = (fullAlphabet ++ ['?'])[k]? ∧
        (k : K) * sigma ≤ x - lo ∧ (k < 62 → x - lo < ((k : K) + 1) * sigma) ∧
        (code[i]? = some '?' ↔ 62 * sigma ≤ x - lo) := by
  refine ⟨_, sigmaEncode_eq series sigma lo hs hlo, by simp, ?_⟩
  intro i x hx
  have hfa : (fullAlphabet ++ ['?']).length = 63 := by decide
  have hk : sigmaPos lo sigma x ≤ 62 := by unfold sigmaPos; omega
  have hge : lo ≤ x := hlo.2 (List.mem_of_getElem? hx)
  have h0 : 0 ≤ (x - lo) / sigma := div_nonneg (by linarith) hs.le
  obtain ⟨b1, b2⟩ := floor_bounds _ h0
  rw [le_div_iff₀ hs] at b1
  rw [div_lt_iff₀ hs] at b2
  have hci : (series.map fun x => (fullAlphabet ++ ['?']).getD (sigmaPos lo sigma x) ' ')[i]? =
      (fullAlphabet ++ ['?'])[sigmaPos lo sigma x]? := by
    rw [List.getElem?_map, hx, Option.map_some, List.getD_eq_getElem _ _ (by omega),
      List.getElem?_eq_getElem (by omega)]
  have hkf : ((sigmaPos lo sigma x : ℕ) : K) ≤ (⌊(x - lo) / sigma⌋.toNat : K) := by
    have : sigmaPos lo sigma x ≤ ⌊(x - lo) / sigma⌋.toNat := by unfold sigmaPos; omega
    exact_mod_cast this
  refine ⟨sigmaPos lo sigma x, hk, hci, by nlinarith, ?_, ?_⟩
  · intro hlt
    have : sigmaPos lo sigma x = ⌊(x - lo) / sigma⌋.toNat := by unfold sigmaPos at hlt ⊢; omega
    rw [this]
    exact b2
  · rw [hci]
    have hq : ∀ k < 62, (fullAlphabet ++ ['?'])[k]? ≠ some '?' := by decide
    have hq' : (fullAlphabet ++ ['?'])[62]? = some '?' := by decide
    have hlast : (fullAlphabet ++ ['?'])[sigmaPos lo sigma x]? = some '?' ↔ 62 ≤ ⌊(x - lo) / sigma⌋.toNat := by
      constructor
      · intro h
        by_contra hc
        exact hq (sigmaPos lo sigma x) (by unfold sigmaPos; omega) h
      · intro h
        have : sigmaPos lo sigma x = 62 := by unfold sigmaPos; omega
        rw [this]; exact hq'
    rw [hlast]
    constructor
    · intro h
      have : (62 : K) ≤ (⌊(x - lo) / sigma⌋.toNat : K) := by exact_mod_cast h
      nlinarith
    · intro h
      by_contra hc
      have : (⌊(x - lo) / sigma⌋.toNat : K) + 1 ≤ 62 := by
        have : ⌊(x - lo) / sigma⌋.toNat + 1 ≤ 62 := by omega
        exact_mod_cast this
      nlinarith

/-- C77.  Consequences: the code is order preserving and equal symbols below `?` mean values less than
`sigma` apart. -/
theorem C77_order (series : List K) (sigma lo : K) (hs : 0 < sigma) (hlo : IsLeast {x | x ∈ series} lo) :
    ∃ (code : List Char) (num : List ℕ), sigmaEncode series sigma = .ok code ∧
      num.map (fun k => (fullAlphabet ++ ['?'])[k]?) = code.map some ∧
      ∀ (i j : ℕ) x y k l, series[i]? = some x → series[j]? = some y → num[i]? = some k →
        num[j]? = some l → (x ≤ y → k ≤ l) ∧
        (code[i]? = code[j]? → code[i]? ≠ some '?' → |x - y| < sigma) := by
  have hfa : (fullAlphabet ++ ['?']).length = 63 := by decide
  have hk : ∀ x, sigmaPos lo sigma x ≤ 62 := by intro x; unfold sigmaPos; omega
  refine ⟨_, series.map (sigmaPos lo sigma), sigmaEncode_eq series sigma lo hs hlo, ?_, ?_⟩
  · rw [List.map_map, List.map_map]
    apply List.map_congr_left
    intro x _
    have := hk x
    simp only [Function.comp_apply]
    rw [List.getElem?_eq_getElem (by omega), List.getD_eq_getElem _ _ (by omega)]
  · intro i j x y k l hx hy hk' hl'
    rw [List.getElem?_map, hx, Option.map_some, Option.some.injEq] at hk'
    rw [List.getElem?_map, hy, Option.map_some, Option.some.injEq] at hl'
    subst hk' hl'
    constructor
    · intro hxy
      unfold sigmaPos
      have : ⌊(x - lo) / sigma⌋.toNat ≤ ⌊(y - lo) / sigma⌋.toNat := by
        apply Int.toNat_le_toNat
        apply Int.floor_mono
        apply div_le_div_of_nonneg_right _ hs.le
        linarith
      omega
    · intro heq hne
      obtain ⟨code, c1, -, c3⟩ := C77_symbols series sigma lo hs hlo
      rw [sigmaEncode_eq series sigma lo hs hlo, Except.ok.injEq] at c1
      subst c1
      obtain ⟨k, k1, k2, k3, k4, k5⟩ := c3 i x hx
      obtain ⟨l, l1, l2, l3, l4, l5⟩ := c3 j y hy
      have hnd : (fullAlphabet ++ ['?']).Nodup := by decide
      have hkl : k = l := by
        rw [k2, l2] at heq
        exact (List.getElem?_inj (by omega) hnd).1 heq
      subst hkl
      have hq' : (fullAlphabet ++ ['?'])[62]? = some '?' := by decide
      have hk62 : k < 62 := by
        rcases Nat.lt_or_ge k 62 with h | h
        · exact h
        · exfalso
          have : k = 62 := by omega
          subst this
          exact hne (k2.trans hq')
      have a := k4 hk62
      have b := l4 hk62
      rw [abs_lt]
      constructor <;> linarith

/-- C77.  Adding a constant to the series does not change its code. -/
theorem C77_shift (series : List K) (sigma c : K) (hs : 0 < sigma) (hne : series ≠ []) :
    sigmaEncode (series.map (· + c)) sigma = sigmaEncode series sigma := by
  obtain ⟨lo, hlo⟩ : ∃ lo, IsLeast {x | x ∈ series} lo := by
    obtain ⟨a, l, rfl⟩ := List.exists_cons_of_ne_nil hne
    exact ⟨_, foldl_min_isLeast a l⟩
  have hlo' : IsLeast {x | x ∈ series.map (· + c)} (lo + c) := by
    constructor
    · exact List.mem_map.2 ⟨lo, hlo.1, rfl⟩
    · intro x hx
      obtain ⟨y, hy, rfl⟩ := List.mem_map.1 hx
      have := hlo.2 hy
      linarith
  rw [sigmaEncode_eq series sigma lo hs hlo, sigmaEncode_eq _ sigma (lo + c) hs hlo', List.map_map]
  congr 1
  apply List.map_congr_left
  intro x _
  simp only [Function.comp_apply]
  unfold sigmaPos
  rw [add_sub_add_right_eq_sub]

example : sigmaEncode [(1 : ℚ), 5 / 2, 2, 100] 1 = .ok "011?".toList := by decide +kernel

end FinML.Entropy
