import Verif.Entropy.LzProps
import Verif.Entropy.EncodeProps
import Verif.Entropy.QuantileProps

/-!
# Property C169: entropies do not depend on the names of the symbols, codes not on the units

`financial_ml/features/entropy.py`.
-/

set_option linter.unusedSectionVars false

namespace FinML.Entropy

section Words

variable {α β : Type} [DecidableEq α] [DecidableEq β]

theorem slice_map (f : α → β) (msg : List α) (a b : ℕ) :
    slice (msg.map f) a b = (slice msg a b).map f := by
  unfold slice
  rw [← List.map_take, ← List.map_drop]

theorem map_inj {f : α → β} (hf : Function.Injective f) (x y : List α) :
    x.map f = y.map f ↔ x = y := (List.map_injective_iff.2 hf).eq_iff

theorem mem_map_words {f : α → β} (hf : Function.Injective f) (x : List α) (l : List (List α)) :
    x.map f ∈ l.map (List.map f) ↔ x ∈ l :=
  List.mem_map_of_injective (List.map_injective_iff.2 hf)

/-- A dictionary over the new symbols. -/
def recodeLib {γ : Type} (f : α → β) (lib : List (List α × γ)) : List (List β × γ) :=
  lib.map fun e => (e.1.map f, e.2)

theorem addWord_recode {f : α → β} (hf : Function.Injective f) (lib : List (List α × List ℕ))
    (x : List α) (i : ℕ) :
    addWord (recodeLib f lib) (x.map f, i) = recodeLib f (addWord lib (x, i)) := by
  unfold addWord
  have h1 : (recodeLib f lib).map Prod.fst = (lib.map Prod.fst).map (List.map f) := by
    unfold recodeLib
    rw [List.map_map, List.map_map]; rfl
  simp only [h1, mem_map_words hf]
  by_cases h : x ∈ lib.map Prod.fst
  · rw [if_pos h, if_pos h]
    unfold recodeLib
    rw [List.map_map, List.map_map]
    apply List.map_congr_left
    intro e _
    simp only [Function.comp, map_inj hf]
    split <;> rfl
  · rw [if_neg h, if_neg h]
    unfold recodeLib
    rw [List.map_append]; rfl

theorem foldl_recode {f : α → β} (hf : Function.Injective f) (msg : List α) (w : ℕ) (is : List ℕ)
    (lib : List (List α × List ℕ)) :
    is.foldl (fun lib i => addWord lib (slice (msg.map f) (i - w) i, i - w)) (recodeLib f lib) =
      recodeLib f (is.foldl (fun lib i => addWord lib (slice msg (i - w) i, i - w)) lib) := by
  induction is generalizing lib with
  | nil => rfl
  | cons i is ih =>
    rw [List.foldl_cons, List.foldl_cons, slice_map, addWord_recode hf, ih]

theorem wordPmf_recode (K : Type) [Field K] {f : α → β} (hf : Function.Injective f) (msg : List α)
    (w : ℕ) : wordPmf K (msg.map f) w = recodeLib f (wordPmf K msg w) := by
  unfold wordPmf
  have := foldl_recode hf msg w (List.range' w (msg.length + 1 - w)) []
  simp only [List.length_map]
  rw [show (recodeLib f ([] : List (List α × List ℕ))) = [] from rfl] at this
  rw [this]
  unfold recodeLib
  rw [List.map_map, List.map_map]
  rfl

/-- C169.  Naming the symbols differently gives the same word frequencies and the same plug-in
entropy. -/
theorem C169_plugin {f : α → β} (hf : Function.Injective f) (msg : List α) (w : ℕ) :
    (wordPmf ℝ (msg.map f) w = (wordPmf ℝ msg w).map fun e => (e.1.map f, e.2)) ∧
    pluginEntropy (msg.map f) w = pluginEntropy msg w := by
  have h := wordPmf_recode ℝ hf msg w
  refine ⟨h, ?_⟩
  unfold pluginEntropy
  rw [h]
  unfold recodeLib
  rw [List.map_map]
  rfl

theorem lzInner_recode {f : α → β} (hf : Function.Injective f) (msg : List α) (i : ℕ)
    (lib : List (List α)) (ks : List ℕ) (j : ℕ) :
    lzInner (msg.map f) i (lib.map (List.map f)) ks j =
      ((lzInner msg i lib ks j).1, (lzInner msg i lib ks j).2.map (List.map f)) := by
  induction ks generalizing j with
  | nil => rfl
  | cons k ks ih =>
    simp only [lzInner]
    rw [slice_map]
    simp only [mem_map_words hf]
    by_cases h : slice msg i (k + 1) ∈ lib
    · rw [if_pos h, if_pos h, ih]
    · rw [if_neg h, if_neg h, List.map_append]; rfl

theorem lzLoop_recode {f : α → β} (hf : Function.Injective f) (msg : List α) (fuel i : ℕ)
    (lib : List (List α)) :
    lzLoop (msg.map f) fuel i (lib.map (List.map f)) =
      (lzLoop msg fuel i lib).map (List.map (List.map f)) := by
  induction fuel generalizing i lib with
  | zero =>
    simp only [lzLoop, List.length_map]
    split <;> rfl
  | succ n ih =>
    simp only [lzLoop, List.length_map]
    by_cases h : i < msg.length
    · rw [if_pos h, if_pos h, lzInner_recode hf]
      exact ih _ _
    · rw [if_neg h, if_neg h]; rfl

/-- C169.  The Lempel-Ziv dictionary is the same up to the names of the symbols. -/
theorem C169_lempelziv {f : α → β} (hf : Function.Injective f) (msg : List α) :
    lempelzivLib (msg.map f) = (lempelzivLib msg).map (List.map (List.map f)) := by
  unfold lempelzivLib
  cases msg with
  | nil => rfl
  | cons c cs =>
    show lzLoop ((c :: cs).map f) ((c :: cs).map f).length 1 ([[c]].map (List.map f)) = _
    rw [List.length_map, lzLoop_recode hf]
    rfl

theorem hasMatch_recode {f : α → β} (hf : Function.Injective f) (msg : List α) (i n l : ℕ) :
    hasMatch (msg.map f) i n l = hasMatch msg i n l := by
  unfold hasMatch
  congr 1
  funext j
  rw [slice_map, slice_map]
  simp only [map_inj hf]

/-- C169.  Longest matches have the same length and are the same up to the names. -/
theorem C169_longest_match {f : α → β} (hf : Function.Injective f) (msg : List α) (i n : ℕ) :
    longestMatch (msg.map f) i n = ((longestMatch msg i n).1, (longestMatch msg i n).2.map f) := by
  unfold longestMatch
  have : ∀ (ls : List ℕ) (m : List α),
      ls.foldl (fun m length => if hasMatch (msg.map f) i n length then
        slice (msg.map f) i (i + length + 1) else m) (m.map f) =
      (ls.foldl (fun m length => if hasMatch msg i n length then
        slice msg i (i + length + 1) else m) m).map f := by
    intro ls
    induction ls with
    | nil => intro m; rfl
    | cons l ls ih =>
      intro m
      rw [List.foldl_cons, List.foldl_cons, hasMatch_recode hf, slice_map]
      by_cases h : hasMatch msg i n l = true
      · rw [if_pos h, if_pos h, ih]
      · rw [if_neg h, if_neg h, ih]
  have h := this (List.range n) []
  simp only
  rw [show ([] : List β) = ([] : List α).map f from rfl, h, List.length_map]

/-- C169.  The Kontoyiannis entropy is the same. -/
theorem C169_konto {f : α → β} (hf : Function.Injective f) (msg : List α) (window : Option ℕ) :
    kontoEntropy (msg.map f) window = kontoEntropy msg window := by
  unfold kontoEntropy
  simp only [List.length_map, C169_longest_match hf]

example : wordPmf ℚ "abaab".toList 2 =
    [("ab".toList, 1 / 2), ("ba".toList, 1 / 4), ("aa".toList, 1 / 4)] := by decide +kernel

end Words

section Codes

variable {K : Type} [Field K] [LinearOrder K] [IsStrictOrderedRing K]

/-- C169.  A binary code depends only on the order: any strictly increasing change of scale, applied
to the series and the threshold, leaves it as it is. -/
theorem C169_binary (g : K → K) (hg : StrictMono g) (series : List K) (threshold : K) :
    binaryEncode (series.map g) (g threshold) = binaryEncode series threshold := by
  unfold binaryEncode
  rw [List.map_map]
  apply List.map_congr_left
  intro x _
  simp only [Function.comp, hg.lt_iff_lt]

theorem foldl_min_affine (a b : K) (ha : 0 < a) (l : List K) (x : K) :
    (l.map fun y => a * y + b).foldl min (a * x + b) = a * l.foldl min x + b := by
  induction l generalizing x with
  | nil => rfl
  | cons y ys ih =>
    rw [List.map_cons, List.foldl_cons, List.foldl_cons, min_add_add_right,
      ← mul_min_of_nonneg _ _ ha.le, ih]

variable [FloorRing K]

/-- C169.  A sigma code does not depend on the unit or the origin of the series. -/
theorem C169_sigma (a b : K) (ha : 0 < a) (series : List K) (sigma : K) :
    sigmaEncode (series.map fun x => a * x + b) (a * sigma) = sigmaEncode series sigma := by
  unfold sigmaEncode
  have h0 : a * sigma = 0 ↔ sigma = 0 := by
    rw [mul_eq_zero]
    exact ⟨fun h => h.resolve_left ha.ne', Or.inr⟩
  simp only [h0, List.map_eq_nil_iff]
  by_cases hne : series = []
  · rw [if_pos hne, if_pos hne]
  rw [if_neg hne, if_neg hne]
  by_cases hs : sigma = 0
  · rw [if_pos hs, if_pos hs]
  · rw [if_neg hs, if_neg hs]
    cases series with
    | nil => rfl
    | cons x xs =>
      simp only [List.map_cons, npMin]
      rw [foldl_min_affine a b ha, py_bind_ok, py_bind_ok, ← List.map_cons (f := fun x : K => a * x + b),
        List.mapM_map]
      congr 1
      funext y
      simp only [Function.comp]
      have : (a * y + b - (a * List.foldl min x xs + b)) / (a * sigma) =
          (y - List.foldl min x xs) / sigma := by
        rw [show a * y + b - (a * List.foldl min x xs + b) = a * (y - List.foldl min x xs) by ring,
          mul_div_mul_left _ _ ha.ne']
      rw [this]

theorem insertionSort_mono (g : K → K) (hg : StrictMono g) (l : List K) :
    (l.map g).insertionSort (· ≤ ·) = (l.insertionSort (· ≤ ·)).map g := by
  rw [List.map_insertionSort (s := (· ≤ ·)) (r := (· ≤ ·))]
  intro a _ b _
  exact hg.le_iff_le.symm

theorem getD_affine (a b : K) (l : List K) (i : ℕ) (hi : i < l.length) :
    (l.map fun x => a * x + b).getD i 0 = a * l.getD i 0 + b := by
  rw [List.getD_eq_getElem _ _ (by rwa [List.length_map]), List.getD_eq_getElem _ _ hi,
    List.getElem_map]

theorem quantileAt_affine (a b : K) (s : List K) (hs : s ≠ []) (p : K) (hp1 : p ≤ 1) :
    quantileAt (s.map fun x => a * x + b) p = a * quantileAt s p + b := by
  unfold quantileAt
  have hl : 0 < s.length := List.length_pos_iff.2 hs
  simp only [List.length_map]
  have h1 : ⌊p * ((s.length - 1 : ℕ) : K)⌋.toNat < s.length := by
    have h2 : ⌊p * ((s.length - 1 : ℕ) : K)⌋ ≤ ((s.length - 1 : ℕ) : ℤ) := by
      have : p * ((s.length - 1 : ℕ) : K) ≤ (((s.length - 1 : ℕ) : ℤ) : K) := by
        push_cast
        calc p * ((s.length - 1 : ℕ) : K) ≤ 1 * ((s.length - 1 : ℕ) : K) :=
              mul_le_mul_of_nonneg_right hp1 (Nat.cast_nonneg _)
          _ = _ := one_mul _
      exact Int.floor_le_iff.2 (lt_of_le_of_lt this (by push_cast; linarith))
    omega
  rw [getD_affine a b s _ h1, getD_affine a b s _ (by omega)]
  ring

theorem searchLeft_mono (g : K → K) (hg : StrictMono g) (q : List K) (v : K) :
    searchLeft (q.map g) (g v) = searchLeft q v := by
  unfold searchLeft
  rw [List.takeWhile_map, List.length_map]
  congr 2
  funext x
  simp only [Function.comp, hg.lt_iff_lt]

/-- C169.  Quantile codes do not depend on the unit or the origin: an encoder fitted on a rescaled
series gives to rescaled values the codes it would give to the original ones. -/
theorem C169_quantile (a b : K) (ha : 0 < a) (n : ℕ) (e : Encoder K) (he : Encoder.init n = .ok e)
    (fitted coded : List K) :
    (e.fit (fitted.map fun x => a * x + b) >>= fun e' => e'.transform (coded.map fun x => a * x + b)) =
      (e.fit fitted >>= fun e' => e'.transform coded) := by
  have hg : StrictMono fun x : K => a * x + b := fun x y h => by
    have := mul_lt_mul_of_pos_left h ha
    simp only
    linarith
  have hpr : ∀ p ∈ e.probs, p ≤ 1 := by
    unfold Encoder.init at he
    split at he
    · injection he with he
      subst he
      intro p hp
      unfold linspace01 at hp
      obtain ⟨i, hi, rfl⟩ := List.mem_map.1 hp
      rw [List.mem_range] at hi
      apply div_le_one_of_le₀ _ (Nat.cast_nonneg _)
      exact_mod_cast (by omega : i ≤ n - 1)
    · cases he
  unfold Encoder.fit
  simp only [List.map_eq_nil_iff]
  by_cases hf : fitted = []
  · rw [if_pos hf, if_pos hf]; rfl
  · rw [if_neg hf, if_neg hf, py_bind_ok, py_bind_ok]
    unfold Encoder.transform
    simp only [Option.elim_some]
    have hq : e.probs.map (quantileAt ((fitted.map fun x => a * x + b).insertionSort (· ≤ ·))) =
        (e.probs.map (quantileAt (fitted.insertionSort (· ≤ ·)))).map fun x => a * x + b := by
      rw [insertionSort_mono _ hg, List.map_map]
      apply List.map_congr_left
      intro p hp
      simp only [Function.comp]
      refine quantileAt_affine a b _ ?_ p (hpr p hp)
      intro h
      have := congrArg List.length h
      rw [List.length_insertionSort] at this
      exact hf (List.length_eq_zero_iff.1 this)
    rw [hq, List.mapM_map]
    congr 1
    funext v
    simp only [Function.comp]
    rw [searchLeft_mono (fun x : K => a * x + b) hg]

end Codes

end FinML.Entropy
