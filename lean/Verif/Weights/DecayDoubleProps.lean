import Verif.Weights.UniqDoubleModel
import Verif.Weights.DecayProps
import Verif.Bars.VwapDoubleProps

/-!
# Time decay in doubles (C294)
-/

namespace FinML.Weights

open FinML.Alloc FinML.Filters FinML.Bars FinML.CV

theorem sd0 : signedDouble 0 = 0 := by simpa using signedDouble_nat 0 (by norm_num)

theorem sdnn {x : ℚ} (h : 0 ≤ x) : 0 ≤ signedDouble x := by
  have := signedDouble_mono h
  rwa [sd0] at this

/-! ## The newest weight -/

theorem sd_isDouble {a : ℚ} (ha : 0 ≤ a) (hd : signedDouble a = a) : IsDouble a := by
  have := (C45_rounding a ha).1
  unfold signedDouble at hd
  rw [if_neg (not_lt.2 ha)] at hd
  rwa [hd] at this

/-- `1 - a` is a double if `a` is a double from one to `2^53`. -/
theorem one_sub_exact {a : ℚ} (ha : 1 ≤ a) (ha2 : a ≤ 2 ^ 53) (hd : signedDouble a = a) :
    signedDouble (1 - a) = 1 - a := by
  obtain ⟨m, e, hm, rfl⟩ := sd_isDouble (by linarith) hd
  by_cases he : e ≤ 0
  · obtain ⟨k, rfl⟩ : ∃ k : ℕ, e = -(k : ℤ) := ⟨(-e).toNat, by omega⟩
    have h2 : (0 : ℚ) < 2 ^ k := by positivity
    have hk : (2 : ℚ) ^ (-(k : ℤ)) = 1 / 2 ^ k := by rw [zpow_neg, zpow_natCast, one_div]
    have hkm : 2 ^ k ≤ m := by
      rw [hk, mul_one_div, le_div_iff₀ h2, one_mul] at ha
      exact_mod_cast ha
    have e1 : (1 : ℚ) - m * (2 : ℚ) ^ (-(k : ℤ)) = (((2 : ℤ) ^ k - (m : ℤ) : ℤ) : ℚ) * (2 : ℚ) ^ (-(k : ℤ)) := by
      rw [hk]
      push_cast
      field_simp
    rw [e1]
    refine signedDouble_int _ _ ?_
    have hkm' : (2 : ℤ) ^ k ≤ m := by exact_mod_cast hkm
    have hm' : (m : ℤ) < 2 ^ 53 := by exact_mod_cast hm
    have h0 : (0 : ℤ) < 2 ^ k := by positivity
    rw [abs_lt]
    constructor <;> linarith
  · obtain ⟨k, rfl⟩ : ∃ k : ℕ, e = (k : ℤ) := ⟨e.toNat, by omega⟩
    have e1 : (1 : ℚ) - m * (2 : ℚ) ^ (k : ℤ) = ((1 - (m : ℤ) * 2 ^ k : ℤ) : ℚ) * (2 : ℚ) ^ (0 : ℤ) := by
      rw [zpow_natCast]; push_cast; simp
    rw [zpow_natCast] at ha ha2
    rw [e1]
    refine signedDouble_int _ _ ?_
    have h1 : (1 : ℤ) ≤ (m : ℤ) * 2 ^ k := by exact_mod_cast ha
    have h2 : (m : ℤ) * 2 ^ k ≤ 2 ^ 53 := by exact_mod_cast ha2
    rw [abs_lt]
    constructor <;> linarith

/-- Rounding `1 - a` with `a` below one errs by at most `2^-54`. -/
theorem one_sub_err {a : ℚ} (ha : 0 ≤ a) (ha1 : a ≤ 1) : |signedDouble (1 - a) - (1 - a)| ≤ 1 / 2 ^ 54 := by
  have h0 : (0 : ℚ) ≤ 1 - a := by linarith
  have hr := (C45_rounding (1 - a) h0).2.1
  have hs : signedDouble (1 - a) = roundDouble (1 - a) := by unfold signedDouble; rw [if_neg (not_lt.2 h0)]
  -- the nearest multiple of 2^-53
  have hn := abs_sub_round ((1 - a) * 2 ^ 53)
  have h53 : (0 : ℚ) ≤ (1 - a) * 2 ^ 53 := by positivity
  have h53' : (1 - a) * 2 ^ 53 ≤ (2 : ℚ) ^ 53 := by
    have : (1 - a) * 2 ^ 53 ≤ 1 * (2 : ℚ) ^ 53 := mul_le_mul_of_nonneg_right (by linarith) (by norm_num)
    rwa [one_mul] at this
  have hlo : 0 ≤ round ((1 - a) * 2 ^ 53) := by
    generalize (1 - a) * (2 : ℚ) ^ 53 = x at *
    have : (-1 : ℚ) < (round x : ℚ) := by linarith [(abs_le.1 hn).2]
    have : (-1 : ℤ) < round x := by exact_mod_cast this
    omega
  have hhi : round ((1 - a) * 2 ^ 53) ≤ 2 ^ 53 := by
    generalize (1 - a) * (2 : ℚ) ^ 53 = x at *
    have : (round x : ℚ) < 2 ^ 53 + 1 := by linarith [(abs_le.1 hn).1]
    have : round x < 2 ^ 53 + 1 := by exact_mod_cast this
    omega
  obtain ⟨m, hm⟩ : ∃ m : ℕ, round ((1 - a) * 2 ^ 53) = m := ⟨_, (Int.toNat_of_nonneg hlo).symm⟩
  rw [hm] at hn hhi
  have hd : IsDouble ((m : ℚ) * (2 : ℚ) ^ (-53 : ℤ)) := by
    by_cases h : m < 2 ^ 53
    · exact ⟨m, -53, h, rfl⟩
    · have : m = 2 ^ 53 := by
        have : m ≤ 2 ^ 53 := by exact_mod_cast hhi
        omega
      subst this
      exact ⟨1, 0, by norm_num, by norm_num⟩
  rw [abs_sub_comm, hs]
  refine (hr _ hd).trans ?_
  have e : (1 - a) - (m : ℚ) * (2 : ℚ) ^ (-53 : ℤ) = ((1 - a) * 2 ^ 53 - m) / 2 ^ 53 := by
    rw [show (2 : ℚ) ^ (-53 : ℤ) = 1 / 2 ^ 53 by norm_num]
    ring
  rw [e, abs_div, abs_of_pos (show (0 : ℚ) < 2 ^ 53 by norm_num), div_le_iff₀ (by norm_num)]
  refine hn.trans (by norm_num)

theorem near_one_rounds {x : ℚ} (h : |x - 1| ≤ 1 / 2 ^ 54) : signedDouble x = 1 := by
  obtain ⟨h1, h2⟩ := abs_le.1 h
  have a := signedDouble_mono (show 1 - 1 / 2 ^ 54 ≤ x by linarith)
  have b := signedDouble_mono (show x ≤ 1 + 1 / 2 ^ 54 by linarith)
  rw [show signedDouble (1 - 1 / 2 ^ 54) = 1 by decide +kernel] at a
  rw [show signedDouble (1 + 1 / 2 ^ 54) = 1 by decide +kernel] at b
  exact le_antisymm b a

/-- Taking a double from one and adding it again gives one. -/
theorem one_sub_add {a : ℚ} (ha : 0 ≤ a) (ha2 : a ≤ 2 ^ 53) (hd : signedDouble a = a) :
    signedDouble (signedDouble (1 - a) + a) = 1 := by
  by_cases h : 1 ≤ a
  · rw [one_sub_exact h ha2 hd, sub_add_cancel, signedDouble_one]
  · refine near_one_rounds ?_
    have := one_sub_err ha (not_le.1 h).le
    rwa [show signedDouble (1 - a) + a - 1 = signedDouble (1 - a) - (1 - a) by ring]

/-! ## Cumulated uniqueness -/

theorem cumsumFromR_length (rd : ℚ → ℚ) (s : ℚ) (l : List ℚ) : (cumsumFromR rd s l).length = l.length := by
  induction l generalizing s with
  | nil => rfl
  | cons x xs ih => simp [cumsumFromR, ih]

theorem cumsumFromR_props (s : ℚ) (hs : 0 ≤ s) (hsd : signedDouble s = s) (l : List ℚ) (h : ∀ x ∈ l, 0 < x) :
    (∀ y ∈ cumsumFromR signedDouble s l, s ≤ y ∧ 0 < y ∧ signedDouble y = y) ∧
      (cumsumFromR signedDouble s l).Pairwise (· ≤ ·) := by
  induction l generalizing s with
  | nil => simp [cumsumFromR]
  | cons x xs ih =>
    have hx := h x (by simp)
    have hle : s ≤ signedDouble (s + x) := by
      have := signedDouble_mono (show s ≤ s + x by linarith)
      rwa [hsd] at this
    have hpos : 0 < signedDouble (s + x) := by
      obtain ⟨f, hf, nf⟩ := sd_factor (s + x)
      rw [hf]
      exact mul_pos (by linarith) (near_pos nf)
    obtain ⟨h1, h2⟩ := ih (signedDouble (s + x)) hpos.le (signedDouble_idem _) (fun y hy => h y (by simp [hy]))
    rw [cumsumFromR]
    refine ⟨?_, ?_⟩
    · intro y hy
      rcases List.mem_cons.1 hy with rfl | hy
      · exact ⟨hle, hpos, signedDouble_idem _⟩
      · exact ⟨hle.trans (h1 y hy).1, (h1 y hy).2⟩
    · exact List.pairwise_cons.2 ⟨fun y hy => (h1 y hy).1, h2⟩

theorem slope_props {c total : ℚ} (hc : -1 + 1 / 2 ^ 50 ≤ c) (hc1 : c ≤ 1) (ht : 0 < total) :
    ∃ slope, decaySlopeR signedDouble c total = some slope ∧ 0 ≤ slope ∧ slope * total ≤ 2 ^ 52 ∧
      (0 ≤ c → slope * total ≤ (1 - c) * growth 2) ∧ (c = 1 → slope = 0) := by
  unfold decaySlopeR
  by_cases h : 0 ≤ c
  · rw [if_pos h]
    unfold fdiv
    rw [if_neg ht.ne']
    obtain ⟨f, hf, nf⟩ := sd_factor (1 - c)
    obtain ⟨g, hg, ng⟩ := sd_factor (signedDouble (1 - c) / total)
    have hb : signedDouble (signedDouble (1 - c) / total) * total ≤ (1 - c) * growth 2 := by
      rw [hg, hf, show (1 - c) * f / total * g * total = (1 - c) * (f * g) by field_simp]
      exact mul_le_mul_of_nonneg_left (near_le_growth (near_mul nf ng)) (by linarith)
    refine ⟨_, rfl, sdnn (div_nonneg (sdnn (by linarith)) ht.le), hb.trans ?_, fun _ => hb, ?_⟩
    · have : growth 2 ≤ 2 := by unfold growth; norm_num
      nlinarith [one_le_growth 2]
    · rintro rfl
      rw [sub_self, sd0, zero_div, sd0]
  · rw [if_neg h]
    have hc0 : 0 < c + 1 := by linarith [show (0 : ℚ) < 1 / 2 ^ 50 by norm_num]
    obtain ⟨f, hf, nf⟩ := sd_factor (c + 1)
    obtain ⟨g, hg, ng⟩ := sd_factor (signedDouble (c + 1) * total)
    have hD : 0 < signedDouble (signedDouble (c + 1) * total) := by
      rw [hg, hf]
      exact mul_pos (mul_pos (mul_pos hc0 (near_pos nf)) ht) (near_pos ng)
    unfold fdiv
    rw [if_neg hD.ne']
    refine ⟨_, rfl, sdnn (by positivity), ?_, fun h' => absurd h' h, fun h' => absurd (h'.symm ▸ zero_le_one) h⟩
    obtain ⟨k, hk, nk⟩ := sd_factor (1 / signedDouble (signedDouble (c + 1) * total))
    rw [hk, hg, hf]
    have hfp := near_pos nf
    have hgp := near_pos ng
    have e : 1 / ((c + 1) * f * total * g) * k * total = (1 / (c + 1)) * (1 / f * (1 / g) * k) := by
      field_simp
    rw [e]
    have hn := near_le_growth (near_mul (near_mul (near_inv nf) (near_inv ng)) nk)
    have hg3 : growth (1 + 1 + 1) ≤ 4 := by unfold growth; norm_num
    have hi : 1 / (c + 1) ≤ 2 ^ 50 := by
      rw [div_le_iff₀ hc0]
      have : (1 : ℚ) / 2 ^ 50 ≤ c + 1 := by linarith
      rw [div_le_iff₀ (by norm_num)] at this
      linarith
    have hp : 0 < 1 / f * (1 / g) * k := near_pos (near_mul (near_mul (near_inv nf) (near_inv ng)) nk)
    calc _ ≤ (2 : ℚ) ^ 50 * 4 := mul_le_mul hi (hn.trans hg3) hp.le (by norm_num)
      _ = 2 ^ 52 := by norm_num

/-- What C294 says of the weights `res` of observations `obs`: times in order, weights from 0 to 1 that do not fall with
time, the newest exactly one, and all one without decay. -/
def Decayed (obs : Series ℚ) (c : ℚ) (res : Series ℚ) : Prop :=
  (res.map Prod.fst).Perm (obs.map Prod.fst) ∧ (res.map Prod.fst).Pairwise (· ≤ ·) ∧
    (res.map Prod.snd).Pairwise (· ≤ ·) ∧ (∀ p ∈ res, 0 ≤ p.2 ∧ p.2 ≤ 1) ∧
    (∀ p, res.getLast? = some p → p.2 = 1) ∧ (c = 1 → ∀ p ∈ res, p.2 = 1)

/-- C294.  In doubles, for positive uniquenesses and `-1 + 2^-50 ≤ c ≤ 1`: the call succeeds, the weights are from 0 to
1 and do not fall with time, the newest weight is exactly one, and without decay all are.  With `0 ≤ c` no weight is
below `c - 2^-50`; the full claim, no weight
below `c`, fails (`C294_floor_counterexample`). -/
theorem C294_decay_partial (obs : Series ℚ) (hne : obs ≠ []) (hpos : ∀ p ∈ obs, 0 < p.2) (c : ℚ)
    (hc : -1 + 1 / 2 ^ 50 ≤ c) (hc1 : c ≤ 1) :
    ∃ res, applyTimeDecayR signedDouble obs c = .ok res ∧ Decayed obs c res ∧
      (0 ≤ c → ∀ p ∈ res, c - 1 / 2 ^ 50 ≤ p.2) := by
  have hperm : (sortIndex obs).Perm obs := List.perm_insertionSort _ _
  have hle : (sortIndex obs).Pairwise fun a b => a.1 ≤ b.1 := by
    unfold sortIndex
    exact List.pairwise_insertionSort (fun a b : ℤ × ℚ => a.1 ≤ b.1) obs
  set so := sortIndex obs with hso
  have hsne : so ≠ [] := fun h => hne (List.perm_nil.1 (h ▸ hperm.symm))
  obtain ⟨hcum, hmono⟩ := cumsumFromR_props 0 le_rfl sd0 (so.map Prod.snd) (by
    intro x hx
    obtain ⟨p, hp, rfl⟩ := List.mem_map.1 hx
    exact hpos p (hperm.mem_iff.1 hp))
  have hlen := cumsumFromR_length signedDouble 0 (so.map Prod.snd)
  rw [List.length_map] at hlen
  set cum := cumsumFromR signedDouble 0 (so.map Prod.snd) with hcumdef
  have hcne : cum ≠ [] := by
    intro h
    rw [h] at hlen
    exact hsne (List.length_eq_zero_iff.1 hlen.symm)
  have hlast := List.getLast?_eq_some_getLast hcne
  set total := cum.getLast hcne with htot
  obtain ⟨-, htpos, htd⟩ := hcum total (List.getLast_mem hcne)
  obtain ⟨slope, hsl, hsl0, hslb, hslc, hsl1⟩ := slope_props hc hc1 htpos
  set a := signedDouble (slope * total) with ha
  have ha0 : 0 ≤ a := sdnn (mul_nonneg hsl0 htpos.le)
  have hab : a ≤ 2 ^ 53 := by
    have := signedDouble_mono hslb
    rw [show signedDouble (2 ^ 52) = 2 ^ 52 by decide +kernel] at this
    exact this.trans (by norm_num)
  have hnew := one_sub_add ha0 hab (signedDouble_idem _)
  set const := signedDouble (1 - a) with hconst
  have hw : ∀ x y, x ≤ y → decayWeightR signedDouble const slope x ≤ decayWeightR signedDouble const slope y := by
    intro x y hxy
    have h := signedDouble_mono (add_le_add_right (signedDouble_mono (mul_le_mul_of_nonneg_left hxy hsl0)) const)
    unfold decayWeightR
    dsimp only
    by_cases h1 : signedDouble (const + signedDouble (slope * x)) < 0
    · rw [if_pos h1]
      split_ifs with h2
      · exact le_rfl
      · exact not_lt.1 h2
    · rw [if_neg h1, if_neg (by linarith)]
      exact h
  have hwt : decayWeightR signedDouble const slope total = 1 := by
    unfold decayWeightR
    dsimp only
    rw [← ha, hnew, if_neg (by norm_num)]
  have hok : applyTimeDecayR signedDouble obs c = .ok ((so.map Prod.fst).zip (cum.map (decayWeightR signedDouble const slope))) := by
    unfold applyTimeDecayR
    dsimp only
    rw [← hso, ← hcumdef, (pyLast_eq_ok_iff cum total).2 hlast, py_bind_ok, hsl]
    rfl
  set res := (so.map Prod.fst).zip (cum.map (decayWeightR signedDouble const slope)) with hres
  have hfst : res.map Prod.fst = so.map Prod.fst := List.map_fst_zip (by simp [hlen])
  have hsnd : res.map Prod.snd = cum.map (decayWeightR signedDouble const slope) := List.map_snd_zip (by simp [hlen])
  have hmem : ∀ p ∈ res, ∃ x ∈ cum, p.2 = decayWeightR signedDouble const slope x := by
    intro p hp
    have : p.2 ∈ res.map Prod.snd := List.mem_map_of_mem hp
    rw [hsnd] at this
    obtain ⟨x, hx, e⟩ := List.mem_map.1 this
    exact ⟨x, hx, e.symm⟩
  have hletot : ∀ x ∈ cum, x ≤ total := fun x hx => by
    have hd : cum.dropLast ++ [total] = cum := List.dropLast_append_getLast hcne
    rw [← hd] at hx hmono
    rcases List.mem_append.1 hx with hx | hx
    · exact (List.pairwise_append.1 hmono).2.2 x hx total (by simp)
    · rw [List.mem_singleton.1 hx]
  refine ⟨res, hok, ⟨?_, ?_, ?_, ?_, ?_, ?_⟩, ?_⟩
  · rw [hfst]
    exact hperm.map _
  · rw [hfst, List.pairwise_map]
    exact hle
  · rw [hsnd, List.pairwise_map]
    exact hmono.imp fun h => hw _ _ h
  · intro p hp
    obtain ⟨x, hx, e⟩ := hmem p hp
    rw [e]
    refine ⟨?_, hwt ▸ hw x total (hletot x hx)⟩
    unfold decayWeightR
    dsimp only
    split_ifs with h
    · exact le_rfl
    · exact not_lt.1 h
  · intro p hp
    have h1 : (res.map Prod.snd).getLast? = some p.2 := by rw [List.getLast?_map, hp]; rfl
    rw [hsnd, List.getLast?_map, hlast] at h1
    simp only [Option.map_some, Option.some.injEq] at h1
    rw [← h1, hwt]
  · intro h1 p hp
    obtain ⟨x, hx, e⟩ := hmem p hp
    rw [e, ← hwt]
    unfold decayWeightR
    rw [hsl1 h1, zero_mul, zero_mul]
  · intro h0 p hp
    obtain ⟨x, hx, e⟩ := hmem p hp
    rw [e]
    have hx0 : 0 ≤ x := (hcum x hx).2.1.le
    have hcd : signedDouble const = const := signedDouble_idem _
    have h1 : const ≤ signedDouble (const + signedDouble (slope * x)) := by
      have := signedDouble_mono (show const ≤ const + signedDouble (slope * x) by
        linarith [sdnn (mul_nonneg hsl0 hx0)])
      rwa [hcd] at this
    have h2 : const ≤ decayWeightR signedDouble const slope x := by
      unfold decayWeightR
      dsimp only
      split_ifs with h
      · linarith
      · exact h1
    refine le_trans ?_ h2
    -- the constant is at least `c` up to the roundings
    have ha3 : a ≤ (1 - c) * growth 3 := by
      obtain ⟨f, hf, nf⟩ := sd_factor (slope * total)
      rw [ha, hf, show growth 3 = growth 2 * growth 1 from growth_add 2 1, ← mul_assoc]
      exact mul_le_mul (hslc h0) (near_le_growth nf) (near_pos nf).le
        (mul_nonneg (by linarith) (by linarith [one_le_growth 2]))
    have hg3 : growth 3 ≤ 1 + 3 / 2 ^ 52 := by
      have := growth_le 3 (by norm_num)
      push_cast at this
      linarith
    have hcc : (1 - c) * growth 3 ≤ (1 - c) * (1 + 3 / 2 ^ 52) := mul_le_mul_of_nonneg_left hg3 (by linarith)
    have ha4 : a ≤ 1 - c + 3 / 2 ^ 52 := by nlinarith
    have herr := (abs_le.1 (signedDouble_err (1 - a))).1
    have hab1 : |1 - a| ≤ 1 := abs_le.2 ⟨by linarith [show (3 : ℚ) / 2 ^ 52 ≤ 1 by norm_num], by linarith⟩
    have h5 : |1 - a| / 2 ^ 53 ≤ 1 / 2 ^ 53 := div_le_div_of_nonneg_right hab1 (by norm_num)
    have h6 : (3 : ℚ) / 2 ^ 52 + 1 / 2 ^ 53 ≤ 1 / 2 ^ 50 := by norm_num
    linarith

/-- The floor of the decayed weights: with `0 ≤ c ≤ 1` no weight is below `c`, weighting.py:144-165. -/
def AtLeastOldest : Prop :=
  ∀ (obs : Series ℚ) (c : ℚ) (res : Series ℚ), (∀ p ∈ obs, 0 < p.2 ∧ signedDouble p.2 = p.2) → 0 ≤ c → c ≤ 1 →
    signedDouble c = c → applyTimeDecayR signedDouble obs c = .ok res → ∀ p ∈ res, c ≤ p.2

/-- C294.  In doubles the oldest weight can fall below `oldest_weight`: 1/8 asked for, uniquenesses `2^-60` and 25, and
the older observation weighs `1/8 - 2^-53`. -/
theorem C294_floor_counterexample : ¬ AtLeastOldest := by
  intro h
  have h1 := h [(0, 1 / 2 ^ 60), (1, 25)] (1 / 8) [(0, 1 / 8 - 1 / 2 ^ 53), (1, 1)] (by decide +kernel)
    (by norm_num) (by norm_num) (by decide +kernel) (by decide +kernel) (0, 1 / 8 - 1 / 2 ^ 53) (by simp)
  norm_num at h1

/-- Two observations with half the weight for the oldest: the older weighs 3/4. -/
example : applyTimeDecayR signedDouble [(1, 1), (0, 1)] (1 / 2) = .ok [(0, 3 / 4), (1, 1)] := by decide +kernel

/-- A negative oldest weight: the older half weighs nothing. -/
example : applyTimeDecayR signedDouble [(0, 1), (1, 1)] (-1 / 2) = .ok [(0, 0), (1, 1)] := by decide +kernel

/-- The hypotheses of `C294_decay_partial` are met. -/
example : ∃ res, applyTimeDecayR signedDouble [(1, 1), (0, 1)] (1 / 2) = .ok res ∧
    Decayed [(1, 1), (0, 1)] (1 / 2) res :=
  let ⟨res, h, d, _⟩ := C294_decay_partial [(1, 1), (0, 1)] (by simp) (by simp) (1 / 2) (by norm_num) (by norm_num)
  ⟨res, h, d⟩

end FinML.Weights
