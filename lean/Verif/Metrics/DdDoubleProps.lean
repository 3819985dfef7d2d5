import Verif.Metrics.DdDoubleModel
import Verif.Metrics.DdProps
import Verif.Labels.DoubleProps
import Verif.Filters.DoubleProps
import Verif.Alloc.NearProps

/-! # Drawdowns in doubles (C285) -/

namespace FinML.Metrics

open FinML.Alloc FinML.CV

/-- Membership in the drawdowns in money. -/
theorem mem_money (rd : ℚ → ℚ) (s : Ser ℚ) (t : ℤ) (d : Option ℚ) : (t, d) ∈ drawdownsR rd s true ↔
    ∃ h m : ℚ, IsDrawdown s t h m ∧ d = some (rd (h - m)) := by
  unfold drawdownsR
  rw [List.mem_map]
  constructor
  · rintro ⟨⟨t', h, m⟩, hr, e⟩
    simp only [if_true, Prod.mk.injEq] at e
    obtain ⟨rfl, rfl⟩ := e
    exact ⟨h, m, (mem_hwmRows s _ _ _).1 hr, rfl⟩
  · rintro ⟨h, m, hd, rfl⟩
    exact ⟨⟨t, h, m⟩, (mem_hwmRows s _ _ _).2 hd, rfl⟩

/-- Membership in the relative drawdowns. -/
theorem mem_relative (rd : ℚ → ℚ) (s : Ser ℚ) (t : ℤ) (d : Option ℚ) : (t, d) ∈ drawdownsR rd s false ↔
    ∃ h m : ℚ, IsDrawdown s t h m ∧ d = if h = 0 then none else some (rd (1 - rd (m / h))) := by
  unfold drawdownsR
  rw [List.mem_map]
  constructor
  · rintro ⟨⟨t', h, m⟩, hr, e⟩
    simp only [Bool.false_eq_true, if_false, Prod.mk.injEq] at e
    obtain ⟨rfl, rfl⟩ := e
    refine ⟨h, m, (mem_hwmRows s _ _ _).1 hr, ?_⟩
    unfold fdiv
    split_ifs <;> rfl
  · rintro ⟨h, m, hd, rfl⟩
    refine ⟨⟨t, h, m⟩, (mem_hwmRows s _ _ _).2 hd, ?_⟩
    simp only [Bool.false_eq_true, if_false, Prod.mk.injEq, true_and]
    unfold fdiv
    split_ifs <;> rfl

theorem sd_pos {q : ℚ} (h : 0 < q) : 0 < signedDouble q := by
  obtain ⟨f, e, n⟩ := sd_factor q
  rw [e]
  exact mul_pos h (near_pos n)

/-- C285, in money: the drawdowns reported in doubles are those of the exact computation, rounded; they are positive;
none is reported exactly if the series never falls; and the largest is the largest fall, rounded. -/
theorem C285_money (s : Ser ℚ) (hs : (s.map Prod.fst).Pairwise (· < ·)) :
    drawdownsR signedDouble s true = (drawdowns s true).map (fun p => (p.1, p.2.map signedDouble)) ∧
    (∀ t d, (t, d) ∈ drawdownsR signedDouble s true → ∃ x : ℚ, d = some x ∧ 0 < x) ∧
    (drawdownsR signedDouble s true = [] ↔ ∀ a b : ℚ, Falls s a b → a ≤ b) ∧
    (∀ D : ℚ, 0 < D → IsGreatest {d : ℚ | ∃ a b : ℚ, Falls s a b ∧ d = a - b} D →
      IsGreatest {d : ℚ | ∃ t : ℤ, (t, some d) ∈ drawdownsR signedDouble s true} (signedDouble D)) := by
  have h1 : drawdownsR signedDouble s true = (drawdowns s true).map (fun p => (p.1, p.2.map signedDouble)) := by
    unfold drawdownsR drawdowns
    rw [List.map_map]
    rfl
  obtain ⟨-, c2, c3⟩ := C95_maximum s hs
  refine ⟨h1, ?_, ?_, ?_⟩
  · intro t d hd
    obtain ⟨h, m, ⟨_, _, _, _, _, hlt⟩, rfl⟩ := (mem_money _ s t d).1 hd
    exact ⟨_, rfl, sd_pos (sub_pos.2 hlt)⟩
  · rw [h1, List.map_eq_nil_iff, c2]
  · intro D hD hg
    obtain ⟨⟨t, ht⟩, hmax⟩ := (c3 D hD).2 hg
    refine ⟨⟨t, ?_⟩, ?_⟩
    · rw [h1, List.mem_map]
      exact ⟨_, ht, rfl⟩
    · rintro d ⟨u, hu⟩
      rw [h1, List.mem_map] at hu
      obtain ⟨⟨u', d'⟩, hd', e⟩ := hu
      simp only [Prod.mk.injEq] at e
      obtain ⟨x, rfl, rfl⟩ := Option.map_eq_some_iff.1 e.2
      exact signedDouble_mono (hmax ⟨u', hd'⟩)

/-- Values of a series of positive doubles. -/
theorem drawdown_values {s : Ser ℚ} (hp : ∀ p ∈ s, 0 < p.2 ∧ IsDouble p.2) {t : ℤ} {h m : ℚ} (hd : IsDrawdown s t h m) :
    (0 < h ∧ IsDouble h) ∧ (0 < m ∧ IsDouble m) ∧ m < h := by
  obtain ⟨pre, run, post, hr, hm, hlt⟩ := hd
  obtain ⟨p, hpm, e⟩ := hm.1
  refine ⟨hp (t, h) (by rw [hr.eq]; simp), ?_, hlt⟩
  rw [e]
  refine hp p ?_
  rw [hr.eq]
  simp only [List.mem_cons] at hpm
  simp only [List.mem_append, List.mem_cons]
  tauto

/-- C285, relative: for positive doubles a drawdown is reported exactly at the highs that are followed by a fall, and it
is positive, at most one and within 2^-52 of the exact one; no division fails. -/
theorem C285_relative (s : Ser ℚ) (hp : ∀ p ∈ s, 0 < p.2 ∧ IsDouble p.2) (t : ℤ) (d : Option ℚ) :
    ((t, d) ∈ drawdownsR signedDouble s false → ∃ h m x : ℚ, IsDrawdown s t h m ∧ d = some x ∧ 0 < x ∧ x ≤ 1 ∧
      |x - (1 - m / h)| ≤ 1 / 2 ^ 52) ∧
    (∀ h m : ℚ, IsDrawdown s t h m → ∃ x, (t, some x) ∈ drawdownsR signedDouble s false) := by
  constructor
  · intro hmem
    obtain ⟨h, m, hd, rfl⟩ := (mem_relative _ s t d).1 hmem
    obtain ⟨⟨h0, h1⟩, ⟨m0, m1⟩, hlt⟩ := drawdown_values hp hd
    have hq : 0 < m / h := div_pos m0 h0
    have hq1 : m / h < 1 := (div_lt_one h0).2 hlt
    have hr := FinML.Labels.ratio_below m1 h1 m0 hlt
    have hr0 := sd_pos hq
    refine ⟨h, m, _, hd, if_neg h0.ne', sd_pos (by linarith), ?_, ?_⟩
    · have := signedDouble_mono (show 1 - signedDouble (m / h) ≤ 1 by linarith)
      rwa [signedDouble_one] at this
    · have e1 := signedDouble_err (m / h)
      have e2 := signedDouble_err (1 - signedDouble (m / h))
      rw [abs_of_pos hq] at e1
      rw [abs_of_pos (by linarith : 0 < 1 - signedDouble (m / h))] at e2
      have e3 : m / h / 2 ^ 53 ≤ 1 / 2 ^ 53 := div_le_div_of_nonneg_right hq1.le (by positivity)
      have e4 : (1 - signedDouble (m / h)) / 2 ^ 53 ≤ 1 / 2 ^ 53 := div_le_div_of_nonneg_right (by linarith) (by positivity)
      have e5 := abs_le.1 (e1.trans e3)
      have e6 := abs_le.1 (e2.trans e4)
      rw [abs_le]
      constructor <;> linarith [e5.1, e5.2, e6.1, e6.2]
  · intro h m hd
    obtain ⟨⟨h0, h1⟩, -, -⟩ := drawdown_values hp hd
    exact ⟨_, (mem_relative _ s t _).2 ⟨h, m, hd, (if_neg h0.ne').symm⟩⟩

/-- C285, relative: the deepest drawdown in doubles is that of the deepest exact one. -/
theorem C285_deepest (s : Ser ℚ) (hp : ∀ p ∈ s, 0 < p.2 ∧ IsDouble p.2) (t : ℤ) (h m : ℚ) (hd : IsDrawdown s t h m)
    (hmax : ∀ u h' m', IsDrawdown s u h' m' → 1 - m' / h' ≤ 1 - m / h) :
    IsGreatest {d : ℚ | ∃ u : ℤ, (u, some d) ∈ drawdownsR signedDouble s false}
      (signedDouble (1 - signedDouble (m / h))) := by
  obtain ⟨⟨h0, -⟩, -, -⟩ := drawdown_values hp hd
  refine ⟨⟨t, (mem_relative _ s t _).2 ⟨h, m, hd, (if_neg h0.ne').symm⟩⟩, ?_⟩
  rintro d ⟨u, hu⟩
  obtain ⟨h', m', hd', e⟩ := (mem_relative _ s u _).1 hu
  obtain ⟨⟨h0', -⟩, -, -⟩ := drawdown_values hp hd'
  rw [if_neg h0'.ne', Option.some.injEq] at e
  rw [e]
  apply signedDouble_mono
  have := signedDouble_mono (show m / h ≤ m' / h' by linarith [hmax u h' m' hd'])
  linarith

theorem sd_day : signedDouble (dayNs : ℚ) = dayNs := by decide +kernel

/-- C285, times under water: they are reported at the same times as exactly, with a relative error below 2^-51, and a
whole number of days (fewer than 2^22) is exact. -/
theorem C285_days (s : Ser ℚ) (i : ℕ) (a : ℤ) (x : ℚ) (hi : (timeUnderWater s)[i]? = some (a, x)) :
    ∃ y, (timeUnderWaterR signedDouble s)[i]? = some (a, y) ∧ |y - x| ≤ |x| / 2 ^ 51 ∧
      (∀ k : ℤ, |k| < 2 ^ 22 → x = k → y = k) := by
  unfold timeUnderWater at hi
  rw [List.getElem?_zipWith] at hi
  unfold timeUnderWaterR
  simp only [List.getElem?_zipWith]
  generalize ((hwmRows s).map HwmRow.time).dropLast[i]? = o1 at hi ⊢
  generalize ((hwmRows s).map HwmRow.time).tail[i]? = o2 at hi ⊢
  cases o1 with
  | none => simp at hi
  | some u =>
    cases o2 with
    | none => simp at hi
    | some v =>
      simp only [Option.some.injEq, Prod.mk.injEq] at hi
      obtain ⟨rfl, rfl⟩ := hi
      refine ⟨_, rfl, ?_, ?_⟩
      · rw [sd_day]
        have hday : (0 : ℚ) < (dayNs : ℚ) := by norm_num [dayNs]
        obtain ⟨f1, e1, n1⟩ := sd_factor (((v - u : ℤ) : ℚ))
        obtain ⟨f2, e2, n2⟩ := sd_factor (signedDouble ((v - u : ℤ) : ℚ) / dayNs)
        have n3 := near_abs (near_mul n1 n2)
        rw [e2, e1]
        have e : ((v - u : ℤ) : ℚ) * f1 / (dayNs : ℚ) * f2 - ((v - u : ℤ) : ℚ) / (dayNs : ℚ) =
            ((v - u : ℤ) : ℚ) / (dayNs : ℚ) * (f1 * f2 - 1) := by ring
        have hb : (1 / (1 - 1 / 2 ^ 53 : ℚ) ^ (1 + 1) - 1 : ℚ) ≤ 1 / 2 ^ 51 := by norm_num
        rw [e, abs_mul]
        calc _ ≤ |((v - u : ℤ) : ℚ) / (dayNs : ℚ)| * (1 / 2 ^ 51) :=
              mul_le_mul_of_nonneg_left (n3.trans hb) (abs_nonneg _)
          _ = _ := by ring
      · intro k hk hx
        have hday : (dayNs : ℚ) ≠ 0 := by norm_num [dayNs]
        have h1 : ((v - u : ℤ) : ℚ) = k * (dayNs : ℚ) := by rw [← hx]; field_simp
        have h2 : ((v - u : ℤ) : ℚ) = ((k * 1318359375 : ℤ) : ℚ) * (2 : ℚ) ^ (16 : ℤ) := by
          rw [h1]
          simp only [dayNs]
          push_cast
          ring
        have h3 : signedDouble ((v - u : ℤ) : ℚ) = ((v - u : ℤ) : ℚ) := by
          rw [h2]
          apply FinML.Filters.signedDouble_int
          rw [abs_mul]
          calc |k| * |1318359375| ≤ 2 ^ 22 * 1318359375 := by
                rw [abs_of_pos (by norm_num : (0 : ℤ) < 1318359375)]
                exact mul_le_mul_of_nonneg_right hk.le (by norm_num)
            _ < 2 ^ 53 := by norm_num
        rw [h3, sd_day, hx]
        have := FinML.Filters.signedDouble_int k 0 (hk.trans (by norm_num))
        simpa using this

/-- Hypotheses are met and values move: highs of 1 and 3 with falls to 0.9 and 1. -/
example : drawdownsR signedDouble [(0, 1), (1, signedDouble (9 / 10)), (2, 3), (3, 1)] false =
    [(0, some (signedDouble (1 - signedDouble (9 / 10)))), (2, some (signedDouble (2 / 3) + 1 / 2 ^ 53))] ∧
    signedDouble (1 - signedDouble (9 / 10)) ≠ signedDouble (1 / 10) ∧
    timeUnderWaterR signedDouble [(0, 1), (1, 1 / 2), (2 * dayNs, 3), (2 * dayNs + 1, 1)] = [(0, 2)] := by
  decide +kernel

end FinML.Metrics
