import Verif.Alloc.BudgetDoubleModel
import Verif.Alloc.PosProps
import Verif.Alloc.MirrorProps
import Verif.Alloc.HrpDoubleProps
import Verif.Alloc.NearProps
import Verif.Filters.DoubleProps

/-!
# Budgeted position sizes in doubles (C295)
-/

namespace FinML.Alloc

open FinML.Weights FinML.Filters

/-! ## One bar -/

/-- Fractions of counts keep their order in doubles. -/
theorem fraction_lt {a b c d : ℕ} (hab : a ≤ b) (hcd : c ≤ d) (hb : 0 < b) (hd : 0 < d) (hbd : b * d < 2 ^ 52)
    (h : (a : ℚ) / b < c / d) : signedDouble ((a : ℚ) / b) < signedDouble ((c : ℚ) / d) := by
  have hbQ : (0 : ℚ) < b := by exact_mod_cast hb
  have hdQ : (0 : ℚ) < d := by exact_mod_cast hd
  have h1 : (a : ℚ) / b ≤ 1 := (div_le_one hbQ).2 (by exact_mod_cast hab)
  have h2 : (c : ℚ) / d ≤ 1 := (div_le_one hdQ).2 (by exact_mod_cast hcd)
  have e1 := signedDouble_err ((a : ℚ) / b)
  have e2 := signedDouble_err ((c : ℚ) / d)
  rw [abs_of_nonneg (show (0 : ℚ) ≤ (a : ℚ) / b by positivity), abs_le] at e1
  rw [abs_of_nonneg (show (0 : ℚ) ≤ (c : ℚ) / d by positivity), abs_le] at e2
  have hgap : 1 / 2 ^ 52 < (c : ℚ) / d - a / b := by
    rw [div_sub_div _ _ hdQ.ne' hbQ.ne', lt_div_iff₀ (mul_pos hdQ hbQ)]
    have hn : (1 : ℚ) ≤ c * b - d * a := by
      rw [div_lt_div_iff₀ hbQ hdQ] at h
      have h' : a * d < c * b := by exact_mod_cast h
      have h'' : a * d + 1 ≤ c * b := h'
      have : ((a * d + 1 : ℕ) : ℚ) ≤ ((c * b : ℕ) : ℚ) := by exact_mod_cast h''
      push_cast at this
      linarith
    have hp : (b : ℚ) * d < 2 ^ 52 := by exact_mod_cast hbd
    have : 1 / 2 ^ 52 * ((d : ℚ) * b) < 1 := by
      rw [div_mul_eq_mul_div, one_mul, div_lt_one (by norm_num)]
      linarith
    linarith
  have k1 : (a : ℚ) / b / 2 ^ 53 ≤ 1 / 2 ^ 53 := div_le_div_of_nonneg_right h1 (by norm_num)
  have k2 : (c : ℚ) / d / 2 ^ 53 ≤ 1 / 2 ^ 53 := div_le_div_of_nonneg_right h2 (by norm_num)
  have k3 : (1 : ℚ) / 2 ^ 52 = 1 / 2 ^ 53 + 1 / 2 ^ 53 := by norm_num
  linarith [e1.2, e2.1]

theorem sd_pos {x : ℚ} (h : 0 < x) : 0 < signedDouble x := by
  obtain ⟨f, hf, nf⟩ := sd_factor x
  rw [hf]
  exact mul_pos h (near_pos nf)

theorem sd_neg {x : ℚ} (h : x < 0) : signedDouble x < 0 := by
  have := sd_pos (neg_pos.2 h)
  rw [signedDouble_neg] at this
  linarith

/-- What C295 says of a size `x` computed in doubles at a bar with `l` of at most `ml` long and `s` of at most `ms`
short events open: it is from -1 to 1, has the sign of the exact size and is within `2^-51` of it, and is 1 only if all
of the long budget and none of the short one is used (-1 likewise). -/
def SizeOk (l ml s ms : ℕ) (x : ℚ) : Prop :=
  |x| ≤ 1 ∧ (0 < x ↔ l * ms > s * ml) ∧ (x = 0 ↔ l * ms = s * ml) ∧ (x < 0 ↔ l * ms < s * ml) ∧
    |x - ((l : ℚ) / ml - (s : ℚ) / ms)| ≤ 1 / 2 ^ 51 ∧ (x = 1 ↔ l = ml ∧ s = 0) ∧ (x = -1 ↔ l = 0 ∧ s = ms)

/-- A size short of one stays short of one. -/
theorem below_one {a b c d : ℕ} (hab : a ≤ b) (hcd : c ≤ d) (hb : 0 < b) (hd : 0 < d) (hbd : b * d < 2 ^ 52)
    (h : signedDouble (signedDouble ((a : ℚ) / b) - signedDouble ((c : ℚ) / d)) = 1) : a = b ∧ c = 0 := by
  have hbQ : (0 : ℚ) < b := by exact_mod_cast hb
  have hdQ : (0 : ℚ) < d := by exact_mod_cast hd
  have hb52 : b < 2 ^ 52 := lt_of_le_of_lt (Nat.le_mul_of_pos_right b hd) hbd
  have hd52 : d < 2 ^ 52 := lt_of_le_of_lt (Nat.le_mul_of_pos_left d hb) hbd
  have u1 := sd_unit (show (0 : ℚ) ≤ (a : ℚ) / b by positivity) ((div_le_one hbQ).2 (by exact_mod_cast hab))
  have u2 := sd_unit (show (0 : ℚ) ≤ (c : ℚ) / d by positivity) ((div_le_one hdQ).2 (by exact_mod_cast hcd))
  -- the difference is at most `1 - 2^-53`, which is a double
  have key : signedDouble ((a : ℚ) / b) - signedDouble ((c : ℚ) / d) ≤ 1 - 1 / 2 ^ 53 → False := by
    intro hk
    have := signedDouble_mono hk
    rw [h, show signedDouble (1 - 1 / 2 ^ 53) = 1 - 1 / 2 ^ 53 by decide +kernel] at this
    norm_num at this
  constructor
  · by_contra hne
    have hlt : a < b := lt_of_le_of_ne hab hne
    have h1 : (a : ℚ) / b ≤ 1 - 1 / 2 ^ 53 := by
      rw [div_le_iff₀ hbQ]
      have h2 : (a : ℚ) + 1 ≤ b := by exact_mod_cast hlt
      have h3 : (b : ℚ) < 2 ^ 52 := by exact_mod_cast hb52
      have h4 : 1 / 2 ^ 53 * (b : ℚ) ≤ 1 := by
        rw [div_mul_eq_mul_div, one_mul, div_le_one (by norm_num)]
        linarith [show (2 : ℚ) ^ 52 ≤ 2 ^ 53 by norm_num]
      linarith
    have h2 := signedDouble_mono h1
    rw [show signedDouble (1 - 1 / 2 ^ 53) = 1 - 1 / 2 ^ 53 by decide +kernel] at h2
    exact key (by linarith [u2.1])
  · by_contra hne
    have h1 : 1 / 2 ^ 52 ≤ (c : ℚ) / d := by
      rw [le_div_iff₀ hdQ]
      have h2 : (1 : ℚ) ≤ c := by exact_mod_cast Nat.one_le_iff_ne_zero.2 hne
      have h3 : (d : ℚ) < 2 ^ 52 := by exact_mod_cast hd52
      have h4 : 1 / 2 ^ 52 * (d : ℚ) ≤ 1 := by
        rw [div_mul_eq_mul_div, one_mul, div_le_one (by norm_num)]
        linarith
      linarith
    have h2 := signedDouble_mono h1
    rw [show signedDouble (1 / 2 ^ 52) = 1 / 2 ^ 52 by decide +kernel] at h2
    exact key (by linarith [u1.2, show (1 : ℚ) / 2 ^ 53 ≤ 1 / 2 ^ 52 by norm_num])

theorem size_ok {l ml s ms : ℕ} (hl : l ≤ ml) (hs : s ≤ ms) (hml : 0 < ml) (hms : 0 < ms) (hm : ml * ms < 2 ^ 52) :
    SizeOk l ml s ms (signedDouble (signedDouble ((l : ℚ) / ml) - signedDouble ((s : ℚ) / ms))) := by
  have hmlQ : (0 : ℚ) < ml := by exact_mod_cast hml
  have hmsQ : (0 : ℚ) < ms := by exact_mod_cast hms
  have q1 : (l : ℚ) / ml ≤ 1 := (div_le_one hmlQ).2 (by exact_mod_cast hl)
  have q2 : (s : ℚ) / ms ≤ 1 := (div_le_one hmsQ).2 (by exact_mod_cast hs)
  have p1 : (0 : ℚ) ≤ (l : ℚ) / ml := by positivity
  have p2 : (0 : ℚ) ≤ (s : ℚ) / ms := by positivity
  have u1 := sd_unit p1 q1
  have u2 := sd_unit p2 q2
  have hm' : ms * ml < 2 ^ 52 := by rwa [mul_comm]
  -- one of the three orders
  have hlt : l * ms < s * ml → signedDouble (signedDouble ((l : ℚ) / ml) - signedDouble ((s : ℚ) / ms)) < 0 := by
    intro h
    refine sd_neg (sub_neg.2 (fraction_lt hl hs hml hms hm ?_))
    rw [div_lt_div_iff₀ hmlQ hmsQ]
    exact_mod_cast h
  have hgt : s * ml < l * ms → 0 < signedDouble (signedDouble ((l : ℚ) / ml) - signedDouble ((s : ℚ) / ms)) := by
    intro h
    refine sd_pos (sub_pos.2 (fraction_lt hs hl hms hml hm' ?_))
    rw [div_lt_div_iff₀ hmsQ hmlQ]
    exact_mod_cast h
  have heq : l * ms = s * ml → signedDouble (signedDouble ((l : ℚ) / ml) - signedDouble ((s : ℚ) / ms)) = 0 := by
    intro h
    have : (l : ℚ) / ml = (s : ℚ) / ms := by
      rw [div_eq_div_iff hmlQ.ne' hmsQ.ne']
      exact_mod_cast h
    rw [this, sub_self, sd_zero]
  have habs : |signedDouble ((l : ℚ) / ml) - signedDouble ((s : ℚ) / ms)| ≤ 1 :=
    abs_le.2 ⟨by linarith [u1.1, u2.2], by linarith [u1.2, u2.1]⟩
  refine ⟨?_, ?_, ?_, ?_, ?_, ?_, ?_⟩
  · obtain ⟨h1, h2⟩ := abs_le.1 habs
    have a := signedDouble_mono h1
    have b := signedDouble_mono h2
    rw [signedDouble_neg, signedDouble_one] at a
    rw [signedDouble_one] at b
    exact abs_le.2 ⟨a, b⟩
  · rcases lt_trichotomy (l * ms) (s * ml) with h | h | h
    · exact ⟨fun hx => absurd hx (hlt h).not_gt, fun hx => absurd hx h.not_gt⟩
    · exact ⟨fun hx => absurd (heq h) hx.ne', fun hx => absurd h hx.ne'⟩
    · exact ⟨fun _ => h, fun _ => hgt h⟩
  · rcases lt_trichotomy (l * ms) (s * ml) with h | h | h
    · exact ⟨fun hx => absurd hx (hlt h).ne, fun hx => absurd hx h.ne⟩
    · exact ⟨fun _ => h, fun _ => heq h⟩
    · exact ⟨fun hx => absurd hx (hgt h).ne', fun hx => absurd hx h.ne'⟩
  · rcases lt_trichotomy (l * ms) (s * ml) with h | h | h
    · exact ⟨fun _ => h, fun _ => hlt h⟩
    · exact ⟨fun hx => absurd (heq h) hx.ne, fun hx => absurd h hx.ne⟩
    · exact ⟨fun hx => absurd hx (hgt h).not_gt, fun hx => absurd hx h.not_gt⟩
  · have e1 := abs_le.1 (signedDouble_err ((l : ℚ) / ml))
    have e2 := abs_le.1 (signedDouble_err ((s : ℚ) / ms))
    have e3 := abs_le.1 (signedDouble_err (signedDouble ((l : ℚ) / ml) - signedDouble ((s : ℚ) / ms)))
    rw [abs_of_nonneg p1] at e1
    rw [abs_of_nonneg p2] at e2
    have k1 : (l : ℚ) / ml / 2 ^ 53 ≤ 1 / 2 ^ 53 := div_le_div_of_nonneg_right q1 (by norm_num)
    have k2 : (s : ℚ) / ms / 2 ^ 53 ≤ 1 / 2 ^ 53 := div_le_div_of_nonneg_right q2 (by norm_num)
    have k3 := div_le_div_of_nonneg_right habs (show (0 : ℚ) ≤ 2 ^ 53 by norm_num)
    have k4 : (1 : ℚ) / 2 ^ 53 + 1 / 2 ^ 53 + 1 / 2 ^ 53 ≤ 1 / 2 ^ 51 := by norm_num
    rw [abs_le]
    constructor <;> linarith [e1.1, e1.2, e2.1, e2.2, e3.1, e3.2]
  · refine ⟨below_one hl hs hml hms hm, ?_⟩
    rintro ⟨rfl, rfl⟩
    rw [div_self hmlQ.ne', Nat.cast_zero, zero_div, sd_zero, signedDouble_one, sub_zero, signedDouble_one]
  · refine ⟨fun h => ?_, ?_⟩
    · have := below_one (a := s) (b := ms) (c := l) (d := ml) hs hl hms hml hm' (by
        rw [← neg_sub, signedDouble_neg, h, neg_neg])
      exact ⟨this.2, this.1⟩
    · rintro ⟨rfl, rfl⟩
      rw [div_self hmsQ.ne', Nat.cast_zero, zero_div, sd_zero, signedDouble_one, zero_sub, signedDouble_neg,
        signedDouble_one]

/-! ## The series -/

theorem lookup_mem {s : NanSeries ℚ} {t : ℤ} {x : ℚ} (h : lookup s t = some x) : ∃ p ∈ s, p.2 = some x := by
  unfold lookup at h
  rw [Option.join_eq_some_iff, Option.map_eq_some_iff] at h
  obtain ⟨p, hp, hx⟩ := h
  exact ⟨p, List.mem_of_find?_eq_some hp, hx⟩

/-- Filling with zero does not round. -/
theorem fillIndexR_exact (idx : List ℤ) (s : NanSeries ℚ) (h : ∀ p ∈ s, ∀ x, p.2 = some x → signedDouble x = x) :
    fillIndexR signedDouble idx s 0 = fillIndex idx s 0 := by
  unfold fillIndexR fillIndex alignWith
  simp only [List.map_map, Function.comp_def]
  refine List.map_congr_left fun t _ => ?_
  congr 2
  cases ha : lookup (idx.map fun t => (t, some (0 : ℚ))) t with
  | none => rfl
  | some a =>
    cases hb : lookup s t with
    | none => rfl
    | some b =>
      obtain ⟨p, hp, e⟩ := lookup_mem ha
      obtain ⟨u, -, rfl⟩ := List.mem_map.1 hp
      simp only [Option.some.injEq] at e
      obtain ⟨p', hp', e'⟩ := lookup_mem hb
      simp only [Option.bind_some, Option.map_some, ← e, zero_add, h p' hp' b e']

/-- C295.  For bars in order and events ordered by start, with a long and a short event open at some bar and budgets
whose product is below `2^52`: the function returns a size for each bar, and it is as in `SizeOk`. -/
theorem C295_budget (bars : List ℤ) (hs : bars.Pairwise (· < ·)) (last : ℤ)
    (hlast : bars.getLast? = some last) (events : List (ℤ × Option ℤ × ℚ))
    (hord : (events.map Prod.fst).Pairwise (· ≤ ·)) (ml ms : ℕ)
    (hml : IsGreatest {x | ∃ t ∈ bars, running (sideEvents events 1 last) t = x} ml) (hml0 : 0 < ml)
    (hms : IsGreatest {x | ∃ t ∈ bars, running (sideEvents events (-1) last) t = x} ms) (hms0 : 0 < ms)
    (hm : ml * ms < 2 ^ 52) :
    ∃ size : ℤ → ℚ,
      budgetedPositionSizeR signedDouble bars events npMax = .ok (bars.map fun t => (t, some (size t))) ∧
      ∀ t ∈ bars, SizeOk (running (sideEvents events 1 last) t) ml (running (sideEvents events (-1) last) t) ms
        (size t) := by
  have hex : ∀ v : ℚ, ∀ m, IsGreatest {x | ∃ t ∈ bars, running (sideEvents events v last) t = x} m →
      0 < m → ∃ e ∈ events, e.2.2 = v := by
    rintro v m ⟨⟨t, -, ht⟩, -⟩ hm
    by_contra hc
    push Not at hc
    have : sideEvents events v last = [] := by
      unfold sideEvents
      rw [List.filter_eq_nil_iff.2 (by simpa using hc), List.map_nil]
    rw [this] at ht
    simp [running] at ht
    omega
  obtain ⟨rl, hl1, hl2, hl3, hl4⟩ := counts_of_side bars hs last hlast events hord 1 (hex 1 ml hml hml0)
  obtain ⟨rs, hs1, hs2, hs3, hs4⟩ :=
    counts_of_side bars hs last hlast events hord (-1) (hex (-1) ms hms hms0)
  have hmlK : (ml : ℚ) ≠ 0 := by exact_mod_cast hml0.ne'
  have hmsK : (ms : ℚ) ≠ 0 := by exact_mod_cast hms0.ne'
  have fl := fill_counts (K := ℚ) bars hs rl _ hl2 hl3 hl4 (fun c => (fdiv (c : ℚ) (ml : ℚ)).map signedDouble)
    (by simp [fdiv, hmlK, sd_zero])
  have fs := fill_counts (K := ℚ) bars hs rs _ hs2 hs3 hs4 (fun c => (fdiv (c : ℚ) (ms : ℚ)).map signedDouble)
    (by simp [fdiv, hmsK, sd_zero])
  have hdbl : ∀ (r : Series ℕ) (b : ℚ), ∀ p ∈ r.map fun p => (p.1, (fdiv (p.2 : ℚ) b).map signedDouble),
      ∀ x, p.2 = some x → signedDouble x = x := by
    intro r b p hp x hx
    obtain ⟨q, -, rfl⟩ := List.mem_map.1 hp
    obtain ⟨y, -, rfl⟩ := Option.map_eq_some_iff.1 hx
    exact signedDouble_idem y
  refine ⟨fun t => signedDouble (signedDouble ((running (sideEvents events 1 last) t : ℚ) / ml) -
    signedDouble ((running (sideEvents events (-1) last) t : ℚ) / ms)), ?_, ?_⟩
  · unfold budgetedPositionSizeR
    rw [hl1, py_bind_ok, hs1, py_bind_ok, max_counts bars rl _ hl3 hl4 ml hml hml0, py_bind_ok,
      max_counts bars rs _ hs3 hs4 ms hms hms0, py_bind_ok]
    unfold divSeriesR
    rw [fillIndexR_exact _ _ (hdbl _ _), fillIndexR_exact _ _ (hdbl _ _), fl, fs, align_map bars hs]
    simp [fdiv, hmlK, hmsK]
  · intro t ht
    exact size_ok (hml.2 ⟨t, ht, rfl⟩) (hms.2 ⟨t, ht, rfl⟩) hml0 hms0 hm

theorem align_swapR (a b : NanSeries ℚ) : alignWith (fun x y => signedDouble (x - y)) b a =
    negSeries (alignWith (fun x y => signedDouble (x - y)) a b) := by
  unfold alignWith negSeries
  rw [unionIndex_comm, List.map_map]
  apply List.map_congr_left
  intro t _
  simp only [Function.comp, Prod.mk.injEq, true_and]
  cases lookup a t with
  | none => cases lookup b t <;> rfl
  | some x =>
    cases lookup b t with
    | none => rfl
    | some y =>
      simp only [Option.bind_some, Option.map_some]
      rw [← signedDouble_neg, neg_sub]

/-- C295: with all sides reversed the sizes in doubles change their sign, whatever the budget function. -/
theorem C295_mirror (bars : List ℤ) (events : List (ℤ × Option ℤ × ℚ)) (budgetFn : List ℚ → Py ℚ) (s : NanSeries ℚ)
    (h : budgetedPositionSizeR signedDouble bars events budgetFn = .ok s) :
    budgetedPositionSizeR signedDouble bars (events.map flipSide) budgetFn = .ok (negSeries s) := by
  unfold budgetedPositionSizeR at h ⊢
  obtain ⟨l, hl, h⟩ := py_bind_eq_ok.1 h
  obtain ⟨sh, hs, h⟩ := py_bind_eq_ok.1 h
  obtain ⟨bl, hbl, h⟩ := py_bind_eq_ok.1 h
  obtain ⟨bs, hbs, h⟩ := py_bind_eq_ok.1 h
  rw [ofSide_flip, ofSide_flip, neg_neg, hs, hl]
  simp only [py_bind_ok, hbs, hbl]
  rw [align_swapR]
  simp only [py_pure, Except.ok.injEq] at h ⊢
  rw [h]

/-- The hypotheses are met: one of three long and one of three short events open at bar 1 give size zero, though a
third is not a double, after size one and before size minus one. -/
example : ∃ size : ℤ → ℚ, budgetedPositionSizeR signedDouble [0, 1, 2] [(0, some 0, 1), (0, some 0, 1), (0, some 1, 1),
    (1, some 2, -1), (2, some 2, -1), (2, some 2, -1)] npMax =
      .ok [(0, some (size 0)), (1, some (size 1)), (2, some (size 2))] ∧ size 0 = 1 ∧ size 1 = 0 ∧ size 2 = -1 := by
  obtain ⟨size, h, ok⟩ := C295_budget [0, 1, 2] (by decide) 2 rfl [(0, some 0, 1), (0, some 0, 1), (0, some 1, 1),
    (1, some 2, -1), (2, some 2, -1), (2, some 2, -1)] (by decide) 3 3
    ⟨⟨0, by decide +kernel⟩, by
      rintro x ⟨t, ht, rfl⟩
      revert t
      decide +kernel⟩ (by norm_num)
    ⟨⟨2, by decide +kernel⟩, by
      rintro x ⟨t, ht, rfl⟩
      revert t
      decide +kernel⟩ (by norm_num) (by norm_num)
  refine ⟨size, h, ?_, ?_, ?_⟩
  · exact (ok 0 (by simp)).2.2.2.2.2.1.2 (by decide +kernel)
  · exact (ok 1 (by simp)).2.2.1.2 (by decide +kernel)
  · exact (ok 2 (by simp)).2.2.2.2.2.2.2 (by decide +kernel)

end FinML.Alloc
