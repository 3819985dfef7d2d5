import Verif.Metrics.HoldDoubleModel
import Verif.Metrics.PosProps
import Verif.Bars.VwapDoubleProps
import Verif.Filters.DoubleProps

/-!
# Holding period in doubles (C296)
-/

namespace FinML.Metrics

open FinML.Alloc FinML.Weights FinML.Bars FinML.Filters

/-! ## Sums of numbers of either sign -/

theorem perm_pairs {l l' : List ℚ} (h : l.Perm l') : ∀ ps : List (ℚ × ℚ), ps.map Prod.fst = l →
    ∃ ps' : List (ℚ × ℚ), ps'.map Prod.fst = l' ∧ ps.Perm ps' := by
  induction h with
  | nil => exact fun ps h => ⟨ps, h, List.Perm.refl _⟩
  | cons x _ ih =>
    intro ps h
    cases ps with
    | nil => simp at h
    | cons p ps =>
      simp only [List.map_cons, List.cons.injEq] at h
      obtain ⟨ps', h1, h2⟩ := ih ps h.2
      exact ⟨p :: ps', by simp [h.1, h1], h2.cons p⟩
  | swap x y l =>
    intro ps h
    match ps, h with
    | p :: p' :: ps, h =>
      simp only [List.map_cons, List.cons.injEq] at h
      exact ⟨p' :: p :: ps, by simp [h.1, h.2.1, h.2.2], List.Perm.swap _ _ _⟩
  | trans _ _ ih1 ih2 =>
    intro ps h
    obtain ⟨ps1, h1, p1⟩ := ih1 ps h
    obtain ⟨ps2, h2, p2⟩ := ih2 ps1 h1
    exact ⟨ps2, h2, p1.trans p2⟩

/-- A rounded sum is the sum with every term multiplied by its own factor. -/
theorem rsum_factors {l : List ℚ} {s : ℚ} (h : RSum signedDouble l s) :
    1 ≤ l.length ∧ ∃ ps : List (ℚ × ℚ), ps.map Prod.fst = l ∧ (∀ p ∈ ps, Near (l.length - 1) p.2) ∧
      s = (ps.map fun p => p.1 * p.2).sum := by
  induction h with
  | one x => exact ⟨by simp, [(x, 1)], rfl, by simpa using near_one 0, by simp⟩
  | @add l1 l2 s1 s2 _ _ ih1 ih2 =>
    obtain ⟨n1, p1, e1, f1, r1⟩ := ih1
    obtain ⟨n2, p2, e2, f2, r2⟩ := ih2
    obtain ⟨f, hf, nf⟩ := sd_factor (s1 + s2)
    refine ⟨by rw [List.length_append]; omega, (p1 ++ p2).map fun p => (p.1, p.2 * f), ?_, ?_, ?_⟩
    · rw [List.map_map]
      show List.map Prod.fst (p1 ++ p2) = _
      rw [List.map_append, e1, e2]
    · intro p hp
      obtain ⟨r, hr, rfl⟩ := List.mem_map.1 hp
      rw [List.length_append]
      rcases List.mem_append.1 hr with hr | hr
      · exact near_mono (near_mul (f1 r hr) nf) (by omega)
      · exact near_mono (near_mul (f2 r hr) nf) (by omega)
    · rw [hf, r1, r2, ← List.sum_append, ← List.map_append, List.map_map, ← List.sum_map_mul_right]
      congr 1
      refine List.map_congr_left fun p _ => ?_
      simp only [Function.comp]
      ring
  | perm hp _ ih =>
    obtain ⟨n1, p1, e1, f1, r1⟩ := ih
    obtain ⟨p2, e2, hpp⟩ := perm_pairs hp p1 e1
    refine ⟨by rw [← hp.length_eq]; exact n1, p2, e2, ?_, ?_⟩
    · intro p h
      rw [← hp.length_eq]
      exact f1 p (hpp.mem_iff.2 h)
    · rw [r1, (hpp.map _).sum_eq]

theorem sum_appr {A : Type} (k : ℕ) (l : List A) (N n B : A → ℚ) (h : ∀ a ∈ l, Appr k (N a) (n a) (B a)) :
    Appr k (l.map N).sum (l.map n).sum (l.map B).sum := by
  induction l with
  | nil => exact ⟨by simp, by simp⟩
  | cons a l ih =>
    simp only [List.map_cons, List.sum_cons]
    exact appr_add (h a (by simp)) (ih fun b hb => h b (by simp [hb]))

/-! ## One step -/

theorem sd_nonneg_iff {x : ℚ} : 0 ≤ signedDouble x ↔ 0 ≤ x := by
  obtain ⟨f, hf, nf⟩ := sd_factor x
  rw [hf]
  exact ⟨fun h => nonneg_of_mul_nonneg_left h (near_pos nf), fun h => mul_nonneg h (near_pos nf).le⟩

theorem sd_neg_iff {x : ℚ} : signedDouble x < 0 ↔ x < 0 := by
  rw [← not_le, ← not_le, sd_nonneg_iff]

theorem growing_iff (p q : ℚ) : 0 ≤ signedDouble (signedDouble (q - p) * p) ↔ 0 ≤ (q - p) * p := by
  obtain ⟨f, hf, nf⟩ := sd_factor (q - p)
  rw [sd_nonneg_iff, hf, show (q - p) * f * p = (q - p) * p * f by ring]
  exact ⟨fun h => nonneg_of_mul_nonneg_left h (near_pos nf), fun h => mul_nonneg h (near_pos nf).le⟩

/-- The factor of a day count. -/
theorem daysR_near (t0 t : ℤ) : ∃ f, daysR signedDouble t0 t = days t0 t * f ∧ Near 2 f := by
  obtain ⟨f, hf, nf⟩ := sd_factor ((t - t0 : ℤ) : ℚ)
  obtain ⟨g, hg, ng⟩ := sd_factor (signedDouble ((t - t0 : ℤ) : ℚ) / (dayNs : ℚ))
  refine ⟨f * g, ?_, near_mul nf ng⟩
  unfold daysR
  rw [hg, hf]
  unfold days dayNs
  norm_num
  ring

/-- A closed position in doubles against the exact one: `T` days at most. -/
def CloseTo (N : ℕ) (T : ℚ) (cR c : Closed ℚ) : Prop :=
  Appr (3 * N + 1) cR.1 c.1 (2 * T) ∧ (∃ f, cR.2 = c.2 * f ∧ Near 1 f) ∧ 0 < c.2 ∧ signedDouble cR.2 = cR.2

theorem sd_abs (x : ℚ) : signedDouble |x| = |signedDouble x| := by
  rcases le_total 0 x with h | h
  · rw [abs_of_nonneg h, abs_of_nonneg (sd_nonneg_iff.2 h)]
  · have : signedDouble x ≤ 0 := by
      have := sd_nonneg_iff.2 (neg_nonneg.2 h)
      rw [signedDouble_neg] at this
      linarith
    rw [abs_of_nonpos h, abs_of_nonpos this, signedDouble_neg]

theorem near_appr {k : ℕ} {x f A : ℚ} (hx : 0 ≤ x) (hA : x ≤ A) (n : Near k f) : Appr k (x * f) x A := by
  refine ⟨by rwa [abs_of_nonneg hx], ?_⟩
  rw [show x * f - x = x * (f - 1) by ring, abs_mul, abs_of_nonneg hx, mul_comm (growth k - 1)]
  exact mul_le_mul hA (near_abs n) (abs_nonneg _) (hx.trans hA)

theorem dt_appr {m N : ℕ} {t e f g T : ℚ} (he : 0 ≤ e) (het : e ≤ t) (hT : t ≤ T) (nf : Near 2 f) (ng : Near (3 * m + 3) g)
    (hN : m + 1 ≤ N) : Appr (3 * N + 1) (signedDouble (t * f - e * g)) (t - e) (2 * T) := by
  have a1 : Appr (3 * N) (t * f) t T := near_appr (he.trans het) hT (near_mono nf (by omega))
  have a2 : Appr (3 * N) (e * g) e T := near_appr he (het.trans hT) (near_mono ng (by omega))
  have a3 : Appr (3 * N) (-(e * g)) (-e) T := ⟨by rw [abs_neg]; exact a2.1, by
    rw [← neg_sub', abs_neg]; exact a2.2⟩
  have := appr_sd (appr_add a1 a3)
  rwa [← sub_eq_add_neg, ← sub_eq_add_neg, ← two_mul] at this

/-- One step in doubles follows the exact one. -/
theorem step_rel {m N : ℕ} {p q t T f g : ℚ} {st stR : HoldState ℚ} (hp : signedDouble p = p)
    (he : 0 ≤ st.1) (het : st.1 ≤ t) (hT : t ≤ T) (nf : Near 2 f) (ng : Near (3 * m + 3) g) (hg : stR.1 = st.1 * g)
    (hN : m + 1 ≤ N) (hcl : List.Forall₂ (CloseTo N T) stR.2 st.2) :
    (∃ g', (holdStepR signedDouble p q (t * f) stR).1 = (holdStep p q t st).1 * g' ∧ Near (3 * (m + 1) + 3) g') ∧
      List.Forall₂ (CloseTo N T) (holdStepR signedDouble p q (t * f) stR).2 (holdStep p q t st).2 := by
  have hdt : Appr (3 * N + 1) (signedDouble (t * f - stR.1)) (t - st.1) (2 * T) := by
    rw [hg]
    exact dt_appr he het hT nf ng hN
  unfold holdStepR
  rcases holdStep_cases p q t st with ⟨h, habs, hqp, ⟨hq, hs⟩ | ⟨hq, hp0, hs⟩⟩ | ⟨h, hs⟩ | ⟨h, habs, hd, hs⟩
  · rw [if_pos ((growing_iff p q).2 h), if_pos hq, hs]
    refine ⟨?_, hcl⟩
    obtain ⟨f1, h1, n1⟩ := sd_factor (stR.1 * p)
    obtain ⟨f2, h2, n2⟩ := sd_factor (q - p)
    obtain ⟨f3, h3, n3⟩ := sd_factor (t * f * signedDouble (q - p))
    obtain ⟨f4, h4, n4⟩ := sd_factor (signedDouble (stR.1 * p) + signedDouble (t * f * signedDouble (q - p)))
    obtain ⟨f5, h5, n5⟩ := sd_factor
      (signedDouble (signedDouble (stR.1 * p) + signedDouble (t * f * signedDouble (q - p))) / q)
    have hx : 0 ≤ st.1 * (p / q) := by
      refine mul_nonneg he ?_
      rw [show p / q = q * p / (q * q) by field_simp]
      exact div_nonneg hqp (mul_self_nonneg q)
    have hy : 0 ≤ t * ((q - p) / q) := by
      refine mul_nonneg (he.trans het) ?_
      have := (entry_bounds (e := 0) (t := 1) h hq hqp zero_le_one).1
      simpa using this
    obtain ⟨g', e', n'⟩ := near_add (near_mono (near_mul ng n1) (show 3 * m + 3 + 1 ≤ 3 * m + 4 by omega))
      (near_mono (near_mul (near_mul nf n2) n3) (show 2 + 1 + 1 ≤ 3 * m + 4 by omega)) hx hy
    refine ⟨g' * (f4 * f5), ?_, near_mono (near_mul n' (near_mul n4 n5)) (by omega)⟩
    show signedDouble _ = (st.1 * p + t * (q - p)) / q * (g' * (f4 * f5))
    rw [h5, h4, h3, h2, h1, hg]
    have e2 : (st.1 * p + t * (q - p)) / q * g' =
        st.1 * (p / q) * (g * f1) + t * ((q - p) / q) * (f * f2 * f3) := by
      rw [e']
      congr 1
      field_simp
    rw [← mul_assoc ((st.1 * p + t * (q - p)) / q), e2]
    field_simp
  · subst hq hp0
    rw [if_pos ((growing_iff 0 0).2 h), if_neg (by simp), hs]
    exact ⟨⟨g, hg, near_mono ng (by omega)⟩, hcl⟩
  · have hneg : ¬ 0 ≤ (q - p) * p := by
      intro hc
      linarith [mul_self_nonneg p, sub_mul q p p]
    have hp0 : p ≠ 0 := by rintro rfl; simp at h
    rw [if_neg (fun hc => hneg ((growing_iff p q).1 hc)), if_pos (sd_neg_iff.2 h), hs]
    refine ⟨⟨f, rfl, near_mono nf (by omega)⟩, ?_⟩
    refine List.rel_append hcl (List.Forall₂.cons ⟨hdt, ⟨1, by simp, near_one 1⟩, abs_pos.2 hp0, ?_⟩ .nil)
    show signedDouble |p| = |p|
    rw [sd_abs, hp]
  · have hneg : ¬ 0 ≤ (q - p) * p := by
      intro hc
      have hqp : p * p ≤ q * p := by linarith [sub_mul q p p]
      have : |p| * |p| ≤ |q| * |p| := by
        rw [← abs_mul, ← abs_mul, abs_of_nonneg h, abs_of_nonneg (mul_self_nonneg p)]; exact hqp
      have hp0 : 0 < |p| := (abs_nonneg q).trans_lt habs
      exact absurd (le_of_mul_le_mul_right this hp0) (not_le.2 habs)
    rw [if_neg (fun hc => hneg ((growing_iff p q).1 hc)), if_neg (fun hc => absurd (sd_neg_iff.1 hc) (not_lt.2 h)), hs]
    refine ⟨⟨g, hg, near_mono ng (by omega)⟩, ?_⟩
    obtain ⟨f1, h1, n1⟩ := sd_factor |q - p|
    refine List.rel_append hcl (List.Forall₂.cons ⟨hdt, ⟨f1, ?_, n1⟩, ?_, ?_⟩ .nil)
    · show |signedDouble (q - p)| = _
      rw [← sd_abs, h1]
    · show 0 < |q - p|
      rw [hd]
      linarith
    · show signedDouble |signedDouble (q - p)| = |signedDouble (q - p)|
      rw [sd_abs, signedDouble_idem]

theorem loop_rel (t0 : ℤ) (rest : Ser ℚ) : ∀ (u : ℤ) (p : ℚ) (st stR : HoldState ℚ) (T : ℚ) (m N : ℕ) (g : ℚ),
    (((u, p) :: rest).map Prod.fst).Pairwise (· < ·) → (∀ x ∈ (u, p) :: rest, days t0 x.1 ≤ T) →
    (∀ x ∈ (u, p) :: rest, signedDouble x.2 = x.2) → 0 ≤ st.1 → st.1 ≤ days t0 u →
    (∀ c ∈ st.2, 0 ≤ c.1 ∧ c.1 ≤ T ∧ 0 < c.2) → stR.1 = st.1 * g → Near (3 * m + 3) g → m + rest.length ≤ N →
    List.Forall₂ (CloseTo N T) stR.2 st.2 →
    List.Forall₂ (CloseTo N T) (holdLoopR signedDouble t0 p stR rest).2 (holdLoop t0 p st rest).2 := by
  induction rest with
  | nil => intro u p st stR T m N g _ _ _ _ _ _ _ _ _ hcl; exact hcl
  | cons y rest ih =>
    intro u p st stR T m N g hs hT hd h0 hu hcl hg ng hN hrel
    obtain ⟨t, q⟩ := y
    have hut : u < t := (List.pairwise_cons.1 hs).1 t (by simp)
    have hdt : st.1 ≤ days t0 t := by
      have h1 : (0 : ℚ) ≤ days u t := days_nonneg hut.le
      have h2 : (days t0 u : ℚ) + days u t = days t0 t := days_add _ _ _
      linarith
    have hTt : days t0 t ≤ T := hT (t, q) (by simp)
    obtain ⟨a1, a2, a3, -, -⟩ := holdStep_spec p q (days t0 t) T st h0 hdt hTt hcl
    obtain ⟨f, hf, nf⟩ := daysR_near t0 t
    rw [List.length_cons] at hN
    obtain ⟨⟨g', hg', ng'⟩, hrel'⟩ := step_rel (q := q) (hd (u, p) (by simp)) h0 hdt hTt nf ng hg (by omega) hrel
    have e1 : holdLoopR signedDouble t0 p stR ((t, q) :: rest) =
        holdLoopR signedDouble t0 q (holdStepR signedDouble p q (days t0 t * f) stR) rest := by
      rw [holdLoopR, hf]
    have e2 : holdLoop t0 p st ((t, q) :: rest) = holdLoop t0 q (holdStep p q (days t0 t) st) rest := rfl
    rw [e1, e2]
    exact ih t q _ _ T (m + 1) N g' (List.pairwise_cons.1 hs).2 (fun x hx => hT x (List.mem_cons_of_mem _ hx))
      (fun x hx => hd x (List.mem_cons_of_mem _ hx)) a1 a2 a3 hg' ng' (by omega) hrel'

/-! ## The average -/

theorem average_rel {N n : ℕ} {T : ℚ} {sm : List ℚ → ℚ} (hsm : Adds sm) {cR c : List (Closed ℚ)}
    (h : List.Forall₂ (CloseTo N T) cR c) (hn : c.length ≤ n) :
    (holdAverageR signedDouble sm cR = none ↔ holdAverage c = none) ∧
      ∀ a, holdAverage c = some a → ∃ aR, holdAverageR signedDouble sm cR = some aR ∧
        Appr (3 * N + 2 * n + 5) aR a (2 * T) := by
  have hlen := h.length_eq
  -- pairs of closed positions
  have hz : ∀ x ∈ cR.zip c, CloseTo N T x.1 x.2 := fun x hx => (List.forall₂_iff_zip.1 h).2 hx
  have z1 : (cR.zip c).map Prod.fst = cR := List.map_fst_zip (by omega)
  have z2 : (cR.zip c).map Prod.snd = c := List.map_snd_zip (by omega)
  set z := cR.zip c with hzdef
  have hzlen : z.length = c.length := by rw [← z2, List.length_map]
  have w0 : ∀ x ∈ z, 0 < x.2.2 := fun x hx => (hz x hx).2.2.1
  have eW : c.map Prod.snd = z.map fun x => x.2.2 := by rw [← z2, List.map_map]; rfl
  have eWR : cR.map Prod.snd = z.map fun x => x.1.2 := by
    conv_lhs => rw [← z1, List.map_map]
    rfl
  have eP : (c.map fun x => x.1 * x.2) = z.map fun x => x.2.1 * x.2.2 := by rw [← z2, List.map_map]; rfl
  have ePR : (cR.map fun x => signedDouble (x.1 * x.2)) = z.map fun x => signedDouble (x.1.1 * x.1.2) := by
    conv_lhs => rw [← z1, List.map_map]
    rfl
  -- the total weight
  obtain ⟨f1, hf1, nf1⟩ := adds_near hsm (z.map fun x => x.1.2) (by
    intro y hy
    obtain ⟨x, hx, rfl⟩ := List.mem_map.1 hy
    obtain ⟨f, hf, nf⟩ := (hz x hx).2.1
    show 0 ≤ x.1.2
    rw [hf]
    exact (mul_pos (w0 x hx) (near_pos nf)).le) (by
    intro y hy
    obtain ⟨x, hx, rfl⟩ := List.mem_map.1 hy
    exact (hz x hx).2.2.2)
  obtain ⟨f2, hf2, nf2⟩ := sum_near z (fun x => x.2.2) (fun x => x.1.2) 1 (fun x hx => (w0 x hx).le)
    (fun x hx => (hz x hx).2.1)
  rw [hf2] at hf1
  rw [List.length_map] at nf1
  set W := (z.map fun x => x.2.2).sum with hW
  have hWiff : 0 < sm (z.map fun x => x.1.2) ↔ 0 < W := by
    rw [hf1, mul_assoc]
    exact ⟨fun hp => pos_of_mul_pos_left hp (mul_pos (near_pos nf2) (near_pos nf1)).le,
      fun hp => mul_pos hp (mul_pos (near_pos nf2) (near_pos nf1))⟩
  unfold holdAverageR holdAverage
  rw [eW, eWR, eP, ePR]
  by_cases hpos : 0 < W
  · rw [if_pos (hWiff.2 hpos), if_pos hpos]
    refine ⟨by simp, ?_⟩
    rintro a ha
    rw [Option.some.injEq] at ha
    refine ⟨_, rfl, ?_⟩
    have hzne : z ≠ [] := by
      intro h0
      rw [hW, h0] at hpos
      simp at hpos
    -- the weighted sum
    obtain ⟨-, ps, hps, nps, hsum⟩ := rsum_factors (hsm.sum (z.map fun x => signedDouble (x.1.1 * x.1.2))
      (by simpa using hzne) (by
        intro y hy
        obtain ⟨x, -, rfl⟩ := List.mem_map.1 hy
        exact signedDouble_idem _))
    have hplen : ps.length = z.length := by
      have := congrArg List.length hps
      simpa using this
    have y1 : (z.zip ps).map Prod.fst = z := List.map_fst_zip (by omega)
    have y2 : (z.zip ps).map Prod.snd = ps := List.map_snd_zip (by omega)
    have hy : ∀ y ∈ z.zip ps, y.2.1 = signedDouble (y.1.1.1 * y.1.1.2) ∧ y.1 ∈ z ∧ Near (z.length - 1) y.2.2 := by
      intro y hy
      obtain ⟨i, hi, rfl⟩ := List.getElem_of_mem hy
      have hi' : i < z.length ∧ i < ps.length := by simpa using hi
      rw [List.getElem_zip]
      refine ⟨?_, List.getElem_mem _, ?_⟩
      · have e : (ps.map Prod.fst)[i]'(by simpa using hi'.2) =
            (z.map fun x => signedDouble (x.1.1 * x.1.2))[i]'(by simpa using hi'.1) := by
          congr 1
        simpa using e
      · have := nps ps[i] (List.getElem_mem _)
        rwa [List.length_map] at this
    have hS : Appr (3 * N + 3 + n) (sm (z.map fun x => signedDouble (x.1.1 * x.1.2)))
        (z.map fun x => x.2.1 * x.2.2).sum (2 * T * W) := by
      have e1 : sm (z.map fun x => signedDouble (x.1.1 * x.1.2)) =
          ((z.zip ps).map fun y => y.2.1 * y.2.2).sum := by
        rw [hsum]
        conv_lhs => rw [← y2, List.map_map]
        rfl
      have e2 : (z.map fun x => x.2.1 * x.2.2).sum = ((z.zip ps).map fun y => y.1.2.1 * y.1.2.2).sum := by
        conv_lhs => rw [← y1, List.map_map]
        rfl
      have e3 : 2 * T * W = ((z.zip ps).map fun y => 2 * T * y.1.2.2).sum := by
        rw [List.sum_map_mul_left, hW]
        conv_lhs => rw [← y1, List.map_map]
        rfl
      rw [e1, e2, e3]
      refine sum_appr _ _ _ _ _ fun y hyy => ?_
      obtain ⟨he, hmem, nn⟩ := hy y hyy
      obtain ⟨had, ⟨f, hf, nf⟩, hp, -⟩ := hz y.1 hmem
      rw [he]
      have b1 := appr_mul (appr_scale had hp.le) nf
      rw [mul_assoc, ← hf] at b1
      have b2 := appr_mul (appr_sd b1) nn
      exact appr_mono b2 (by omega)
    have hWW : 2 * T * W * (1 / W) = 2 * T := by field_simp
    have b1 := appr_scale hS (show 0 ≤ 1 / W by positivity)
    rw [hWW, mul_one_div, mul_one_div, ha] at b1
    have b2 := appr_sd (appr_mul b1 (near_mul (near_inv nf2) (near_inv nf1)))
    have e4 : sm (z.map fun x => signedDouble (x.1.1 * x.1.2)) / W * (1 / f2 * (1 / f1)) =
        sm (z.map fun x => signedDouble (x.1.1 * x.1.2)) / sm (z.map fun x => x.1.2) := by
      rw [hf1]
      have := (near_pos nf1).ne'
      have := (near_pos nf2).ne'
      field_simp
    rw [e4] at b2
    exact appr_mono b2 (by omega)
  · rw [if_neg (fun hc => hpos (hWiff.1 hc)), if_neg hpos]
    exact ⟨Iff.rfl, fun a ha => by cases ha⟩

theorem closed_length (t0 : ℤ) (rest : Ser ℚ) : ∀ (p : ℚ) (st : HoldState ℚ),
    (holdLoop t0 p st rest).2.length ≤ st.2.length + rest.length := by
  induction rest with
  | nil => intro p st; simp [holdLoop]
  | cons y rest ih =>
    intro p st
    obtain ⟨t, q⟩ := y
    have h1 := ih q (holdStep p q (((t - t0 : ℤ) : ℚ) / (dayNs : ℚ)) st)
    have h2 : (holdStep p q (((t - t0 : ℤ) : ℚ) / (dayNs : ℚ)) st).2.length ≤ st.2.length + 1 := by
      unfold holdStep
      split_ifs <;> simp
    rw [List.length_cons]
    show (holdLoop t0 q _ rest).2.length ≤ _
    omega

/-- C296.  For increasing times and positions that are doubles: the holding period is missing exactly if the position is
never reduced.  Otherwise it is from `-e` to the length of the series plus `e`, where `e` is `n * 2^-48` of that length
for `n` observations, and if the series ends flat it is within `e` of the position-days held per size given up.
Missing from the full claim: that it is between zero and the length, which fails (`C296_span_counterexample`). -/
theorem C296_holding_period_partial (sm : List ℚ → ℚ) (hsm : Adds sm) (s : Ser ℚ) (hne : s ≠ [])
    (hs : (s.map Prod.fst).Pairwise (· < ·)) (hd : ∀ x ∈ s, signedDouble x.2 = x.2) (hn : s.length ≤ 2 ^ 48) :
    ∃ r : Option ℚ, holdingPeriodR signedDouble sm s = .ok r ∧ (r = none ↔ ¬ EverReduced s) ∧
      ∀ h : ℚ, r = some h → ∀ a b : ℤ × ℚ, s.head? = some a → s.getLast? = some b →
        -((s.length : ℚ) / 2 ^ 48 * days a.1 b.1) ≤ h ∧ h ≤ days a.1 b.1 + (s.length : ℚ) / 2 ^ 48 * days a.1 b.1 ∧
        (b.2 = 0 → |h - positionDays s / totalReduced s| ≤ (s.length : ℚ) / 2 ^ 48 * days a.1 b.1) := by
  obtain ⟨r, hr, hnone, hsome⟩ := C92_holding_period s hne hs
  obtain ⟨⟨t0, p⟩, rest, rfl⟩ := List.exists_cons_of_ne_nil hne
  obtain ⟨b, hb⟩ : ∃ b, ((t0, p) :: rest).getLast? = some b := by
    rw [List.getLast?_eq_some_getLast (by simp)]; exact ⟨_, rfl⟩
  have hT : ∀ x ∈ (t0, p) :: rest, (days t0 x.1 : ℚ) ≤ days t0 b.1 := by
    intro x hx
    have hle : x.1 ≤ b.1 := by
      obtain ⟨i, hi, rfl⟩ := List.getElem_of_mem hx
      rw [List.getLast?_eq_getElem?] at hb
      obtain ⟨hl, hb⟩ := List.getElem?_eq_some_iff.1 hb
      rw [← hb]
      rcases Nat.lt_or_ge i (((t0, p) :: rest).length - 1) with h | h
      · have := List.pairwise_iff_getElem.1 hs i (((t0, p) :: rest).length - 1) (by simpa using hi)
          (by simp) h
        rw [List.getElem_map, List.getElem_map] at this
        exact this.le
      · have : i = ((t0, p) :: rest).length - 1 := by omega
        simp [this]
    have h1 : (0 : ℚ) ≤ days x.1 b.1 := days_nonneg hle
    have h2 : (days t0 x.1 : ℚ) + days x.1 b.1 = days t0 b.1 := days_add _ _ _
    linarith
  have h00 : (days t0 t0 : ℚ) = 0 := by simp [days]
  have hrel := loop_rel t0 rest t0 p (0, []) (0, []) (days t0 b.1) 0 rest.length 1 hs hT hd le_rfl (by rw [h00])
    (by simp) (by simp) (near_one _) (by omega) .nil
  have hlen := closed_length t0 rest p (0, [])
  rw [List.length_nil, zero_add] at hlen
  obtain ⟨av1, av2⟩ := average_rel hsm hrel hlen
  have hr' : holdAverage (holdLoop t0 p (0, []) rest).2 = r := by
    have : holdingPeriod ((t0, p) :: rest) = .ok (holdAverage (holdLoop t0 p (0, []) rest).2) := rfl
    rw [this] at hr
    exact Except.ok.inj hr
  refine ⟨holdAverageR signedDouble sm (holdLoopR signedDouble t0 p (0, []) rest).2, rfl, ?_, ?_⟩
  · rw [av1, hr', hnone]
  · intro h hh a b' ha hb'
    obtain rfl : (t0, p) = a := by simpa using ha
    obtain rfl : b = b' := Option.some.inj (hb.symm.trans hb')
    cases hrc : r with
    | none =>
      rw [av1.2 (hr'.trans hrc)] at hh
      cases hh
    | some e =>
      obtain ⟨aR, hR, -, happ⟩ := av2 e (hr'.trans hrc)
      obtain rfl : aR = h := Option.some.inj (hR.symm.trans hh)
      obtain ⟨b1, b2, b3⟩ := hsome e hrc _ b rfl hb
      have hT0 : (0 : ℚ) ≤ days t0 b.1 := by
        have := hT (t0, p) (by simp)
        rwa [h00] at this
      -- the size of the error
      rw [List.length_cons] at hn ⊢
      have hg := growth_le (3 * rest.length + 2 * rest.length + 5) (by omega)
      have key : |aR - e| ≤ ((rest.length + 1 : ℕ) : ℚ) / 2 ^ 48 * days t0 b.1 := by
        refine happ.trans ?_
        calc (growth (3 * rest.length + 2 * rest.length + 5) - 1) * (2 * days t0 b.1)
            ≤ ((3 * rest.length + 2 * rest.length + 5 : ℕ) : ℚ) / 2 ^ 52 * (2 * days t0 b.1) :=
              mul_le_mul_of_nonneg_right hg (by linarith)
          _ = (10 * ((rest.length + 1 : ℕ) : ℚ)) / 2 ^ 52 * days t0 b.1 := by push_cast; ring
          _ ≤ ((rest.length + 1 : ℕ) : ℚ) / 2 ^ 48 * days t0 b.1 := by
              refine mul_le_mul_of_nonneg_right ?_ hT0
              rw [div_le_div_iff₀ (by norm_num) (by norm_num)]
              have : (0 : ℚ) ≤ ((rest.length + 1 : ℕ) : ℚ) := by positivity
              linarith
      obtain ⟨k1, k2⟩ := abs_le.1 key
      exact ⟨by linarith, by linarith, fun hb0 => by rw [← b3 hb0]; exact key⟩

/-- The full claim: the holding period is between zero and the length of the series in days, computed in doubles. -/
def HoldingInside : Prop :=
  ∀ sm : List ℚ → ℚ, Adds sm → ∀ (s : Ser ℚ) (h : ℚ) (a b : ℤ × ℚ), (s.map Prod.fst).Pairwise (· < ·) →
    (∀ x ∈ s, signedDouble x.2 = x.2) → holdingPeriodR signedDouble sm s = .ok (some h) → s.head? = some a →
    s.getLast? = some b → 0 ≤ h ∧ h ≤ daysR signedDouble a.1 b.1

/-- A position of 0.1 held for three days. -/
def threeDays : Ser ℚ := [(0, signedDouble (1 / 10)), (3 * dayNs, 0)]

/-- A position of 0.1 entered after 106 days and left a nanosecond later. -/
def oneNano : Ser ℚ := [(0, 0), (106 * dayNs, signedDouble (1 / 10)), (106 * dayNs + 1, 0)]

/-- C296, counterexamples: a position of 0.1 held throughout three days has a holding period of more than three days, and
one entered after 106 days and left a nanosecond later has a negative one. -/
theorem C296_span_counterexample : ¬ HoldingInside ∧
    (∃ h, holdingPeriodR signedDouble (leftSum signedDouble) threeDays = .ok (some h) ∧ 3 < h) ∧
    (∃ h, holdingPeriodR signedDouble (leftSum signedDouble) oneNano = .ok (some h) ∧ h < 0) := by
  have h1 : holdingPeriodR signedDouble (leftSum signedDouble) threeDays = .ok (some (3 + 1 / 2 ^ 51)) := by
    decide +kernel
  have h2 : holdingPeriodR signedDouble (leftSum signedDouble) oneNano = .ok (some (-1 / 2 ^ 46)) := by
    decide +kernel
  refine ⟨fun h => ?_, ⟨_, h1, by norm_num⟩, ⟨_, h2, by norm_num⟩⟩
  have := (h _ C286_sum oneNano _ _ _ (by decide) (by decide +kernel) h2 rfl rfl).1
  norm_num at this

end FinML.Metrics
