import Verif.Alloc.HrpDoubleModel
import Verif.Alloc.HrpProps
import Verif.Alloc.DoubleProps

/-! # Recursive bisection in doubles (C274) -/

namespace FinML.Alloc

/-- `BisectR rd var w g res`: the weight `w` is spread over the group `g` by halving it repeatedly, with rounding. -/
inductive BisectR (rd : ℚ → ℚ) (var : List ℕ → ℚ) : ℚ → List ℕ → List (ℕ × ℚ) → Prop
  | nil (w : ℚ) : BisectR rd var w [] []
  | one (w : ℚ) (i : ℕ) : BisectR rd var w [i] [(i, w)]
  | split (w : ℚ) (a b : List ℕ) (ra rb : List (ℕ × ℚ)) (hne : a ≠ [])
      (hlen : b.length = a.length ∨ b.length = a.length + 1)
      (ha : BisectR rd var (rd (w * alphaR rd (var a) (var b))) a ra)
      (hb : BisectR rd var (rd (w * rd (1 - alphaR rd (var a) (var b)))) b rb) :
      BisectR rd var w (a ++ b) (ra ++ rb)

theorem scaleR_map (rd : ℚ → ℚ) (order part : List ℕ) (f : ℕ → ℚ) (a : ℚ) :
    scaleR rd (order.map fun i => (i, f i)) part a =
      order.map fun i => (i, if i ∈ part then rd (f i * a) else f i) := by
  unfold scaleR
  rw [List.map_map]
  apply List.map_congr_left
  intro i _
  by_cases h : i ∈ part <;> simp [h]

theorem splitR_eq (rd : ℚ → ℚ) (var : List ℕ → ℚ) (order a b : List ℕ) (f : ℕ → ℚ) (hdis : a.Disjoint b) :
    ∃ f' : ℕ → ℚ, splitR rd var a b (order.map fun i => (i, f i)) = order.map (fun i => (i, f' i)) ∧
      (∀ i ∈ a, f' i = rd (f i * alphaR rd (var a) (var b))) ∧
      (∀ i ∈ b, f' i = rd (f i * rd (1 - alphaR rd (var a) (var b)))) ∧
      ∀ i, i ∉ a → i ∉ b → f' i = f i := by
  unfold splitR
  simp only [scaleR_map]
  refine ⟨_, rfl, ?_, ?_, ?_⟩
  · intro i hi
    have : i ∉ b := fun h => hdis hi h
    simp only [hi, this, if_true, if_false]
  · intro i hi
    have : i ∉ a := fun h => hdis h hi
    simp only [hi, this, if_true, if_false]
  · intro i h1 h2
    simp [h1, h2]

theorem pairLoopR_spec (rd : ℚ → ℚ) (var : List ℕ → ℚ) (order : List ℕ) (ps : List (List ℕ)) (f : ℕ → ℚ)
    (hnd : ∀ p ∈ ps, p.Nodup) (hdis : ps.Pairwise List.Disjoint) :
    ∃ f' : ℕ → ℚ, pairLoopR rd var (ps.flatMap halves) (order.map fun i => (i, f i)) =
        order.map (fun i => (i, f' i)) ∧
      (∀ i, (∀ p ∈ ps, i ∉ p) → f' i = f i) ∧
      (∀ p ∈ ps, p.length ≤ 1 → ∀ i ∈ p, f' i = f i) ∧
      ∀ p ∈ ps, 1 < p.length →
        (∀ i ∈ p.take (p.length / 2), f' i = rd (f i *
          alphaR rd (var (p.take (p.length / 2))) (var (p.drop (p.length / 2))))) ∧
        (∀ i ∈ p.drop (p.length / 2), f' i = rd (f i *
          rd (1 - alphaR rd (var (p.take (p.length / 2))) (var (p.drop (p.length / 2)))))) := by
  induction ps generalizing f with
  | nil => exact ⟨f, by simp [pairLoopR]⟩
  | cons p ps ih =>
    rw [List.pairwise_cons] at hdis
    have ihp := fun f => ih f (fun q hq => hnd q (by simp [hq])) hdis.2
    by_cases hl : 1 < p.length
    · set a := p.take (p.length / 2) with ha
      set b := p.drop (p.length / 2) with hb
      have hab : p = a ++ b := (List.take_append_drop _ _).symm
      have hdab : a.Disjoint b := by
        have := hnd p (by simp)
        rw [hab] at this
        exact (List.nodup_append.1 this).2.2 |> fun h x hx hy => h x hx x hy rfl
      have hia : a <:+: p := (List.take_prefix _ _).isInfix
      have hib : b <:+: p := (List.drop_suffix _ _).isInfix
      obtain ⟨f1, h1, h2, h3, h4⟩ := splitR_eq rd var order a b f hdab
      obtain ⟨f2, g1, g2, g3, g4⟩ := ihp f1
      have hrest : ∀ i ∈ p, f2 i = f1 i := fun i hi => g2 i fun q hq hiq => hdis.1 q hq hi hiq
      have hother : ∀ q ∈ ps, ∀ i ∈ q, f1 i = f i := fun q hq i hi =>
        h4 i (fun h => hdis.1 q hq (hia.subset h) hi) (fun h => hdis.1 q hq (hib.subset h) hi)
      refine ⟨f2, ?_, ?_, ?_, ?_⟩
      · rw [List.flatMap_cons, halves_of_lt p hl, ← ha, ← hb]
        simp only [List.cons_append, List.nil_append, pairLoopR]
        rw [h1, g1]
      · intro i hi
        rw [g2 i fun q hq => hi q (by simp [hq]), h4 i (fun h => hi p (by simp) (hia.subset h))
          (fun h => hi p (by simp) (hib.subset h))]
      · intro q hq hql i hi
        rcases List.mem_cons.1 hq with rfl | hq
        · omega
        · rw [g3 q hq hql i hi, hother q hq i hi]
      · intro q hq hql
        rcases List.mem_cons.1 hq with rfl | hq
        · refine ⟨fun i hi => ?_, fun i hi => ?_⟩
          · rw [hrest i (hia.subset hi), h2 i hi]
          · rw [hrest i (hib.subset hi), h3 i hi]
        · obtain ⟨e1, e2⟩ := g4 q hq hql
          refine ⟨fun i hi => ?_, fun i hi => ?_⟩
          · rw [e1 i hi, hother q hq i (List.mem_of_mem_take hi)]
          · rw [e2 i hi, hother q hq i (List.mem_of_mem_drop hi)]
    · obtain ⟨f2, g1, g2, g3, g4⟩ := ihp f
      refine ⟨f2, ?_, ?_, ?_, ?_⟩
      · rw [List.flatMap_cons, halves_of_le p (by omega), List.nil_append, g1]
      · exact fun i hi => g2 i fun q hq => hi q (by simp [hq])
      · intro q hq hql i hi
        rcases List.mem_cons.1 hq with rfl | hq
        · exact g2 i fun r hr hir => hdis.1 r hr hi hir
        · exact g3 q hq hql i hi
      · intro q hq hql
        rcases List.mem_cons.1 hq with rfl | hq
        · exact absurd hql hl
        · exact g4 q hq hql

theorem bisectLoopR_spec (rd : ℚ → ℚ) (var : List ℕ → ℚ) (order : List ℕ) (fuel : ℕ) (ps : List (List ℕ)) (f : ℕ → ℚ)
    (hfuel : ∀ p ∈ ps, p.length < fuel)
    (hnd : ∀ p ∈ ps, p.Nodup) (hdis : ps.Pairwise List.Disjoint) :
    ∃ f' : ℕ → ℚ, bisectLoopR rd var fuel ps (order.map fun i => (i, f i)) = order.map (fun i => (i, f' i)) ∧
      (∀ i, (∀ p ∈ ps, i ∉ p) → f' i = f i) ∧
      ∀ p ∈ ps, ∀ w, (∀ i ∈ p, f i = w) → BisectR rd var w p (p.map fun i => (i, f' i)) := by
  induction fuel generalizing ps f with
  | zero =>
    have : ps = [] := List.eq_nil_iff_forall_not_mem.2 fun p hp => absurd (hfuel p hp) (by omega)
    subst this
    exact ⟨f, by simp [bisectLoopR]⟩
  | succ fuel ih =>
    by_cases hps : ps = []
    · subst hps
      exact ⟨f, by simp [bisectLoopR]⟩
    obtain ⟨f1, h1, h2, h3, h4⟩ := pairLoopR_spec rd var order ps f hnd hdis
    have hmem : ∀ q ∈ ps.flatMap halves, ∃ p ∈ ps, q ∈ halves p := fun q hq => List.mem_flatMap.1 hq
    have hdis' : (ps.flatMap halves).Pairwise List.Disjoint := by
      rw [List.pairwise_flatMap]
      refine ⟨fun p hp => ?_, hdis.imp fun {p q} hpq a ha b hb => ?_⟩
      · by_cases hl : 1 < p.length
        · rw [halves_of_lt p hl]
          simp only [List.pairwise_cons, List.mem_cons, List.not_mem_nil, or_false, forall_eq,
            IsEmpty.forall_iff, implies_true, List.Pairwise.nil, and_self, and_true]
          have := hnd p hp
          rw [← List.take_append_drop (p.length / 2) p, List.nodup_append] at this
          exact fun x hx hy => this.2.2 x hx x hy rfl
        · rw [halves_of_le p (by omega)]
          exact List.Pairwise.nil
      · exact fun x hx hy => hpq ((mem_halves p a ha).1.subset hx) ((mem_halves q b hb).1.subset hy)
    obtain ⟨f2, g1, g2, g3⟩ := ih (ps.flatMap halves) f1
      (fun q hq => by
        obtain ⟨p, hp, hqp⟩ := hmem q hq
        have := hfuel p hp
        have := (mem_halves p q hqp).2.1
        omega)
      (fun q hq => by
        obtain ⟨p, hp, hqp⟩ := hmem q hq
        exact (hnd p hp).sublist (mem_halves p q hqp).1.sublist)
      hdis'
    refine ⟨f2, ?_, ?_, ?_⟩
    · unfold bisectLoopR
      rw [if_neg hps, h1, g1]
    · intro i hi
      rw [g2 i, h2 i hi]
      intro q hq hiq
      obtain ⟨p, hp, hqp⟩ := hmem q hq
      exact hi p hp ((mem_halves p q hqp).1.subset hiq)
    · intro p hp w hw
      by_cases hl : 1 < p.length
      · obtain ⟨e1, e2⟩ := h4 p hp hl
        have hin : ∀ q ∈ halves p, q ∈ ps.flatMap halves := fun q hq => List.mem_flatMap.2 ⟨p, hp, hq⟩
        rw [halves_of_lt p hl] at hin
        have ba := g3 _ (hin (p.take (p.length / 2)) (by simp)) _ (fun i hi => by
          rw [e1 i hi, hw i (List.mem_of_mem_take hi)])
        have bb := g3 _ (hin (p.drop (p.length / 2)) (by simp)) _ (fun i hi => by
          rw [e2 i hi, hw i (List.mem_of_mem_drop hi)])
        have := BisectR.split w _ _ _ _ (take_ne_nil p hl) (by simp; omega) ba bb
        rwa [← List.map_append, List.take_append_drop] at this
      · match p, hl with
        | [], _ => exact .nil w
        | [i], _ =>
          have : f2 i = w := by
            rw [g2 i, h3 [i] hp (by simp) i (by simp), hw i (by simp)]
            intro q hq hiq
            obtain ⟨p', hp', hqp⟩ := hmem q hq
            have hip' := (mem_halves p' q hqp).1.subset hiq
            by_cases hpp : p' = [i]
            · subst hpp
              simp [halves] at hqp
            · have : Std.Symm (List.Disjoint (α := ℕ)) := ⟨fun _ _ h => h.symm⟩
              exact hdis.forall hp' hp hpp hip' (by simp)
          simp only [List.map_cons, List.map_nil, this]
          exact .one w i
        | _ :: _ :: _, hl => simp at hl

theorem bisectionR (rd : ℚ → ℚ) (var : List ℕ → ℚ) (order : List ℕ) (hnd : order.Nodup) :
    (recursiveBisectionR rd var order).map Prod.fst = order ∧ BisectR rd var 1 order (recursiveBisectionR rd var order) := by
  obtain ⟨f', h1, -, h3⟩ := bisectLoopR_spec rd var order (order.length + 1) [order] (fun _ => 1)
    (by simp) (by simpa using hnd) (by simp)
  unfold recursiveBisectionR
  rw [h1]
  exact ⟨by simp [Function.comp_def], h3 order (by simp) 1 (by simp)⟩

theorem sd_zero : signedDouble 0 = 0 := by simpa using signedDouble_nat 0 (by norm_num)

theorem sd_unit {x : ℚ} (h0 : 0 ≤ x) (h1 : x ≤ 1) : 0 ≤ signedDouble x ∧ signedDouble x ≤ 1 := by
  have a := signedDouble_mono h0
  have b := signedDouble_mono h1
  rw [sd_zero] at a
  rw [signedDouble_one] at b
  exact ⟨a, b⟩

theorem sd_rel {q : ℚ} (hq : 0 ≤ q) : q * (1 - 1 / 2 ^ 53) ≤ signedDouble q ∧ signedDouble q ≤ q * (1 + 1 / 2 ^ 53) := by
  have h := signedDouble_err q
  rw [abs_of_nonneg hq, abs_le] at h
  constructor <;> linarith [h.1, h.2]

theorem alpha_unit {x y : ℚ} (hx : 0 < x) (hy : 0 < y) (hd : signedDouble x = x) :
    0 ≤ alphaR signedDouble x y ∧ alphaR signedDouble x y ≤ 1 := by
  have h1 : x ≤ signedDouble (x + y) := by
    have := signedDouble_mono (show x ≤ x + y by linarith)
    rwa [hd] at this
  have hpos : 0 < signedDouble (x + y) := lt_of_lt_of_le hx h1
  obtain ⟨a, b⟩ := sd_unit (div_nonneg hx.le hpos.le) ((div_le_one hpos).2 h1)
  exact sd_unit (by linarith) (by linarith)

theorem BisectR.bounds {var : List ℕ → ℚ} (hv : ∀ g, 0 < var g) (hd : ∀ g, signedDouble (var g) = var g) {w : ℚ} {g : List ℕ}
    {res : List (ℕ × ℚ)} (h : BisectR signedDouble var w g res) (hne : g ≠ []) (D : ℕ) (hD : g.length ≤ 2 ^ D) (h0 : 0 ≤ w)
    (h1 : w ≤ 1) :
    w * (1 - 1 / 2 ^ 53) ^ (2 * D) ≤ (res.map Prod.snd).sum ∧ (res.map Prod.snd).sum ≤ w * (1 + 1 / 2 ^ 53) ^ (2 * D) ∧
    ∀ p ∈ res, 0 ≤ p.2 ∧ p.2 ≤ 1 := by
  induction h generalizing D with
  | nil w => exact absurd rfl hne
  | one w i =>
    have hlo : (1 - 1 / 2 ^ 53 : ℚ) ^ (2 * D) ≤ 1 := pow_le_one₀ (by norm_num) (by norm_num)
    have hhi : (1 : ℚ) ≤ (1 + 1 / 2 ^ 53) ^ (2 * D) := one_le_pow₀ (by norm_num)
    refine ⟨?_, ?_, ?_⟩
    · simpa using mul_le_of_le_one_right h0 hlo
    · simpa using le_mul_of_one_le_right h0 hhi
    · intro p hp
      rw [List.mem_singleton] at hp
      subst hp
      exact ⟨h0, h1⟩
  | split w a b ra rb ha hlen _ _ iha ihb =>
    obtain ⟨A0, A1⟩ := alpha_unit (hv a) (hv b) (hd a)
    generalize alphaR signedDouble (var a) (var b) = α at *
    obtain ⟨B0, B1⟩ := sd_unit (x := 1 - α) (by linarith) (by linarith)
    obtain ⟨Bl, Bh⟩ := sd_rel (q := 1 - α) (by linarith)
    generalize signedDouble (1 - α) = β at *
    have wa0 := mul_nonneg h0 A0
    have wb0 := mul_nonneg h0 B0
    obtain ⟨P0, P1⟩ := sd_unit wa0 (mul_le_one₀ h1 A0 A1)
    obtain ⟨Q0, Q1⟩ := sd_unit wb0 (mul_le_one₀ h1 B0 B1)
    obtain ⟨Pl, Ph⟩ := sd_rel wa0
    obtain ⟨Ql, Qh⟩ := sd_rel wb0
    have hal : 0 < a.length := List.length_pos_iff.2 ha
    have hb : b ≠ [] := by
      rintro rfl
      simp at hlen
      omega
    rw [List.length_append] at hD
    obtain ⟨E, rfl⟩ : ∃ E, D = E + 1 := by
      cases D with
      | zero =>
        rw [pow_zero] at hD
        omega
      | succ E => exact ⟨E, rfl⟩
    rw [pow_succ] at hD
    obtain ⟨a1, a2, a3⟩ := iha ha E (by omega) P0 P1
    obtain ⟨b1, b2, b3⟩ := ihb hb E (by omega) Q0 Q1
    have el : (1 - 1 / 2 ^ 53 : ℚ) ^ (2 * (E + 1)) = (1 - 1 / 2 ^ 53) ^ 2 * (1 - 1 / 2 ^ 53) ^ (2 * E) := by
      rw [← pow_add]
      congr 1
      ring
    have eh : (1 + 1 / 2 ^ 53 : ℚ) ^ (2 * (E + 1)) = (1 + 1 / 2 ^ 53) ^ 2 * (1 + 1 / 2 ^ 53) ^ (2 * E) := by
      rw [← pow_add]
      congr 1
      ring
    have pl : (0 : ℚ) ≤ (1 - 1 / 2 ^ 53) ^ (2 * E) := pow_nonneg (by norm_num) _
    have ph : (0 : ℚ) ≤ (1 + 1 / 2 ^ 53) ^ (2 * E) := pow_nonneg (by norm_num) _
    rw [el, eh, List.map_append, List.sum_append]
    generalize (1 - 1 / 2 ^ 53 : ℚ) ^ (2 * E) = L at *
    generalize (1 + 1 / 2 ^ 53 : ℚ) ^ (2 * E) = H at *
    generalize signedDouble (w * α) = x at *
    generalize signedDouble (w * β) = y at *
    obtain ⟨u, hu⟩ : ∃ u : ℚ, u = 1 / 2 ^ 53 := ⟨_, rfl⟩
    have u0 : 0 ≤ u := by
      rw [hu]
      norm_num
    have u1 : u ≤ 1 := by
      rw [hu]
      norm_num
    rw [← hu] at Pl Ph Ql Qh Bl Bh ⊢
    have low : w * (1 - u) ^ 2 ≤ x + y := by
      have e1 : w * ((1 - α) * (1 - u)) ≤ w * β := mul_le_mul_of_nonneg_left Bl h0
      have e2 := mul_le_mul_of_nonneg_right e1 (show 0 ≤ 1 - u by linarith)
      have e3 : 0 ≤ w * α * ((1 - u) * u) := mul_nonneg wa0 (mul_nonneg (by linarith) u0)
      nlinarith
    have high : x + y ≤ w * (1 + u) ^ 2 := by
      have e1 : w * β ≤ w * ((1 - α) * (1 + u)) := mul_le_mul_of_nonneg_left Bh h0
      have e2 := mul_le_mul_of_nonneg_right e1 (show 0 ≤ 1 + u by linarith)
      have e3 : 0 ≤ w * α * ((1 + u) * u) := mul_nonneg wa0 (mul_nonneg (by linarith) u0)
      nlinarith
    refine ⟨?_, ?_, ?_⟩
    · have := mul_le_mul_of_nonneg_right low pl
      nlinarith
    · have := mul_le_mul_of_nonneg_right high ph
      nlinarith
    · intro p hp
      rcases List.mem_append.1 hp with hp | hp
      · exact a3 p hp
      · exact b3 p hp

/-- C274, full statement: whatever the positive variances of the clusters, the double weights of HRP belong to the assets, are
positive and not above one, and add up to one exactly. -/
def DoubleAllocation : Prop :=
  ∀ (var : List ℕ → ℚ), (∀ g, 0 < var g) → (∀ g, signedDouble (var g) = var g) → ∀ order : List ℕ, order.Nodup → order ≠ [] →
    (recursiveBisectionR signedDouble var order).map Prod.fst = order ∧
    (∀ p ∈ recursiveBisectionR signedDouble var order, 0 < p.2 ∧ p.2 ≤ 1) ∧
    ((recursiveBisectionR signedDouble var order).map Prod.snd).sum = 1

/-- The variances of the witness: asset 0 is 2^60 times as risky as any other cluster. -/
def starvedVar : List ℕ → ℚ := fun g => if g = [0] then 2 ^ 60 else 1

theorem starved_eval : recursiveBisectionR signedDouble starvedVar [0, 1] = [(0, 0), (1, 1)] := by decide +kernel

/-- C274 is false for the code: of two assets, one 2^60 times as risky as the other, the risky one gets weight zero. -/
theorem C274_positive_counterexample : ¬ DoubleAllocation := by
  intro h
  have hd : ∀ g, signedDouble (starvedVar g) = starvedVar g := by
    intro g
    unfold starvedVar
    split
    · decide +kernel
    · exact signedDouble_one
  have hp : ∀ g, 0 < starvedVar g := by
    intro g
    unfold starvedVar
    split <;> norm_num
  obtain ⟨-, h2, -⟩ := h starvedVar hp hd [0, 1] (by decide) (by decide)
  rw [starved_eval] at h2
  exact absurd (h2 (0, 0) (by simp)).1 (lt_irrefl 0)

/-- The variances of the second witness. -/
def thirdsVar : List ℕ → ℚ := fun g => (g.headD 0 : ℚ) + 1

theorem thirds_eval : ((recursiveBisectionR signedDouble thirdsVar [0, 1, 2, 3, 4]).map Prod.snd).sum ≠ 1 := by decide +kernel

/-- C274: the sum of the double weights can differ from one, here for five assets. -/
theorem C274_sum_counterexample : ∃ (var : List ℕ → ℚ) (order : List ℕ), (∀ g, 0 < var g) ∧ order.Nodup ∧
    ((recursiveBisectionR signedDouble var order).map Prod.snd).sum ≠ 1 :=
  ⟨thirdsVar, [0, 1, 2, 3, 4], fun g => by
    unfold thirdsVar
    positivity, by decide, thirds_eval⟩

/-- C274, the part that holds: the double weights of HRP belong to the assets, lie between zero and one, and their exact sum is
within 2·D relative roundings of one when there are at most 2^D assets.
Missing from the full statement: positivity and an exact sum, both false. -/
theorem C274_allocation_partial (var : List ℕ → ℚ) (hv : ∀ g, 0 < var g) (hd : ∀ g, signedDouble (var g) = var g)
    (order : List ℕ) (hnd : order.Nodup) (hne : order ≠ []) (D : ℕ) (hD : order.length ≤ 2 ^ D) :
    (recursiveBisectionR signedDouble var order).map Prod.fst = order ∧
    (∀ p ∈ recursiveBisectionR signedDouble var order, 0 ≤ p.2 ∧ p.2 ≤ 1) ∧
    (1 - 1 / 2 ^ 53) ^ (2 * D) ≤ ((recursiveBisectionR signedDouble var order).map Prod.snd).sum ∧
    ((recursiveBisectionR signedDouble var order).map Prod.snd).sum ≤ (1 + 1 / 2 ^ 53) ^ (2 * D) := by
  obtain ⟨h1, h2⟩ := bisectionR signedDouble var order hnd
  obtain ⟨a, b, c⟩ := h2.bounds hv hd hne D hD zero_le_one le_rfl
  rw [one_mul] at a b
  exact ⟨h1, c, a, b⟩

/-- C274, the part that holds: the share of a half is zero only when its variance is far above that of the other
half: a half whose variance is at most 2^51 times the other's keeps a positive share, and so does the other. -/
theorem C274_positive_partial {x y : ℚ} (hx : 0 < x) (hy : 0 < y) (h : x ≤ 2 ^ 51 * y) (h' : y ≤ 2 ^ 51 * x) :
    0 < alphaR signedDouble x y ∧ 0 < signedDouble (1 - alphaR signedDouble x y) := by
  have hs : 0 < x + y := by linarith
  obtain ⟨s1, s2⟩ := sd_rel hs.le
  unfold alphaR
  generalize signedDouble (x + y) = s at *
  have hs0 : 0 < s := by nlinarith
  obtain ⟨r1, r2⟩ := sd_rel (div_nonneg hx.le hs0.le)
  have q1 : x / s ≤ 1 - 5 / 2 ^ 54 := by
    rw [div_le_iff₀ hs0]
    nlinarith
  have q2 : 7 / 2 ^ 54 ≤ x / s := by
    rw [le_div_iff₀ hs0]
    nlinarith
  generalize x / s = q at *
  generalize signedDouble q = r at *
  have hr : 0 < 1 - r := by nlinarith
  obtain ⟨t1, t2⟩ := sd_rel hr.le
  generalize signedDouble (1 - r) = t at *
  have ht : 0 < t := by nlinarith
  have ht' : 0 < 1 - t := by nlinarith
  exact ⟨ht, by
    have := (sd_rel ht'.le).1
    nlinarith⟩

/-- The hypotheses are met: five assets with different variances. -/
example : ∃ (var : List ℕ → ℚ) (order : List ℕ) (D : ℕ), (∀ g, 0 < var g) ∧ (∀ g, signedDouble (var g) = var g) ∧ order.Nodup ∧
    order ≠ [] ∧ order.length ≤ 2 ^ D :=
  ⟨starvedVar, [4, 0, 2, 1, 3], 3, fun g => by unfold starvedVar; split <;> norm_num, fun g => by
    unfold starvedVar
    split
    · decide +kernel
    · exact signedDouble_one, by decide, by decide, by decide⟩

end FinML.Alloc
