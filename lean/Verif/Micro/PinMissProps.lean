import Verif.Micro.ImpactMissProps

/-!
# VPIN of ticks with missing values (C355)

A tick whose flag is NaN is neither bought nor sold, and `sum` of a group skips a missing volume.
-/

set_option linter.unusedSectionVars false

namespace FinML.Micro

open Bars (tickRule tickRuleM tickRuleFrom tickRuleMFrom changeM flagM)

section Pin

variable {K : Type} [Field K] [LinearOrder K] [IsStrictOrderedRing K]

/-- Ticks without gap that agree with `ticks` where these are known; a missing volume is 0. -/
def FillsTicks (fill : List (BTick K)) (ticks : List (BTickM K)) : Prop :=
  List.Forall₂ (fun (f : BTick K) (t : BTickM K) => (∀ x, t.price = some x → f.price = x) ∧ f.volume = t.volume.getD 0 ∧
    f.bar = t.bar) fill ticks

/-- C355, the full claim: VPIN with missing prices is the one of some prices in their place. -/
def PinOfSomeFill (K : Type) [Field K] [LinearOrder K] [IsStrictOrderedRing K] : Prop :=
  ∀ (ticks : List (BTickM K)) (vpb b0 : K) (n : ℕ), 0 < vpb → 1 ≤ n → (b0 = 1 ∨ b0 = -1) →
    ∃ fill, FillsTicks fill ticks ∧ vpinM ticks vpb n b0 = vpin fill vpb n b0

/-- The volume traded in bar `k` by ticks whose flag is missing. -/
def unflagged (ticks : List (BTickM K)) (b0 : K) (k : ℤ) : K :=
  (((ticks.zip (tickRuleM b0 (ticks.map fun t => t.price))).filter fun p => p.1.bar = k ∧ p.2 = none).map
    fun p => |p.1.volume.getD 0|).sum

/-- Bought minus sold volume of bar `k`, as far as known. -/
def imbalanceM (ticks : List (BTickM K)) (b0 : K) (k : ℤ) : K :=
  (((ticks.zip (tickRuleM b0 (ticks.map fun t => t.price))).filter fun p => p.1.bar = k).map
    fun p => p.1.volume.getD 0 * p.2.getD 0).sum

theorem filled_flags_from (prices : List (Option K)) (fill : List K)
    (h : List.Forall₂ (fun (f : K) (p : Option K) => ∀ x, p = some x → f = x) fill prices) (f p : Option K) (t a : K)
    (hf : f = none ∨ f = some t) (hp : ∀ x, p = some x → a = x) :
    List.Forall₂ (fun x y => x = none ∨ x = some y) (tickRuleMFrom f p prices) (tickRuleFrom t a fill) := by
  induction h generalizing f p t a with
  | nil => exact .nil
  | @cons b q fl qs hq _ ih =>
    rw [tickRuleMFrom, tickRuleFrom]
    refine .cons ?_ (ih _ _ _ _ ?_ hq) <;>
    · cases p with
      | none => exact .inl rfl
      | some x =>
        cases q with
        | none => exact .inl rfl
        | some y =>
          rw [hp x rfl, hq y rfl]
          by_cases hd : y - x = 0
          · rcases hf with rfl | rfl <;> simp [flagM, changeM, hd]
          · right
            simp [flagM, changeM, hd]

/-- A known flag is the one with any prices in the gaps. -/
theorem filled_flags (b0 : K) (prices : List (Option K)) (fill : List K)
    (h : List.Forall₂ (fun (f : K) (p : Option K) => ∀ x, p = some x → f = x) fill prices) :
    List.Forall₂ (fun x y => x = none ∨ x = some y) (tickRuleM b0 prices) (tickRule b0 fill) := by
  cases h with
  | nil => exact .nil
  | cons hq ht =>
    rw [tickRuleM, tickRule]
    exact .cons (.inr rfl) (filled_flags_from _ _ ht _ _ _ _ (.inr rfl) hq)

theorem netVolumeM_eq (t : BTickM K) (a : Option K) (h : a = none ∨ a = some 1 ∨ a = some (-1)) :
    (netVolumeM t a).getD 0 = t.volume.getD 0 * a.getD 0 := by
  have hne : (1 : K) ≠ -1 := by
    intro h
    have h2 : (0 : K) < 1 + 1 := by positivity
    linarith
  unfold netVolumeM
  cases hv : t.volume with
  | none => simp
  | some v => rcases h with rfl | rfl | rfl <;> simp [hne, hne.symm]

theorem flagsM_mem (b0 : K) (hb : b0 = 1 ∨ b0 = -1) (prices : List (Option K)) (a : Option K)
    (ha : a ∈ tickRuleM b0 prices) : a = none ∨ a = some 1 ∨ a = some (-1) := by
  have hf : List.Forall₂ (fun (f : K) (p : Option K) => ∀ x, p = some x → f = x) (prices.map fun p => p.getD 0) prices := by
    clear ha
    induction prices with
    | nil => exact .nil
    | cons p ps ih => exact .cons (by rintro x rfl; rfl) ih
  obtain ⟨i, hi, rfl⟩ := List.getElem_of_mem ha
  have h := filled_flags b0 prices _ hf
  have hi' : i < (tickRule b0 (prices.map fun p => p.getD 0)).length := h.length_eq ▸ hi
  rcases List.Forall₂.get h hi hi' with h | h
  · exact .inl h
  · rcases Bars.C58_tick_rule_flags b0 hb _ _ (List.getElem_mem hi') with h' | h'
    · right; left
      simpa [h'] using h
    · right; right
      simpa [h'] using h

theorem sum_reduceOption (l : List (Option K)) : l.reduceOption.sum = (l.map fun o => o.getD 0).sum := by
  induction l with
  | nil => rfl
  | cons o l ih =>
    cases o with
    | none => rw [List.reduceOption_cons_of_none, ih]; simp
    | some v => rw [List.reduceOption_cons_of_some, List.sum_cons, ih]; simp

theorem netM_sum (ticks : List (BTickM K)) (b0 : K) (hb : b0 = 1 ∨ b0 = -1) (k : ℤ) :
    ((((ticks.map fun t => t.bar).zip (List.zipWith netVolumeM ticks (tickRuleM b0 (ticks.map fun t => t.price)))).filter
      fun p => p.1 = k).map Prod.snd).reduceOption.sum = imbalanceM ticks b0 k := by
  rw [sum_reduceOption]
  unfold imbalanceM
  have hm := flagsM_mem b0 hb (ticks.map fun t => t.price)
  generalize tickRuleM b0 (ticks.map fun t => t.price) = fl at hm ⊢
  congr 1
  induction ticks generalizing fl with
  | nil => simp
  | cons t ts ih =>
    cases fl with
    | nil => simp
    | cons a fl =>
      have ih' := ih fl (fun x hx => hm x (List.mem_cons_of_mem _ hx))
      have ha := netVolumeM_eq t a (hm a (by simp))
      simp only [List.map_cons, List.zipWith_cons_cons, List.zip_cons_cons, List.filter_cons]
      by_cases h : t.bar = k
      · simp only [h, decide_true, if_true, List.map_cons, ha, ih']
      · simp only [h, decide_false, Bool.false_eq_true, if_false, ih']

/-- The bars in order. -/
def barIdsM (ticks : List (BTickM K)) : List ℤ := (ticks.map fun t => t.bar).dedup.insertionSort (· ≤ ·)

/-- C355.  The value at every bar: the known imbalance of the last `n` bars. -/
theorem C355_value (ticks : List (BTickM K)) (vpb b0 : K) (n : ℕ) (hn : 1 ≤ n) (hv : 0 < vpb) (hb : b0 = 1 ∨ b0 = -1) :
    (vpinM ticks vpb n b0).map Prod.fst = barIdsM ticks ∧
    Has ((vpinM ticks vpb n b0).map Prod.snd) (barIdsM ticks).length (n - 1) fun i =>
      |∑ j ∈ Finset.range n, imbalanceM ticks b0 ((barIdsM ticks).getD (i + 1 - n + j) 0)| / ((n : K) * vpb) := by
  have hn0 : (n : K) * vpb ≠ 0 := by
    have : (0 : K) < n := by exact_mod_cast hn
    positivity
  have hkeys : (groupBy (ticks.map fun t => t.bar)
      (List.zipWith netVolumeM ticks (tickRuleM b0 (ticks.map fun t => t.price)))).map Prod.fst = barIdsM ticks := by
    unfold groupBy barIdsM
    rw [List.map_map]
    exact List.map_id _
  have hsums : (groupBy (ticks.map fun t => t.bar)
      (List.zipWith netVolumeM ticks (tickRuleM b0 (ticks.map fun t => t.price)))).map (fun p => some p.2.reduceOption.sum) =
      ((barIdsM ticks).map (imbalanceM ticks b0)).map some := by
    unfold groupBy barIdsM
    rw [List.map_map, List.map_map]
    apply List.map_congr_left
    intro k _
    simp only [Function.comp_apply]
    rw [netM_sum ticks b0 hb k]
  have h1 := has_map_some ((barIdsM ticks).map (imbalanceM ticks b0)) 0
  rw [List.length_map] at h1
  have h2 := has_rolling h1 n hn List.sum
  have h3 := has_map h2 (fun v => |v| / ((n : K) * vpb))
  have heq : (fun s : Option K => s.bind fun v => fdiv |v| ((n : K) * vpb)) =
      Option.map fun v => |v| / ((n : K) * vpb) := by
    funext s
    cases s with
    | none => rfl
    | some v => simp [fdiv, hn0]
  have hlen := h3.1
  unfold vpinM
  simp only [hkeys, hsums, heq]
  refine ⟨List.map_fst_zip (by rw [hlen]), ?_⟩
  rw [List.map_snd_zip (by rw [hlen])]
  rw [Nat.zero_add] at h3
  refine has_congr h3 ?_
  intro i hi hlo
  rw [list_range_map_sum]
  congr 2
  refine Finset.sum_congr rfl ?_
  intro j hj
  rw [Finset.mem_range] at hj
  rw [List.getD_eq_getElem?_getD, List.getElem?_map, List.getElem?_eq_getElem (by omega),
    List.getD_eq_getElem?_getD, List.getElem?_eq_getElem (by omega)]
  rfl

theorem filled_bars (fill : List (BTick K)) (ticks : List (BTickM K)) (h : FillsTicks fill ticks) :
    fill.map (fun t => t.bar) = ticks.map fun t => t.bar := by
  induction h with
  | nil => rfl
  | cons hx _ ih => rw [List.map_cons, List.map_cons, ih, hx.2.2]

theorem filled_prices (fill : List (BTick K)) (ticks : List (BTickM K)) (h : FillsTicks fill ticks) :
    List.Forall₂ (fun (f : K) (p : Option K) => ∀ x, p = some x → f = x) (fill.map fun t => t.price)
      (ticks.map fun t => t.price) := by
  induction h with
  | nil => exact .nil
  | cons hx _ ih => exact .cons hx.1 ih

/-- The imbalance with any prices in the gaps differs by at most the volume without flag. -/
theorem imbalance_filled (fill : List (BTick K)) (ticks : List (BTickM K)) (h : FillsTicks fill ticks) (b0 : K)
    (hb : b0 = 1 ∨ b0 = -1) (k : ℤ) : |imbalanceM ticks b0 k - imbalance fill b0 k| ≤ unflagged ticks b0 k := by
  have hfl := filled_flags b0 _ _ (filled_prices fill ticks h)
  have hm : ∀ a ∈ flags fill b0, a = 1 ∨ a = -1 := Bars.C58_tick_rule_flags b0 hb _
  unfold imbalanceM imbalance unflagged
  unfold flags at hm ⊢
  generalize tickRuleM b0 (ticks.map fun t => t.price) = x at hfl ⊢
  generalize tickRule b0 (fill.map fun t => t.price) = y at hfl hm ⊢
  induction h generalizing x y with
  | nil => simp
  | @cons f t fs ts hx _ ih =>
    cases hfl with
    | nil => simp
    | @cons a c x y hac hxy =>
      have ih' := ih x y hxy (fun z hz => hm z (List.mem_cons_of_mem _ hz))
      have hc := hm c (by simp)
      simp only [List.zip_cons_cons, List.filter_cons, hx.2.2]
      by_cases hk : t.bar = k
      · rcases hac with rfl | rfl
        · simp only [hk, decide_true, if_true, and_self, List.map_cons, List.sum_cons, hx.2.1, Option.getD_none, mul_zero, zero_add]
          have habs : |t.volume.getD 0 * c| = |t.volume.getD 0| := by
            rcases hc with rfl | rfl <;> simp
          calc _ = |(((ts.zip x).filter fun p => p.1.bar = k).map fun p => p.1.volume.getD 0 * p.2.getD 0).sum -
                (((fs.zip y).filter fun p => p.1.bar = k).map fun p => p.1.volume * p.2).sum - t.volume.getD 0 * c| := by
                congr 1; ring
            _ ≤ _ := abs_sub _ _
            _ ≤ _ := by rw [habs, add_comm]; exact add_le_add_right ih' _
        · simp only [hk, decide_true, if_true, List.map_cons, List.sum_cons, hx.2.1, Option.getD_some, reduceCtorEq, and_false,
            decide_false, Bool.false_eq_true, if_false, add_sub_add_left_eq_sub]
          exact ih'
      · simp only [hk, false_and, decide_false, Bool.false_eq_true, if_false]
        exact ih'

/-- C355.  Whatever the missing prices, VPIN is off by at most the volume without flag of the window (missing from the full claim:
that there be prices for which it is right). -/
theorem C355_fill_partial (fill : List (BTick K)) (ticks : List (BTickM K)) (h : FillsTicks fill ticks) (vpb b0 : K) (n : ℕ)
    (hn : 1 ≤ n) (hv : 0 < vpb) (hb : b0 = 1 ∨ b0 = -1) (i : ℕ) (v w : K)
    (h1 : ((vpinM ticks vpb n b0).map Prod.snd)[i]? = some (some v))
    (h2 : ((vpin fill vpb n b0).map Prod.snd)[i]? = some (some w)) :
    |v - w| ≤ (∑ j ∈ Finset.range n, unflagged ticks b0 ((barIdsM ticks).getD (i + 1 - n + j) 0)) / ((n : K) * vpb) := by
  have hn0 : (0 : K) < (n : K) * vpb := by
    have : (0 : K) < n := by exact_mod_cast hn
    positivity
  have hids : barIds fill = barIdsM ticks := by
    unfold barIds barIdsM
    rw [filled_bars fill ticks h]
  obtain ⟨-, g1⟩ := C355_value ticks vpb b0 n hn hv hb
  obtain ⟨col, e, g2⟩ := vpin_eq fill vpb b0 n hn hv hb
  rw [e, List.map_snd_zip (by rw [g2.1])] at h2
  rw [hids] at g2
  have hi : i < (barIdsM ticks).length := by
    by_contra hc
    rw [List.getElem?_eq_none (by rw [g1.1]; omega)] at h1
    cases h1
  have k1 := g1.2 i hi
  have k2 := g2.2 i hi
  rw [h1] at k1
  rw [h2] at k2
  split_ifs at k1 k2 with hlo
  · cases k1
  simp only [Option.some.injEq] at k1 k2
  subst k1 k2
  rw [← sub_div, abs_div, abs_of_pos hn0, div_le_div_iff_of_pos_right hn0]
  refine (abs_abs_sub_abs_le_abs_sub _ _).trans ?_
  rw [← Finset.sum_sub_distrib]
  exact (Finset.abs_sum_le_sum_abs _ _).trans (Finset.sum_le_sum fun j _ => imbalance_filled fill ticks h b0 hb _)

/-- C355.  With all values known this is the model of C62. -/
theorem C355_complete (ticks : List (BTick K)) (vpb b0 : K) (n : ℕ) :
    vpinM (ticks.map BTick.known) vpb n b0 = vpin ticks vpb n b0 := by
  have e1 : (ticks.map BTick.known).map (fun t => t.bar) = ticks.map fun t => t.bar := by rw [List.map_map]; rfl
  have e2 : (ticks.map BTick.known).map (fun t => t.price) = (ticks.map fun t => t.price).map some := by
    rw [List.map_map, List.map_map]; rfl
  have e3 : ∀ fl : List K, List.zipWith netVolumeM (ticks.map BTick.known) (fl.map some) =
      (List.zipWith netVolume ticks fl).map some := by
    intro fl
    rw [List.zipWith_map, List.map_zipWith]
    congr 1
    funext t a
    simp [netVolumeM, netVolume, BTick.known]
  unfold vpinM vpin
  simp only [e1, e2, Bars.C348_complete, e3, groupBy_map]
  rw [List.map_map, List.map_map]
  have e4 : ((fun p : ℤ × List (Option K) => some p.2.reduceOption.sum) ∘ fun p : ℤ × List K => (p.1, p.2.map some)) =
      fun p => some p.2.sum := by
    funext p
    simp only [Function.comp_apply, reduceOption_map_some]
  rw [e4]
  rfl

end Pin

/-- Two ticks of one bar, the second without price. -/
def noPrice : List (BTickM ℚ) := [⟨some 1, some 1, 0⟩, ⟨none, some 1, 0⟩]

/-- C355.  Bought or sold, two ticks of volume 1 have an imbalance of 0 or 2; reported is 1. -/
theorem C355_counterexample : ¬ PinOfSomeFill ℚ := by
  intro h
  obtain ⟨fill, hf, he⟩ := h noPrice 2 1 1 (by norm_num) le_rfl (.inl rfl)
  have hv : vpinM noPrice 2 1 1 = [(0, some (1 / 2))] := by decide +kernel
  unfold FillsTicks noPrice at hf
  match fill, hf with
  | [a, b], hf =>
    simp only [List.forall₂_cons, List.forall₂_nil_left_iff, Option.some.injEq, forall_eq', and_true, Option.getD_some] at hf
    obtain ⟨⟨ha, hav, hab⟩, ⟨-, hbv, hbb⟩⟩ := hf
    obtain ⟨col, e, hc⟩ := vpin_eq [a, b] 2 1 1 le_rfl (by norm_num) (.inl rfl)
    rw [hv, e] at he
    have hids : barIds [a, b] = [0] := by
      simp [barIds, hab, hbb]
    rw [hids] at he hc
    have h0 := hc.2 0 (by simp)
    have hfl := Bars.C58_tick_rule_flags (1 : ℚ) (.inl rfl) [a.price, b.price]
    have himb : imbalance [a, b] 1 0 = 0 ∨ imbalance [a, b] 1 0 = 2 := by
      unfold imbalance flags
      obtain ⟨c, hc⟩ : ∃ c, tickRule (1 : ℚ) [a.price, b.price] = [1, c] := ⟨_, rfl⟩
      rw [hc] at hfl
      simp only [List.map_cons, List.map_nil, hc, List.zip_cons_cons, List.zip_nil_left, List.filter_cons, hab, hbb, decide_true,
        if_true, List.filter_nil, hav, hbv, List.sum_cons, List.sum_nil]
      rcases hfl c (by simp) with rfl | rfl <;> norm_num
    match col, hc.1 with
    | [o], _ =>
      simp only [List.zip_cons_cons, List.zip_nil_left, List.cons.injEq, Prod.mk.injEq, true_and, and_true] at he
      subst he
      rcases himb with h1 | h1 <;> norm_num [h1] at h0

example : FillsTicks [(⟨1, 1, 0⟩ : BTick ℚ), ⟨5, 1, 0⟩] noPrice ∧
    (vpin [(⟨1, 1, 0⟩ : BTick ℚ), ⟨5, 1, 0⟩] 2 1 1).map Prod.snd = [some 1] ∧ unflagged noPrice 1 0 = 1 := by
  refine ⟨?_, by decide +kernel, by decide +kernel⟩
  simp [FillsTicks, noPrice]

end FinML.Micro
