import Verif.Options.RateFloatModel
import Verif.Options.ChainProps

/-! # Property C307: the implied rate with quotes that imply no bond price -/

namespace FinML.Options

open FinML.Filters (npMedian)

theorem insertionSort_of_perm {l s : List EReal} (hp : l.Perm s) (hs : s.Pairwise (· ≤ ·)) :
    l.insertionSort (· ≤ ·) = s :=
  ((List.perm_insertionSort _ l).trans hp).eq_of_pairwise' (List.pairwise_insertionSort _ _) hs

theorem medianE_of_perm {l s : List EReal} (hp : l.Perm s) (hs : s.Pairwise (· ≤ ·)) (hne : s ≠ []) :
    medianE l = if s.length % 2 = 1 then some (s.getD (s.length / 2) 0)
      else middle (s.getD (s.length / 2 - 1) 0) (s.getD (s.length / 2) 0) := by
  unfold medianE
  have hl : l ≠ [] := by
    rintro rfl
    exact hne hp.nil_eq.symm
  simp only [insertionSort_of_perm hp hs, hp.length_eq]
  rw [if_neg hl]

/-- The price of a bond that pays the strike, implied by a pair of quotes `(strike, call, put)`. -/
def bond (s0 d : ℝ) (q : ℝ × ℝ × ℝ) : ℝ := s0 - d + q.2.2 - q.2.1

/-- The rate of return of that bond over the time `t`. -/
noncomputable def bondRate (s0 t d : ℝ) (q : ℝ × ℝ × ℝ) : ℝ := Real.log (q.1 / bond s0 d q) / t

/-- The pairs with an implied bond price that is positive. -/
noncomputable def goodPairs (s0 d : ℝ) (pairs : List (ℝ × ℝ × ℝ)) : List (ℝ × ℝ × ℝ) :=
  open Classical in pairs.filter fun q => 0 < bond s0 d q

/-- The number of pairs with an implied bond price of zero. -/
noncomputable def zeroPairs (s0 d : ℝ) (pairs : List (ℝ × ℝ × ℝ)) : ℕ :=
  open Classical in pairs.countP fun q => bond s0 d q = 0

/-- C307, the full claim: the median is that of the pairs with a positive bond price. -/
def IgnoresPairs : Prop :=
  ∀ (calls puts : List (Option ℝ × Option ℝ)) (s0 t d : ℝ), 0 < t → (∀ q ∈ callput calls puts, 0 < q.1) →
    goodPairs s0 d (callput calls puts) ≠ [] →
    (impliedRiskFreeRateE calls puts s0 t d).1 =
      some ((npMedian ((goodPairs s0 d (callput calls puts)).map (bondRate s0 t d)) : ℝ) : EReal)

theorem rfRateE_good {s0 t d : ℝ} {q : ℝ × ℝ × ℝ} (ht : t ≠ 0) (hk : 0 < q.1) (hb : 0 < bond s0 d q) :
    rfRateE s0 t d q = some ((bondRate s0 t d q : ℝ) : EReal) := by
  have e : q.2.2 + s0 - q.2.1 - d = bond s0 d q := by unfold bond; ring
  unfold rfRateE logDiscount
  rw [e, if_neg hk.ne', if_pos (div_pos hb hk), Option.bind_some]
  unfold perYear
  rw [if_neg ht, if_neg (EReal.coe_ne_top _), if_neg (EReal.coe_ne_bot _), EReal.toReal_coe]
  unfold bondRate
  rw [← Real.log_inv, inv_div]

theorem rfRateE_zero {s0 t d : ℝ} {q : ℝ × ℝ × ℝ} (ht : 0 ≤ t) (hk : 0 < q.1) (hb : bond s0 d q = 0) :
    rfRateE s0 t d q = some ⊤ := by
  have e : q.2.2 + s0 - q.2.1 - d = bond s0 d q := by unfold bond; ring
  unfold rfRateE logDiscount
  rw [e, hb, if_neg hk.ne', if_neg (by simp), if_pos (by simp), Option.bind_some]
  unfold perYear
  rcases ht.eq_or_lt with h | h
  · rw [if_pos h.symm, if_pos (by simp)]
  · rw [if_neg h.ne', if_neg (by simp), if_pos rfl, if_pos h]

theorem rfRateE_negative {s0 t d : ℝ} {q : ℝ × ℝ × ℝ} (hk : 0 < q.1) (hb : bond s0 d q < 0) :
    rfRateE s0 t d q = none := by
  have e : q.2.2 + s0 - q.2.1 - d = bond s0 d q := by unfold bond; ring
  have := div_neg_of_neg_of_pos hb hk
  unfold rfRateE logDiscount
  rw [e, if_neg hk.ne', if_neg this.not_gt, if_neg this.ne]
  rfl

theorem rates_perm (s0 t d : ℝ) (ht : 0 < t) (pairs : List (ℝ × ℝ × ℝ)) (hk : ∀ q ∈ pairs, 0 < q.1) :
    (pairs.map (rfRateE s0 t d)).reduceOption.Perm
      ((((goodPairs s0 d pairs).map (bondRate s0 t d)).map fun x : ℝ => (x : EReal)) ++
        List.replicate (zeroPairs s0 d pairs) ⊤) := by
  induction pairs with
  | nil => simp [goodPairs, zeroPairs]
  | cons q qs ih =>
    have ih := ih fun x hx => hk x (by simp [hx])
    have hq := hk q (by simp)
    unfold goodPairs zeroPairs at ih ⊢
    rcases lt_trichotomy (bond s0 d q) 0 with hb | hb | hb
    · rw [List.map_cons, rfRateE_negative hq hb, List.reduceOption_cons_of_none, List.filter_cons_of_neg (by simpa using hb.le),
        List.countP_cons_of_neg (by simpa using hb.ne)]
      exact ih
    · rw [List.map_cons, rfRateE_zero ht.le hq hb, List.reduceOption_cons_of_some,
        List.filter_cons_of_neg (by simpa using hb.le), List.countP_cons_of_pos (by simpa using hb), List.replicate_succ]
      exact (ih.cons _).trans List.perm_middle.symm
    · rw [List.map_cons, rfRateE_good ht.ne' hq hb, List.reduceOption_cons_of_some,
        List.filter_cons_of_pos (by simpa using hb), List.countP_cons_of_neg (by simpa using hb.ne'), List.map_cons,
        List.map_cons, List.cons_append]
      exact ih.cons _

theorem sorted_append (l : List ℝ) (z : ℕ) :
    (((l.insertionSort (· ≤ ·)).map fun x : ℝ => (x : EReal)) ++ List.replicate z ⊤).Pairwise (· ≤ ·) := by
  rw [List.pairwise_append]
  refine ⟨?_, by rw [List.pairwise_replicate]; exact .inr le_rfl, fun a _ b hb => ?_⟩
  · rw [List.pairwise_map]
    exact (List.pairwise_insertionSort _ l).imp fun h => EReal.coe_le_coe_iff.2 h
  · rw [List.eq_of_mem_replicate hb]
    exact le_top

theorem perm_append (l : List ℝ) (z : ℕ) :
    ((l.map fun x : ℝ => (x : EReal)) ++ List.replicate z ⊤).Perm
      (((l.insertionSort (· ≤ ·)).map fun x : ℝ => (x : EReal)) ++ List.replicate z ⊤) :=
  ((List.perm_insertionSort _ l).symm.map _).append_right _

theorem getD_coe (l : List ℝ) (m : List EReal) (i : ℕ) (h : i < l.length) :
    ((l.map fun x : ℝ => (x : EReal)) ++ m).getD i 0 = ((l.getD i 0 : ℝ) : EReal) := by
  rw [List.getD_append _ _ _ _ (by simpa using h), List.getD_eq_getElem _ _ (by simpa using h),
    List.getD_eq_getElem _ _ h, List.getElem_map]

theorem middle_coe (a b : ℝ) : middle (a : EReal) (b : EReal) = some (((a + b) / 2 : ℝ) : EReal) := by
  unfold middle
  rw [if_neg (by simp)]
  congr 1

theorem medianE_coe (l : List ℝ) (hl : l ≠ []) :
    medianE (l.map fun x : ℝ => (x : EReal)) = some ((npMedian l : ℝ) : EReal) := by
  have hp := perm_append l 0
  have hs := sorted_append l 0
  simp only [List.replicate_zero, List.append_nil] at hp hs
  have hlen : 0 < l.length := List.length_pos_iff.2 hl
  rw [medianE_of_perm hp hs (by simpa [← List.length_pos_iff] using hlen)]
  have hg : ∀ i < l.length, ((l.insertionSort (· ≤ ·)).map fun x : ℝ => (x : EReal)).getD i 0 =
      (((l.insertionSort (· ≤ ·)).getD i 0 : ℝ) : EReal) := by
    intro i hi
    have := getD_coe (l.insertionSort (· ≤ ·)) [] i (by simpa using hi)
    rwa [List.append_nil] at this
  unfold npMedian
  simp only [List.length_map, List.length_insertionSort]
  split
  · rw [hg _ (Nat.div_lt_self hlen (by norm_num))]
  · rw [hg _ (Nat.div_lt_self hlen (by norm_num)), hg _ (by omega), middle_coe]

theorem median_eq (calls puts : List (Option ℝ × Option ℝ)) (s0 t d : ℝ) :
    (impliedRiskFreeRateE calls puts s0 t d).1 =
      medianE (((callput calls puts).map (rfRateE s0 t d)).reduceOption) := by
  unfold impliedRiskFreeRateE
  simp only [List.map_map]
  rfl

theorem medianE_congr {l m : List EReal} (h : l.Perm m) : medianE l = medianE m := by
  have hs := List.pairwise_insertionSort (· ≤ ·) m
  have e := insertionSort_of_perm (h.trans (List.perm_insertionSort _ m).symm) hs
  unfold medianE
  simp only [e, h.length_eq]
  congr 1
  rw [eq_iff_iff]
  exact ⟨fun h0 => by subst h0; exact h.nil_eq.symm, fun h0 => by subst h0; exact h.eq_nil⟩

/-- C307, part: the claim if no implied bond price is zero.  Missing from the full claim: bond prices of zero,
`C307_zero`. -/
theorem C307_negative_partial (calls puts : List (Option ℝ × Option ℝ)) (s0 t d : ℝ) (ht : 0 < t)
    (hk : ∀ q ∈ callput calls puts, 0 < q.1) (hz : ∀ q ∈ callput calls puts, bond s0 d q ≠ 0)
    (hg : goodPairs s0 d (callput calls puts) ≠ []) :
    (impliedRiskFreeRateE calls puts s0 t d).1 =
      some ((npMedian ((goodPairs s0 d (callput calls puts)).map (bondRate s0 t d)) : ℝ) : EReal) := by
  have h0 : zeroPairs s0 d (callput calls puts) = 0 := by
    unfold zeroPairs
    rw [List.countP_eq_zero]
    simpa using hz
  rw [median_eq, medianE_congr (rates_perm s0 t d ht _ hk), h0, List.replicate_zero, List.append_nil]
  exact medianE_coe _ (by simpa using hg)

/-- C307: a pair with a bond price of zero counts as an infinite rate.  With at least as many of these as of pairs with a
positive bond price the median is infinite; with fewer it is a number. -/
theorem C307_zero (calls puts : List (Option ℝ × Option ℝ)) (s0 t d : ℝ) (ht : 0 < t)
    (hk : ∀ q ∈ callput calls puts, 0 < q.1) (hz : ∃ q ∈ callput calls puts, bond s0 d q = 0) :
    ((goodPairs s0 d (callput calls puts)).length ≤ zeroPairs s0 d (callput calls puts) →
      (impliedRiskFreeRateE calls puts s0 t d).1 = some ⊤) ∧
    (zeroPairs s0 d (callput calls puts) < (goodPairs s0 d (callput calls puts)).length →
      ∃ r : ℝ, (impliedRiskFreeRateE calls puts s0 t d).1 = some (r : EReal)) := by
  have hzp : 0 < zeroPairs s0 d (callput calls puts) := by
    unfold zeroPairs
    rw [List.countP_pos_iff]
    simpa using hz
  rw [median_eq]
  have hp := (rates_perm s0 t d ht _ hk)
  generalize hl : (goodPairs s0 d (callput calls puts)).map (bondRate s0 t d) = l at hp
  have hlen : (goodPairs s0 d (callput calls puts)).length = l.length := by rw [← hl, List.length_map]
  rw [hlen]
  generalize zeroPairs s0 d (callput calls puts) = z at *
  rw [medianE_of_perm (hp.trans (perm_append l z)) (sorted_append l z) (by simp; omega)]
  simp only [List.length_append, List.length_map, List.length_insertionSort, List.length_replicate]
  have htop : ∀ i, l.length ≤ i → i < l.length + z →
      (((l.insertionSort (· ≤ ·)).map fun x : ℝ => (x : EReal)) ++ List.replicate z ⊤).getD i 0 = ⊤ := by
    intro i h1 h2
    rw [List.getD_append_right _ _ _ _ (by simpa using h1)]
    rw [List.getD_eq_getElem _ _ (by simp; omega), List.getElem_replicate]
  constructor
  · intro h
    rw [htop _ (by omega) (by omega)]
    split
    · rfl
    · unfold middle
      by_cases hi : l.length ≤ (l.length + z) / 2 - 1
      · rw [htop _ hi (by omega), if_neg (by simp)]
        congr 1
        exact EReal.top_div_of_pos_ne_top (by norm_num) (by decide)
      · rw [getD_coe _ _ _ (by simp; omega), if_neg (by simp), EReal.coe_add_top]
        congr 1
        exact EReal.top_div_of_pos_ne_top (by norm_num) (by decide)
  · intro h
    rw [getD_coe _ _ _ (by simp; omega), getD_coe _ _ _ (by simp; omega), middle_coe]
    split
    · exact ⟨_, rfl⟩
    · exact ⟨_, rfl⟩

theorem rfRateE_expiry {s0 d : ℝ} {q : ℝ × ℝ × ℝ} (hk : 0 < q.1) :
    rfRateE s0 0 d q = if 0 ≤ bond s0 d q ∧ bond s0 d q < q.1 then some ⊤
      else if q.1 < bond s0 d q then some ⊥ else none := by
  rcases lt_trichotomy (bond s0 d q) 0 with hb | hb | hb
  · rw [rfRateE_negative hk hb, if_neg (by intro h; linarith [h.1]), if_neg (by linarith)]
  · rw [rfRateE_zero le_rfl hk hb, if_pos ⟨hb.ge, by rw [hb]; exact hk⟩]
  · have e : q.2.2 + s0 - q.2.1 - d = bond s0 d q := by unfold bond; ring
    have hdiv := div_pos hb hk
    unfold rfRateE logDiscount
    rw [e, if_neg hk.ne', if_pos hdiv, Option.bind_some]
    unfold perYear
    rw [if_pos rfl]
    rcases lt_trichotomy (bond s0 d q) q.1 with h | h | h
    · have := Real.log_neg hdiv ((div_lt_one hk).2 h)
      rw [if_pos (by exact_mod_cast this), if_pos ⟨hb.le, h⟩]
    · rw [h, div_self hk.ne', Real.log_one, if_neg (by simp), if_neg (by simp), if_neg (by simp), if_neg (by simp)]
    · have := Real.log_pos ((one_lt_div hk).2 h)
      rw [if_neg (by simpa using this.le), if_pos (by exact_mod_cast this), if_neg (by intro h'; linarith [h'.2]), if_pos h]

open Classical in
/-- C307: at expiry no rate is a number: bonds below the strike have an infinite rate, bonds above it an infinite negative
one.  The median is the sign of the majority, and NaN without one. -/
theorem C307_expiry (calls puts : List (Option ℝ × Option ℝ)) (s0 d : ℝ) (hk : ∀ q ∈ callput calls puts, 0 < q.1)
    (below above : ℕ)
    (hb : below = (callput calls puts).countP fun q => 0 ≤ bond s0 d q ∧ bond s0 d q < q.1)
    (ha : above = (callput calls puts).countP fun q => q.1 < bond s0 d q) :
    (impliedRiskFreeRateE calls puts s0 0 d).1 =
      if above < below then some ⊤ else if below < above then some ⊥ else none := by
  have hp : ((callput calls puts).map (rfRateE s0 0 d)).reduceOption.Perm
      (List.replicate above ⊥ ++ List.replicate below ⊤) := by
    subst hb ha
    generalize callput calls puts = pairs at hk
    induction pairs with
    | nil => simp
    | cons q qs ih =>
      have ih := ih fun x hx => hk x (by simp [hx])
      rw [List.map_cons, rfRateE_expiry (hk q (by simp))]
      by_cases h1 : 0 ≤ bond s0 d q ∧ bond s0 d q < q.1
      · rw [if_pos h1, List.reduceOption_cons_of_some,
          List.countP_cons_of_neg (a := q) (p := fun q => decide (q.1 < bond s0 d q)) (by simpa using h1.2.le),
          List.countP_cons_of_pos (by simpa using h1), List.replicate_succ]
        exact (ih.cons _).trans List.perm_middle.symm
      · rw [if_neg h1, List.countP_cons_of_neg (a := q) (p := fun q => decide (0 ≤ bond s0 d q ∧ bond s0 d q < q.1))
          (by simpa using h1)]
        by_cases h2 : q.1 < bond s0 d q
        · rw [if_pos h2, List.reduceOption_cons_of_some, List.countP_cons_of_pos (by simpa using h2), List.replicate_succ,
            List.cons_append]
          exact ih.cons _
        · rw [if_neg h2, List.reduceOption_cons_of_none, List.countP_cons_of_neg (by simpa using h2)]
          exact ih
  rw [median_eq]
  have hs : (List.replicate above (⊥ : EReal) ++ List.replicate below ⊤).Pairwise (· ≤ ·) := by
    rw [List.pairwise_append, List.pairwise_replicate, List.pairwise_replicate]
    exact ⟨.inr le_rfl, .inr le_rfl, fun a ha b _ => by rw [List.eq_of_mem_replicate ha]; exact bot_le⟩
  have hget : ∀ i, i < above + below → (List.replicate above (⊥ : EReal) ++ List.replicate below ⊤).getD i 0 =
      if i < above then ⊥ else ⊤ := by
    intro i hi
    by_cases h : i < above
    · rw [List.getD_append _ _ _ _ (by simpa using h), List.getD_eq_getElem _ _ (by simpa using h), if_pos h,
        List.getElem_replicate]
    · rw [List.getD_append_right _ _ _ _ (by simpa using h), List.getD_eq_getElem _ _ (by simp; omega), if_neg h,
        List.getElem_replicate]
  by_cases h0 : above + below = 0
  · obtain ⟨rfl, rfl⟩ : above = 0 ∧ below = 0 := by omega
    have := hp.eq_nil
    rw [this]
    simp [medianE]
  · rw [medianE_of_perm hp hs (by intro h; apply h0; simpa using congrArg List.length h)]
    simp only [List.length_append, List.length_replicate]
    rw [hget _ (by omega), hget _ (by omega)]
    have h2 : (2 : EReal) = ((2 : ℝ) : EReal) := rfl
    have htop : (⊤ + ⊤ : EReal) / 2 = ⊤ := EReal.top_div_of_pos_ne_top (by norm_num) (by decide)
    have hbot : (⊥ + ⊥ : EReal) / 2 = ⊥ := EReal.bot_div_of_pos_ne_top (by norm_num) (by decide)
    unfold middle
    rcases lt_trichotomy above below with h | h | h
    · rw [if_neg (show ¬ (above + below) / 2 < above by omega), if_pos h]
      split
      · rfl
      · rw [if_neg (show ¬ (above + below) / 2 - 1 < above by omega), if_neg (by simp), htop]
    · rw [if_neg (show ¬ (above + below) % 2 = 1 by omega), if_neg (show ¬ (above + below) / 2 < above by omega),
        if_pos (show (above + below) / 2 - 1 < above by omega), if_pos ⟨rfl, rfl⟩, if_neg (by omega), if_neg (by omega)]
    · rw [if_pos (show (above + below) / 2 < above by omega), if_pos (show (above + below) / 2 - 1 < above by omega),
        if_neg (show ¬ above < below by omega), if_pos h, hbot,
        if_neg (show ¬ ((⊥ : EReal) = ⊥ ∧ (⊥ : EReal) = ⊤) by simp), ite_self]

/-- C307: where the model with exact numbers gives a result, this is it. -/
theorem C307_exact (calls puts : List (Option ℝ × Option ℝ)) (s0 t d : ℝ) (m : Option ℝ) (rates : List (ℝ × Option ℝ))
    (h : impliedRiskFreeRate calls puts s0 t d = .ok (m, rates)) :
    impliedRiskFreeRateE calls puts s0 t d =
      (m.map fun x : ℝ => (x : EReal), rates.map fun q => (q.1, q.2.map fun x : ℝ => (x : EReal))) := by
  unfold impliedRiskFreeRate at h
  rw [py_bind_eq_ok] at h
  obtain ⟨rs, h1, h2⟩ := h
  cases h2
  rw [mapM_eq_ok_iff] at h1
  have hrow : ∀ (row : ℝ × ℝ × ℝ) (o : ℝ × Option ℝ), rfRate s0 t d row = .ok o →
      (row.1, rfRateE s0 t d row) = (o.1, o.2.map fun x : ℝ => (x : EReal)) := by
    intro row o ho
    unfold rfRate at ho
    simp only at ho
    split at ho
    · cases ho
    · next hne =>
      push Not at hne
      obtain ⟨e1, e2, e3⟩ := hne
      cases ho
      unfold rfRateE logDiscount
      rw [if_neg e1]
      by_cases hpos : 0 < (row.2.2 + s0 - row.2.1 - d) / row.1
      · rw [if_pos hpos, if_pos hpos, Option.bind_some]
        unfold perYear
        rw [if_neg e2, if_neg (EReal.coe_ne_top _), if_neg (EReal.coe_ne_bot _), EReal.toReal_coe]
        rfl
      · rw [if_neg hpos, if_neg hpos, if_neg (div_ne_zero e3 e1)]
        rfl
  have hl : (callput calls puts).map (fun row => (row.1, rfRateE s0 t d row)) =
      rates.map fun q => (q.1, q.2.map fun x : ℝ => (x : EReal)) := by
    generalize callput calls puts = pairs at h1
    induction h1 with
    | nil => rfl
    | cons a _ ih => rw [List.map_cons, List.map_cons, ih, hrow _ _ a]
  unfold impliedRiskFreeRateE
  simp only [hl, Prod.mk.injEq, and_true, List.map_map]
  have hred : (rates.map (Prod.snd ∘ fun q : ℝ × Option ℝ => (q.1, q.2.map fun x : ℝ => (x : EReal)))).reduceOption =
      ((rates.map Prod.snd).reduceOption).map fun x : ℝ => (x : EReal) := by
    clear hl h1
    induction rates with
    | nil => rfl
    | cons r rs ih =>
      rcases r with ⟨k, - | v⟩ <;> simp_all [List.reduceOption]
  rw [hred]
  unfold seriesMedian
  by_cases hn : (rates.map Prod.snd).reduceOption = []
  · rw [hn, if_pos rfl]
    simp [medianE]
  · rw [if_neg hn, medianE_coe _ hn]
    rfl

/-- Two strikes, the second with a bond price of zero. -/
theorem callput_two : callput [(some 1, some 0), (some 2, some 1)] [(some 1, some 0), (some 2, some 0)] =
    [(1, 0, 0), (2, 1, 0)] := by
  unfold callput complete
  simp [List.filter_cons, List.insertionSort]

/-- C307, the full claim does not hold: spot 1, a call of strike 1 and a put of strike 1 for nothing, a call of strike 2 for
1 and a put of strike 2 for nothing. -/
theorem C307_ignores_counterexample : ¬ IgnoresPairs := by
  intro h
  have h1 := h [(some 1, some 0), (some 2, some 1)] [(some 1, some 0), (some 2, some 0)] 1 1 0 one_pos (by
    rw [callput_two]; simp) (by rw [callput_two]; simp [goodPairs, bond])
  have h2 := (C307_zero [(some 1, some 0), (some 2, some 1)] [(some 1, some 0), (some 2, some 0)] 1 1 0 one_pos (by
    rw [callput_two]; simp) (by rw [callput_two]; simp [bond])).1 (by
      rw [callput_two]
      simp [goodPairs, zeroPairs, bond])
  rw [h1] at h2
  simp at h2

/-- At expiry the second of these pairs decides: the first has the rate NaN. -/
example : (impliedRiskFreeRateE [(some 1, some 0), (some 2, some 1)] [(some 1, some 0), (some 2, some 0)] 1 0 0).1 =
    some ⊤ := by
  rw [C307_expiry _ _ 1 0 (by rw [callput_two]; simp) 1 0 (by rw [callput_two]; simp [bond]) (by rw [callput_two]; simp [bond])]
  simp

/-- A pair with a negative bond price, which is ignored. -/
example : ∃ q ∈ callput [(some 1, some 0), (some 2, some 1)] [(some 1, some 0), (some 2, some 0)], bond (1 / 2) 0 q < 0 := by
  rw [callput_two]
  norm_num [bond]

end FinML.Options
