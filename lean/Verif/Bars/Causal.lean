import Verif.Bars.RunsLemmas

/-! # Bars closed early do not depend on later ticks -/

set_option linter.unusedSectionVars false

namespace FinML.Bars

variable {K : Type} [Field K] [LinearOrder K] [IsStrictOrderedRing K] {Θ : Type}

theorem FirstClose.unique {R : BarRule Θ K} {thr : Θ} {s e e' : ℕ} (h : FirstClose R thr s e)
    (h' : FirstClose R thr s e') : e = e' := by
  rcases lt_trichotomy e e' with hl | hl | hl
  · exact absurd h.2.1 (h'.2.2 e h.1 hl)
  · exact hl
  · exact absurd h'.2.1 (h.2.2 e' h'.1 hl)

/-- Two rules that cannot be told apart on the first `m` ticks. -/
structure AgreeBefore (R R' : BarRule Θ K) (m : ℕ) : Prop where
  trig : ∀ thr s t, t < m → (R.trig thr s t ↔ R'.trig thr s t)
  size : ∀ s t, t < m → R.size s t = R'.size s t
  minSize : R.minSize = R'.minSize
  thrOf : ∀ es : List ℕ, (∀ e ∈ es, e < m) → R.thrOf es = R'.thrOf es

theorem AgreeBefore.symm {R R' : BarRule Θ K} {m : ℕ} (h : AgreeBefore R R' m) :
    AgreeBefore R' R m :=
  ⟨fun a b c d => (h.trig a b c d).symm, fun a b c => (h.size a b c).symm, h.minSize.symm,
    fun a b => (h.thrOf a b).symm⟩

theorem AgreeBefore.closesAt {R R' : BarRule Θ K} {m : ℕ} (h : AgreeBefore R R' m) (thr : Θ)
    (s t : ℕ) (ht : t < m) : ClosesAt R thr s t ↔ ClosesAt R' thr s t := by
  unfold ClosesAt
  rw [h.size s t ht, h.minSize]
  refine and_congr_left fun _ => exists_congr fun u => and_congr_right fun _ =>
    and_congr_right_iff.2 fun hu => h.trig thr s u (by omega)

theorem AgreeBefore.firstClose {R R' : BarRule Θ K} {m : ℕ} (h : AgreeBefore R R' m) (thr : Θ)
    (s e : ℕ) (he : e < m) (hf : FirstClose R thr s e) : FirstClose R' thr s e :=
  ⟨hf.1, (h.closesAt thr s e he).1 hf.2.1,
    fun t h1 h2 hc => hf.2.2 t h1 h2 ((h.closesAt thr s t (by omega)).2 hc)⟩

theorem filter_lt_prefix {es : List ℕ} (hi : es.Pairwise (· < ·)) (m : ℕ) :
    es.filter (· < m) <+: es := by
  induction es with
  | nil => simp
  | cons a es ih =>
    rw [List.pairwise_cons] at hi
    by_cases ha : a < m
    · rw [List.filter_cons_of_pos (by simpa using ha), List.cons_prefix_cons]
      exact ⟨rfl, ih hi.2⟩
    · rw [List.filter_eq_nil_iff.2]
      · exact List.nil_prefix
      · intro x hx
        rw [List.mem_cons] at hx
        rcases hx with rfl | hx
        · simpa using ha
        · have := hi.1 x hx; simp; omega

theorem prefix_transfer {R R' : BarRule Θ K} {m n n' : ℕ} (h : AgreeBefore R R' m) (hn : m ≤ n')
    {cl cl' : List ℕ} (hd : GenDone R n cl) (hd' : GenDone R' n' cl') (k : ℕ) (P : List ℕ)
    (hk : P.length = k) (hP : P <+: cl) (hlt : ∀ e ∈ P, e < m) : P <+: cl' := by
  induction k generalizing P with
  | zero =>
    rw [List.length_eq_zero_iff] at hk
    subst hk; exact List.nil_prefix
  | succ k ih =>
    rcases List.eq_nil_or_concat P with rfl | ⟨Q, e, rfl⟩
    · simp at hk
    rw [List.concat_eq_append] at *
    have hQ : Q <+: cl' := ih Q (by simpa using hk) ((List.prefix_append Q [e]).trans hP)
      (fun x hx => hlt x (by simp [hx]))
    have hQlt : ∀ x ∈ Q, x < m := fun x hx => hlt x (by simp [hx])
    have he : e < m := hlt e (by simp)
    obtain ⟨suf, hsuf⟩ := hP
    have hj : Q.length < cl.length := by rw [← hsuf]; simp
    obtain ⟨thr, ht, hf⟩ := hd.valid Q.length hj
    have htake : cl.take Q.length = Q := by rw [← hsuf, List.append_assoc]; simp
    have hget : cl[Q.length] = e := by
      have : cl[Q.length]? = some e := by rw [← hsuf]; simp
      rw [List.getElem?_eq_getElem hj] at this
      exact Option.some.inj this
    rw [htake] at ht hf
    rw [hget] at hf
    have ht' : R'.thrOf Q = .ok thr := by rw [← h.thrOf Q hQlt]; exact ht
    have hf' := h.firstClose thr _ e he hf
    obtain ⟨suf', hsuf'⟩ := hQ
    cases suf' with
    | nil =>
      exfalso
      rw [List.append_nil] at hsuf'
      obtain ⟨thr2, ht2, hno⟩ := hd'.rest
      rw [← hsuf', ht'] at ht2
      cases ht2
      rw [← hsuf'] at hno
      exact hno e hf'.1 (by omega) hf'.2.1
    | cons e' suf' =>
      have hj' : Q.length < cl'.length := by rw [← hsuf']; simp
      obtain ⟨thr2, ht2, hf2⟩ := hd'.valid Q.length hj'
      have htake' : cl'.take Q.length = Q := by rw [← hsuf']; simp
      have hget' : cl'[Q.length] = e' := by
        have : cl'[Q.length]? = some e' := by rw [← hsuf']; simp
        rw [List.getElem?_eq_getElem hj'] at this
        exact Option.some.inj this
      rw [htake'] at ht2 hf2
      rw [hget'] at hf2
      rw [ht'] at ht2
      cases ht2
      have := hf'.unique hf2
      subst this
      exact ⟨suf', by rw [← hsuf']; simp⟩

theorem causal {R R' : BarRule Θ K} {m n n' : ℕ} (h : AgreeBefore R R' m) (hn : m ≤ n)
    (hn' : m ≤ n') {cl cl' : List ℕ} (hd : GenDone R n cl) (hd' : GenDone R' n' cl') :
    cl.filter (· < m) = cl'.filter (· < m) := by
  have key : ∀ {R R' : BarRule Θ K} {n n' : ℕ} {cl cl' : List ℕ}, AgreeBefore R R' m → m ≤ n' →
      GenDone R n cl → GenDone R' n' cl' → cl.filter (· < m) <+: cl'.filter (· < m) := by
    intro R R' n n' cl cl' h hn' hd hd'
    have h1 := prefix_transfer h hn' hd hd' _ _ rfl (filter_lt_prefix hd.inc m)
      (by intro e he; simpa using (List.mem_filter.1 he).2)
    have h2 := h1.filter (· < m)
    rwa [List.filter_filter, show (fun a => decide (a < m) && decide (a < m)) =
      (fun a : ℕ => decide (a < m)) by ext a; simp] at h2
  have h1 := key h hn' hd hd'
  have h2 := key h.symm hn hd' hd
  exact h1.eq_of_length_le h2.length_le

/-! ### The two rules -/

theorem at'_congr {b b' : List K} {m : ℕ} (h : b.take m = b'.take m) {i : ℕ} (hi : i < m) :
    at' b i = at' b' i := by
  unfold at'
  rw [List.getD_eq_getElem?_getD, List.getD_eq_getElem?_getD, ← List.getElem?_take_of_lt hi, h,
    List.getElem?_take_of_lt hi]

theorem sumOver_congr {f g : ℕ → K} {m : ℕ} (h : ∀ i < m, f i = g i) (s t : ℕ) (ht : t < m) :
    sumOver f s t = sumOver g s t := by
  unfold sumOver
  apply Finset.sum_congr rfl
  intro i hi
  rw [Finset.mem_Icc] at hi
  exact h i (by omega)

theorem take_congr {α : Type} {b b' : List α} {m e : ℕ} (h : b.take m = b'.take m) (he : e ≤ m) :
    b.take e = b'.take e := by
  have := congrArg (List.take e) h
  rwa [List.take_take, List.take_take, min_eq_left he] at this

theorem imbRule_agree (p : LoopParams K) (eb : K) (b b' : List K) (m : ℕ)
    (h : b.take m = b'.take m) : AgreeBefore (imbRule p eb b) (imbRule p eb b') m := by
  have hat : ∀ i < m, at' b i = at' b' i := fun i hi => at'_congr h hi
  refine ⟨?_, ?_, rfl, ?_⟩
  · intro thr s t ht
    simp only [imbRule]
    rw [sumOver_congr hat s t ht, sumOver_congr (f := (|at' b ·|)) (g := (|at' b' ·|))
      (fun i hi => by rw [hat i hi]) s t ht]
  · intro s t ht
    simp only [imbRule]
    exact sumOver_congr (fun i hi => by rw [hat i hi]) s t ht
  · intro es hes
    simp only [imbRule]
    cases hl : es.getLast? with
    | none => rfl
    | some e =>
      have := hes e (List.mem_of_getLast? hl)
      simp only
      rw [take_congr h this.le]

theorem runsRule_agree (p : LoopParams K) (r : RunsInit K) (b v b' v' : List K) (m : ℕ)
    (h : b.take m = b'.take m) (hv : v.take m = v'.take m) :
    AgreeBefore (runsRule p r b v) (runsRule p r b' v') m := by
  have hat : ∀ i < m, at' b i = at' b' i := fun i hi => at'_congr h hi
  have hav : ∀ i < m, at' v i = at' v' i := fun i hi => at'_congr hv hi
  have hbuy : ∀ i < m, buyQty b v i = buyQty b' v' i := fun i hi => by
    simp only [buyQty, hat i hi, hav i hi]
  have hsell : ∀ i < m, sellQty b v i = sellQty b' v' i := fun i hi => by
    simp only [sellQty, hat i hi, hav i hi]
  have hbt : ∀ i < m, buyTicks b i = buyTicks b' i := fun i hi => by
    simp only [buyTicks, hat i hi, hat 0 (by omega)]
  have hbv : ∀ e < m, buyVols b v e = buyVols b' v' e := by
    intro e he
    unfold buyVols
    have : (List.range' 1 e).filter (fun i => decide (0 ≤ at' b i)) =
        (List.range' 1 e).filter (fun i => decide (0 ≤ at' b' i)) := by
      apply List.filter_congr
      intro i hi
      rw [List.mem_range'_1] at hi
      rw [hat i (by omega)]
    rw [this]
    apply List.map_congr_left
    intro i hi
    have := (List.mem_filter.1 hi).1
    rw [List.mem_range'_1] at this
    exact hav i (by omega)
  have hsv : ∀ e < m, sellVols b v e = sellVols b' v' e := by
    intro e he
    unfold sellVols
    have : (List.range' 1 e).filter (fun i => decide (at' b i < 0)) =
        (List.range' 1 e).filter (fun i => decide (at' b' i < 0)) := by
      apply List.filter_congr
      intro i hi
      rw [List.mem_range'_1] at hi
      rw [hat i (by omega)]
    rw [this]
    apply List.map_congr_left
    intro i hi
    have := (List.mem_filter.1 hi).1
    rw [List.mem_range'_1] at this
    exact hav i (by omega)
  have hfr : ∀ (es : List ℕ) (s : ℕ), (∀ e ∈ es, e < m) → buyFracs b s es = buyFracs b' s es := by
    intro es
    induction es with
    | nil => intro s _; rfl
    | cons e es ih =>
      intro s hes
      simp only [buyFracs]
      rw [sumOver_congr hbt s e (hes e (by simp)), ih _ (fun x hx => hes x (by simp [hx]))]
  refine ⟨?_, ?_, rfl, ?_⟩
  · intro thr s t ht
    simp only [runsRule]
    rw [sumOver_congr hbuy s t ht, sumOver_congr hsell s t ht, sumOver_congr hav s t ht]
  · intro s t ht
    simp only [runsRule]
    exact sumOver_congr hav s t ht
  · intro es hes
    simp only [runsRule]
    cases hl : es.getLast? with
    | none => rfl
    | some e =>
      have he := hes e (List.mem_of_getLast? hl)
      simp only [runsThr]
      rw [hbv e he, hsv e he, hfr es 0 hes]

/-! ### Bars -/

theorem cutLens_take {α : Type} (Ts : List ℕ) (l : List α) (c : ℕ) :
    (cutLens Ts l).take c = cutLens (Ts.take c) l := by
  induction Ts generalizing l c with
  | nil => simp [cutLens]
  | cons T Ts ih =>
    cases c with
    | zero => rfl
    | succ c => simp [cutLens, ih]

theorem cutLens_congr {α : Type} (Ts : List ℕ) (l l' : List α) (N : ℕ) (hN : Ts.sum ≤ N)
    (h : l.take N = l'.take N) : cutLens Ts l = cutLens Ts l' := by
  induction Ts generalizing l l' N with
  | nil => rfl
  | cons T Ts ih =>
    rw [List.sum_cons] at hN
    simp only [cutLens]
    congr 1
    · exact take_congr h (by omega)
    · apply ih _ _ (N - T) (by omega)
      rw [List.take_drop, List.take_drop]
      rw [show T + (N - T) = N by omega, h]

theorem barLens_take (s : ℕ) (es : List ℕ) (c : ℕ) :
    (barLens s es).take c = barLens s (es.take c) := by
  induction es generalizing s c with
  | nil => simp [barLens]
  | cons a es ih =>
    cases c with
    | zero => rfl
    | succ c => simp [barLens, ih]

/-- If the bars ended before tick `m` and the first `m` ticks agree, so do the first bars. -/
theorem bars_take_eq {t t' : List (Tick K)} {m : ℕ} (h : t.take m = t'.take m)
    {ends ends' : List ℕ} (hi : ends.Pairwise (· < ·)) (hi' : ends'.Pairwise (· < ·))
    (hE : ends.filter (· < m) = ends'.filter (· < m)) {bars bars' : List (Bar K)}
    (hb : List.Forall₂ IsBarOf (cutLens (barLens 0 ends) t) bars)
    (hb' : List.Forall₂ IsBarOf (cutLens (barLens 0 ends') t') bars') :
    bars.take (barOf ends m) = bars'.take (barOf ends m) := by
  have p1 := filter_lt_prefix hi m
  have p2 := filter_lt_prefix hi' m
  have e1 : ends.take (barOf ends m) = ends.filter (· < m) := (List.prefix_iff_eq_take.1 p1).symm
  have e2 : ends'.take (barOf ends m) = ends.filter (· < m) := by
    unfold barOf
    rw [hE]
    exact (List.prefix_iff_eq_take.1 p2).symm
  have hsum : (barLens 0 (ends.filter (· < m))).sum ≤ m := by
    have hp : (ends.filter (· < m)).Pairwise (· < ·) := hi.filter _
    have := barLens_sum 0 _ hp (by simp)
    rw [zero_add] at this
    rw [this]
    cases hg : (ends.filter (· < m)).getLast? with
    | none => simp
    | some l =>
      have := (List.mem_filter.1 (List.mem_of_getLast? hg)).2
      simpa using this
  have hb1 := List.forall₂_take (barOf ends m) hb
  have hb2 := List.forall₂_take (barOf ends m) hb'
  rw [cutLens_take, barLens_take, e1] at hb1
  rw [cutLens_take, barLens_take, e2, ← cutLens_congr _ _ _ m hsum h] at hb2
  have uniq : ∀ {ps : List (List (Tick K))} {x y : List (Bar K)},
      List.Forall₂ IsBarOf ps x → List.Forall₂ IsBarOf ps y → x = y := by
    intro ps x y hx
    induction hx generalizing y with
    | nil => intro hy; cases hy; rfl
    | cons h1 _ ih =>
      intro hy
      cases hy with
      | cons h2 hy' => rw [h1.unique h2, ih hy']
  exact uniq hb1 hb2

theorem barOf_congr {ends ends' : List ℕ} {m : ℕ}
    (hE : ends.filter (· < m) = ends'.filter (· < m)) {i : ℕ} (hi : i ≤ m) :
    barOf ends i = barOf ends' i := by
  unfold barOf
  have h2 := congrArg (List.filter (· < i)) hE
  rw [List.filter_filter, List.filter_filter] at h2
  have hf : (fun a => decide (a < i) && decide (a < m)) = (fun a : ℕ => decide (a < i)) := by
    ext a; by_cases h : a < i
    · have : a < m := by omega
      simp [h, this]
    · simp [h]
  rw [hf] at h2
  rw [h2]

/-! ### tick_rule does not look ahead -/

@[simp] theorem tickRuleFrom_length (prev p : K) (l : List K) :
    (tickRuleFrom prev p l).length = l.length := by
  induction l generalizing prev p with
  | nil => rfl
  | cons a l ih => simp [tickRuleFrom, ih]

@[simp] theorem tickRule_length (b0 : K) (l : List K) : (tickRule b0 l).length = l.length := by
  cases l <;> simp [tickRule]

theorem tickRuleFrom_take (prev p : K) (l : List K) (m : ℕ) :
    (tickRuleFrom prev p l).take m = tickRuleFrom prev p (l.take m) := by
  induction l generalizing prev p m with
  | nil => simp [tickRuleFrom]
  | cons a l ih =>
    cases m with
    | zero => rfl
    | succ m => simp [tickRuleFrom, ih]

theorem tickRule_take (b0 : K) (l : List K) (m : ℕ) :
    (tickRule b0 l).take m = tickRule b0 (l.take m) := by
  cases l with
  | nil => simp [tickRule]
  | cons a l =>
    cases m with
    | zero => rfl
    | succ m => simp [tickRule, tickRuleFrom_take]

end FinML.Bars
