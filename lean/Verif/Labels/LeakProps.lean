import Verif.Labels.Props
import Verif.CV.KFoldProps
import Verif.CV.CombiProps

/-!
# Property C167: no price of the test period reaches a training label

Triple-barrier labels (`financial_ml/labeling/triple_barrier.py`) followed by purged splits
(`financial_ml/model_selection/cross_validation.py`).
-/

set_option linter.unusedSectionVars false

namespace FinML.Labels

variable {K : Type} [Field K] [LinearOrder K] [IsStrictOrderedRing K]

/-- Two price tables over the same bars, with the same prices on every bar of `S`. -/
def AgreeOn (S : ℤ → Prop) (prices prices' : List (Row K)) : Prop :=
  List.Forall₂ (fun a b => a.time = b.time ∧ (S a.time → a = b)) prices prices'

theorem AgreeOn.symm {S : ℤ → Prop} {p q : List (Row K)} (h : AgreeOn S p q) : AgreeOn S q p := by
  refine h.flip.imp ?_
  rintro a b ⟨h1, h2⟩
  exact ⟨h1.symm, fun hs => (h2 (h1 ▸ hs)).symm⟩

theorem AgreeOn.mono {S T : ℤ → Prop} {p q : List (Row K)} (h : AgreeOn S p q)
    (hst : ∀ t, T t → S t) : AgreeOn T p q :=
  h.imp fun _ _ ⟨h1, h2⟩ => ⟨h1, fun ht => h2 (hst _ ht)⟩

theorem AgreeOn.times {S : ℤ → Prop} {p q : List (Row K)} (h : AgreeOn S p q) :
    p.map Row.time = q.map Row.time := by
  induction h with
  | nil => rfl
  | cons h _ ih => rw [List.map_cons, List.map_cons, h.1, ih]

theorem AgreeOn.sorted {S : ℤ → Prop} {p q : List (Row K)} (h : AgreeOn S p q)
    (hs : SortedTable p) : SortedTable q := by
  unfold SortedTable at *
  rwa [← h.times]

theorem AgreeOn.mem {S : ℤ → Prop} {p q : List (Row K)} (h : AgreeOn S p q) {r : Row K}
    (hr : r ∈ p) (hS : S r.time) : r ∈ q := by
  induction h with
  | nil => exact hr
  | cons h _ ih =>
    rcases List.mem_cons.1 hr with rfl | hr
    · rw [h.2 hS]; exact List.mem_cons_self
    · exact List.mem_cons_of_mem _ (ih hr)

theorem AgreeOn.mem_time {S : ℤ → Prop} {p q : List (Row K)} (h : AgreeOn S p q) {t : ℤ}
    (hr : ∃ r ∈ p, r.time = t) : ∃ r ∈ q, r.time = t := by
  obtain ⟨r, hr, rfl⟩ := hr
  have : r.time ∈ q.map Row.time := h.times ▸ List.mem_map.2 ⟨r, hr, rfl⟩
  exact List.mem_map.1 this

theorem AgreeOn.hitsPT {S : ℤ → Prop} {p q : List (Row K)} (h : AgreeOn S p q) (m : K)
    (e : Event K) (side : ℤ) (s0 : K) (expiry t : ℤ) (hS : S t)
    (hh : HitsPT p m e side s0 expiry t) : HitsPT q m e side s0 expiry t := by
  obtain ⟨h1, h2, h3, r, hr, rfl, hx⟩ := hh
  exact ⟨h1, h2, h3, r, h.mem hr hS, rfl, hx⟩

theorem AgreeOn.hitsSL {S : ℤ → Prop} {p q : List (Row K)} (h : AgreeOn S p q) (m : K)
    (e : Event K) (side : ℤ) (s0 : K) (expiry t : ℤ) (hS : S t)
    (hh : HitsSL p m e side s0 expiry t) : HitsSL q m e side s0 expiry t := by
  obtain ⟨h1, h2, h3, r, hr, rfl, hx⟩ := hh
  exact ⟨h1, h2, h3, r, h.mem hr hS, rfl, hx⟩

theorem row_unique {p : List (Row K)} (hs : SortedTable p) {a b : Row K} (ha : a ∈ p) (hb : b ∈ p)
    (h : a.time = b.time) : a = b := by
  unfold SortedTable at hs
  rw [List.pairwise_map] at hs
  by_contra hne
  have := List.Pairwise.forall_of_forall_of_flip (R := fun x y : Row K => x.time = y.time → x = y)
    (fun _ _ _ => rfl)
    (hs.imp fun {x y} hlt heq => absurd heq (ne_of_lt hlt))
    (hs.imp fun {x y} hlt heq => absurd heq.symm (ne_of_lt hlt)) ha hb h
  exact hne this

/-- C167.  The end and the return of an event use the prices from its start to its *end* only; prices
between the end and the expiry play no role. -/
theorem C167_ends_only (prices prices' : List (Row K)) (ptMul slMul : K) (e : Event K) (side : ℤ)
    (s0 : K) (expiry : ℤ) (hs : SortedTable prices) (ht : Tradable prices e side s0 expiry)
    (hle : e.start ≤ expiry) (o : Outcome K) (ho : evalEvent prices ptMul slMul e expiry = .ok o)
    (ha : AgreeOn (fun t => e.start ≤ t ∧ t ≤ o.endTime) prices prices') :
    e.start ≤ o.endTime ∧ o.endTime ≤ expiry ∧
    ∃ o', evalEvent prices' ptMul slMul e expiry = .ok o' ∧ o'.endTime = o.endTime ∧
      o'.ret = o.ret := by
  obtain ⟨o1, h1, hE, hSL, hPT, hX⟩ := evalEvent_spec prices ptMul slMul e side s0 expiry hs ht
  rw [ho] at h1
  obtain rfl : o = o1 := by injection h1
  clear h1
  have hb : e.start ≤ o.endTime ∧ o.endTime ≤ expiry := by
    by_cases hh : ∃ t, HitsPT prices ptMul e side s0 expiry t ∨ HitsSL prices slMul e side s0 expiry t
    · obtain ⟨t, hh⟩ := hh
      rcases (hE.end_hit t hh).1 with h | h
      · exact ⟨h.1, h.2.1⟩
      · exact ⟨h.1, h.2.1⟩
    · push Not at hh
      rw [hE.end_expiry hh]
      exact ⟨hle, le_refl _⟩
  refine ⟨hb.1, hb.2, ?_⟩
  have hs' := ha.sorted hs
  have ht' : Tradable prices' e side s0 expiry := by
    refine ⟨ht.side_eq, ht.side_ok, ?_, ht.s0_ne, ha.mem_time ht.expiry_mem⟩
    obtain ⟨r, hr, h1, h2⟩ := ht.start
    exact ⟨r, ha.mem hr ⟨h1.ge, h1.le.trans hb.1⟩, h1, h2⟩
  obtain ⟨o', h1', hE', hSL', hPT', hX'⟩ :=
    evalEvent_spec prices' ptMul slMul e side s0 expiry hs' ht'
  have fP : ∀ t, t ≤ o.endTime →
      (HitsPT prices ptMul e side s0 expiry t ↔ HitsPT prices' ptMul e side s0 expiry t) :=
    fun t h => ⟨fun hh => ha.hitsPT _ _ _ _ _ _ ⟨hh.1, h⟩ hh,
      fun hh => ha.symm.hitsPT _ _ _ _ _ _ ⟨hh.1, h⟩ hh⟩
  have fS : ∀ t, t ≤ o.endTime →
      (HitsSL prices slMul e side s0 expiry t ↔ HitsSL prices' slMul e side s0 expiry t) :=
    fun t h => ⟨fun hh => ha.hitsSL _ _ _ _ _ _ ⟨hh.1, h⟩ hh,
      fun hh => ha.symm.hitsSL _ _ _ _ _ _ ⟨hh.1, h⟩ hh⟩
  have hend : o'.endTime = o.endTime := by
    by_cases hh : ∃ t, HitsPT prices ptMul e side s0 expiry t ∨ HitsSL prices slMul e side s0 expiry t
    · obtain ⟨t, hh⟩ := hh
      have hl := hE.end_hit t hh
      have hl1 : HitsPT prices' ptMul e side s0 expiry o.endTime ∨
          HitsSL prices' slMul e side s0 expiry o.endTime :=
        hl.1.imp (fP _ (le_refl _)).1 (fS _ (le_refl _)).1
      have hl' := hE'.end_hit _ hl1
      have hle' := hl'.2 hl1
      exact le_antisymm hle' (hl.2 (hl'.1.imp (fP _ hle').2 (fS _ hle').2))
    · push Not at hh
      rw [hE.end_expiry hh]
      apply hE'.end_expiry
      intro t
      have hx := hE.end_expiry hh
      exact ⟨fun h => (hh t).1 ((fP t (h.2.1.trans hx.ge)).2 h),
        fun h => (hh t).2 ((fS t (h.2.1.trans hx.ge)).2 h)⟩
  refine ⟨o', h1', hend, ?_⟩
  rw [hend] at hSL' hPT'
  have rowEq : ∀ r ∈ prices, ∀ r' ∈ prices', r.time = o.endTime → r'.time = o.endTime → r' = r := by
    intro r hr r' hr' e1 e2
    exact row_unique hs' hr' (ha.mem hr ⟨by rw [e1]; exact hb.1, e1.le⟩) (e2.trans e1.symm)
  by_cases c1 : HitsSL prices slMul e side s0 expiry o.endTime
  · obtain ⟨r, hr, e1, p, hp, hret⟩ := hSL c1
    obtain ⟨r', hr', e1', p', hp', hret'⟩ := hSL' ((fS _ (le_refl _)).1 c1)
    rw [rowEq r hr r' hr' e1 e1', hp] at hp'
    rw [hret, hret', Option.some.inj hp']
  · by_cases c2 : HitsPT prices ptMul e side s0 expiry o.endTime
    · obtain ⟨r, hr, e1, p, hp, hret⟩ := hPT c1 c2
      obtain ⟨r', hr', e1', p', hp', hret'⟩ :=
        hPT' (fun h => c1 ((fS _ (le_refl _)).2 h)) ((fP _ (le_refl _)).1 c2)
      rw [rowEq r hr r' hr' e1 e1', hp] at hp'
      rw [hret, hret', Option.some.inj hp']
    · have hno : ∀ t, ¬ HitsPT prices ptMul e side s0 expiry t ∧
          ¬ HitsSL prices slMul e side s0 expiry t := by
        intro t
        by_contra hc
        have : HitsPT prices ptMul e side s0 expiry t ∨ HitsSL prices slMul e side s0 expiry t := by
          by_contra hc'
          exact hc (not_or.1 hc')
        rcases (hE.end_hit t this).1 with h | h
        · exact c2 h
        · exact c1 h
      have hx := hE.end_expiry hno
      obtain ⟨r, hr, e1, hret⟩ := hX hno
      obtain ⟨r', hr', e1', hret'⟩ := hX' (fun t =>
        ⟨fun h => (hno t).1 ((fP t (h.2.1.trans hx.ge)).2 h),
          fun h => (hno t).2 ((fS t (h.2.1.trans hx.ge)).2 h)⟩)
      rw [hret, hret', rowEq r hr r' hr' (e1.trans hx.symm) (e1'.trans hx.symm)]

theorem end_on_index (prices : List (Row K)) (ptMul slMul : K) (e : Event K) (side : ℤ)
    (s0 : K) (expiry : ℤ) (hs : SortedTable prices) (ht : Tradable prices e side s0 expiry)
    (o : Outcome K) (ho : evalEvent prices ptMul slMul e expiry = .ok o) :
    o.endTime ∈ prices.map Row.time := by
  obtain ⟨o1, h1, hE, _⟩ := evalEvent_spec prices ptMul slMul e side s0 expiry hs ht
  rw [ho] at h1
  obtain rfl : o = o1 := by injection h1
  rw [List.mem_map]
  by_cases hh : ∃ t, HitsPT prices ptMul e side s0 expiry t ∨ HitsSL prices slMul e side s0 expiry t
  · obtain ⟨t, hh⟩ := hh
    rcases (hE.end_hit t hh).1 with ⟨_, _, _, r, hr, h, _⟩ | ⟨_, _, _, r, hr, h, _⟩
    · exact ⟨r, hr, h⟩
    · exact ⟨r, hr, h⟩
  · push Not at hh
    rw [hE.end_expiry hh]
    exact ht.expiry_mem

theorem forall₂_left {α β : Type} {R : α → β → Prop} {l : List α} {m : List β}
    (h : List.Forall₂ R l m) : ∀ a ∈ l, ∃ b ∈ m, R a b := by
  induction h with
  | nil => intro a ha; cases ha
  | cons h _ ih =>
    intro a ha
    rcases List.mem_cons.1 ha with rfl | ha
    · exact ⟨_, List.mem_cons_self, h⟩
    · obtain ⟨b, hb, h⟩ := ih a ha
      exact ⟨b, List.mem_cons_of_mem _ hb, h⟩

theorem embargo_later (bars : List ℤ) (hb : bars.Pairwise (· < ·)) (s : ℕ) (a b : ℤ)
    (h : ∃ i, bars[i]? = some a ∧ bars[min (i + s) (bars.length - 1)]? = some b) : a ≤ b := by
  obtain ⟨i, h1, h2⟩ := h
  obtain ⟨hi, rfl⟩ := List.getElem?_eq_some_iff.1 h1
  obtain ⟨hj, rfl⟩ := List.getElem?_eq_some_iff.1 h2
  rcases Nat.lt_or_ge i (min (i + s) (bars.length - 1)) with hlt | hge
  · exact (List.pairwise_iff_getElem.1 hb _ _ hi hj hlt).le
  · have : min (i + s) (bars.length - 1) = i := by omega
    simp only [this, le_refl]

/-- The time span of an evaluated event, as given to the splitters. -/
def spanOf (eo : Event K × Outcome K) : ℤ × ℤ := (eo.1.start, eo.2.endTime)

/-- The bars covered by some event of the set. -/
def Covered (outs : List (Event K × Outcome K)) (idx : List ℕ) (t : ℤ) : Prop :=
  ∃ y ∈ idx, ∃ eo, outs[y]? = some eo ∧ eo.1.start ≤ t ∧ t ≤ eo.2.endTime

theorem tripleBarrier_get (prices : List (Row K)) (events : List (Event K)) (ptMul slMul : K)
    (outs : List (Event K × Outcome K)) (h : tripleBarrier prices events ptMul slMul = .ok outs) :
    ∃ last, (prices.map Row.time).getLast? = some last ∧
      List.Forall₂ (fun e eo => eo.1 = e ∧
        evalEvent prices ptMul slMul e (e.expiry.getD last) = .ok eo.2) events outs := by
  by_cases hn : ptMul < 0 ∨ slMul < 0
  · rw [C24_negative_multiplier _ _ _ _ hn] at h
    cases h
  · rw [not_or] at hn
    unfold tripleBarrier at h
    rw [if_neg hn.1, if_neg hn.2] at h
    · obtain ⟨last, hl, h⟩ := py_bind_eq_ok.1 h
      refine ⟨last, ?_, ?_⟩
      · unfold lastTime at hl
        obtain ⟨r, hr, hl⟩ := py_bind_eq_ok.1 hl
        rw [pyLast_eq_ok_iff] at hr
        rw [List.getLast?_map, hr]
        injection hl with hl
        rw [← hl]; rfl
      · rw [mapM_eq_ok_iff] at h
        refine h.imp ?_
        intro e eo h
        obtain ⟨o, ho, h⟩ := py_bind_eq_ok.1 h
        injection h with h
        subst h
        exact ⟨rfl, ho⟩

/-- Labels of the events of `idx` are unchanged if the prices on their own spans are. -/
theorem unchanged (prices prices' : List (Row K)) (hs : SortedTable prices)
    (events : List (Event K)) (ptMul slMul : K) (side : Event K → ℤ) (s0 : Event K → K)
    (last : ℤ) (hl : (prices.map Row.time).getLast? = some last)
    (ht : ∀ e ∈ events, Tradable prices e (side e) (s0 e) (e.expiry.getD last) ∧
      e.start ≤ e.expiry.getD last)
    (outs outs' : List (Event K × Outcome K))
    (h : tripleBarrier prices events ptMul slMul = .ok outs)
    (h' : tripleBarrier prices' events ptMul slMul = .ok outs')
    (htimes : prices.map Row.time = prices'.map Row.time)
    (x : ℕ) (eo : Event K × Outcome K) (hx : outs[x]? = some eo)
    (ha : AgreeOn (fun t => eo.1.start ≤ t ∧ t ≤ eo.2.endTime) prices prices') :
    ∃ eo', outs'[x]? = some eo' ∧ eo'.1 = eo.1 ∧ eo'.2.endTime = eo.2.endTime ∧
      eo'.2.ret = eo.2.ret := by
  obtain ⟨l1, hl1, hf⟩ := tripleBarrier_get _ _ _ _ _ h
  obtain ⟨l2, hl2, hf'⟩ := tripleBarrier_get _ _ _ _ _ h'
  rw [← htimes, hl] at hl2
  rw [hl] at hl1
  obtain rfl : last = l1 := Option.some.inj hl1
  obtain rfl : last = l2 := Option.some.inj hl2
  obtain ⟨hx1, hx2⟩ := List.getElem?_eq_some_iff.1 hx
  have hlen := hf.length_eq
  have hlen' := hf'.length_eq
  have hxe : x < events.length := by omega
  have g := hf.get hxe hx1
  have g' := hf'.get hxe (by omega)
  simp only [List.get_eq_getElem] at g g'
  rw [hx2] at g
  obtain ⟨htr, hle⟩ := ht _ (List.getElem_mem hxe)
  rw [g.1] at ha
  obtain ⟨_, _, o', ho', h1, h2⟩ := C167_ends_only prices prices' ptMul slMul _ _ _ _ hs htr hle _
    g.2 ha
  rw [g'.2] at ho'
  injection ho' with ho'
  refine ⟨outs'[x]'(by omega), List.getElem?_eq_getElem _, g'.1.trans g.1.symm, ?_, ?_⟩
  · rw [ho', h1]
  · rw [ho', h2]

theorem spans_ordered (prices : List (Row K)) (hs : SortedTable prices)
    (events : List (Event K)) (ptMul slMul : K) (side : Event K → ℤ) (s0 : Event K → K)
    (last : ℤ) (hl : (prices.map Row.time).getLast? = some last)
    (ht : ∀ e ∈ events, Tradable prices e (side e) (s0 e) (e.expiry.getD last) ∧
      e.start ≤ e.expiry.getD last)
    (outs : List (Event K × Outcome K))
    (h : tripleBarrier prices events ptMul slMul = .ok outs) :
    ∀ eo ∈ outs, eo.1.start ≤ eo.2.endTime := by
  obtain ⟨l1, hl1, hf⟩ := tripleBarrier_get _ _ _ _ _ h
  rw [hl] at hl1
  obtain rfl : last = l1 := Option.some.inj hl1
  intro eo heo
  obtain ⟨x, hx, rfl⟩ := List.getElem_of_mem heo
  have hlen := hf.length_eq
  have hxe : x < events.length := by omega
  have g := hf.get hxe hx
  simp only [List.get_eq_getElem] at g
  obtain ⟨htr, hle⟩ := ht _ (List.getElem_mem hxe)
  have hrefl : AgreeOn (fun t => events[x].start ≤ t ∧ t ≤ outs[x].2.endTime) prices prices :=
    List.forall₂_same.2 fun _ _ => ⟨rfl, fun _ => rfl⟩
  have := (C167_ends_only prices prices ptMul slMul _ _ _ _ hs htr hle _ g.2 hrefl).1
  rw [g.1]
  exact this

theorem starts_eq (prices : List (Row K)) (events : List (Event K)) (ptMul slMul : K)
    (outs : List (Event K × Outcome K))
    (h : tripleBarrier prices events ptMul slMul = .ok outs) :
    (outs.map spanOf).map Prod.fst = events.map Event.start := by
  obtain ⟨_, _, hf⟩ := tripleBarrier_get _ _ _ _ _ h
  clear h
  induction hf with
  | nil => rfl
  | cons h _ ih =>
    simp only [List.map_cons]
    rw [ih]
    simp only [spanOf, h.1]

variable [FloorRing K]

/-- C167.  Purged k-fold: take the triple-barrier events of a price table in order of their starts,
and any fold.  Replace the prices on the bars covered by test events in any way: every training event
keeps its end and its return.  Replace the prices on the bars covered by training events: every test
event keeps its own. -/
theorem C167_kfold (prices : List (Row K)) (hs : SortedTable prices)
    (events : List (Event K)) (ptMul slMul : K) (side : Event K → ℤ) (s0 : Event K → K)
    (last : ℤ) (hl : (prices.map Row.time).getLast? = some last)
    (ht : ∀ e ∈ events, Tradable prices e (side e) (s0 e) (e.expiry.getD last) ∧
      e.start ≤ e.expiry.getD last)
    (hord : (events.map Event.start).Pairwise (· ≤ ·))
    (outs : List (Event K × Outcome K)) (h : tripleBarrier prices events ptMul slMul = .ok outs)
    (nSplits : ℤ) (pct : K) (hp : 0 ≤ pct) (folds : List (List ℕ × List ℕ))
    (hf : CV.kfoldSplit nSplits pct (.series true ((outs.map spanOf).map CV.closeEv)) = .ok folds)
    (f : List ℕ × List ℕ) (hfm : f ∈ folds)
    (prices' : List (Row K)) (outs' : List (Event K × Outcome K))
    (h' : tripleBarrier prices' events ptMul slMul = .ok outs') :
    (AgreeOn (fun t => ¬ Covered outs f.2 t) prices prices' → ∀ x ∈ f.1, ∃ eo eo',
      outs[x]? = some eo ∧ outs'[x]? = some eo' ∧ eo'.1 = eo.1 ∧
        eo'.2.endTime = eo.2.endTime ∧ eo'.2.ret = eo.2.ret) ∧
    (AgreeOn (fun t => ¬ Covered outs f.1 t) prices prices' → ∀ y ∈ f.2, ∀ eo,
      outs[y]? = some eo → ∃ eo', outs'[y]? = some eo' ∧ eo'.1 = eo.1 ∧
        eo'.2.endTime = eo.2.endTime ∧ eo'.2.ret = eo.2.ret) := by
  have hsp := spans_ordered prices hs events ptMul slMul side s0 last hl ht outs h
  have hnl := (CV.C42_no_leak (outs.map spanOf) (by rwa [starts_eq _ _ _ _ _ h]) (by
    intro e he
    obtain ⟨eo, heo, rfl⟩ := List.mem_map.1 he
    exact hsp eo heo) nSplits pct hp folds hf f hfm).1
  have hapart : ∀ x ∈ f.1, ∃ eo, outs[x]? = some eo ∧ ∀ y ∈ f.2, ∀ eo', outs[y]? = some eo' →
      CV.Apart (spanOf eo) (spanOf eo') := by
    intro x hx
    obtain ⟨ev, hev, hc⟩ := hnl x hx
    rw [List.getElem?_map, Option.map_eq_some_iff] at hev
    obtain ⟨eo, heo, rfl⟩ := hev
    refine ⟨eo, heo, fun y hy eo' heo' => ?_⟩
    have hy' : (outs.map spanOf)[y]? = some (spanOf eo') := by
      rw [List.getElem?_map, heo']; rfl
    rcases hc with hc | hc
    · exact Or.inl (hc y hy _ hy')
    · exact Or.inr (hc.1 y hy _ hy')
  constructor
  · intro ha x hx
    obtain ⟨eo, heo, hap⟩ := hapart x hx
    obtain ⟨eo', h1, h2⟩ := unchanged prices prices' hs events ptMul slMul side s0 last hl ht outs
      outs' h h' ha.times x eo heo (ha.mono (by
        rintro t ⟨h1, h2⟩ ⟨y, hy, eo', heo', h3, h4⟩
        have := hap y hy eo' heo'
        unfold CV.Apart spanOf at this
        simp only at this
        omega))
    exact ⟨eo, eo', heo, h1, h2⟩
  · intro ha y hy eo heo
    exact unchanged prices prices' hs events ptMul slMul side s0 last hl ht outs
      outs' h h' ha.times y eo heo (ha.mono (by
        rintro t ⟨h1, h2⟩ ⟨x, hx, eo', heo', h3, h4⟩
        obtain ⟨eo'', heo'', hap⟩ := hapart x hx
        rw [heo'] at heo''
        obtain rfl := Option.some.inj heo''
        have := hap y hy eo heo
        unfold CV.Apart spanOf at this
        simp only at this
        omega))

/-- C167.  Combinatorial purged splits, same claim for every split. -/
theorem C167_combinatorial (prices : List (Row K)) (hs : SortedTable prices)
    (events : List (Event K)) (ptMul slMul : K) (side : Event K → ℤ) (s0 : Event K → K)
    (last : ℤ) (hl : (prices.map Row.time).getLast? = some last)
    (ht : ∀ e ∈ events, Tradable prices e (side e) (s0 e) (e.expiry.getD last) ∧
      e.start ≤ e.expiry.getD last)
    (outs : List (Event K × Outcome K)) (h : tripleBarrier prices events ptMul slMul = .ok outs)
    (c : CV.Cpcv K) (hev : c.events = (outs.map spanOf).map CV.closeEv)
    (hcb : c.bars = some (prices.map Row.time)) (s : ℕ)
    (hs' : CV.pyInt ((prices.length : K) * c.pct) = s)
    (hin : ∀ g < c.nGroups, ∀ i ∈ c.grp g, i < outs.length) :
    ∃ res, c.splitAll = .ok res ∧ ∀ r ∈ res, ∀ prices' outs',
      tripleBarrier prices' events ptMul slMul = .ok outs' →
      (AgreeOn (fun t => ¬ Covered outs r.2 t) prices prices' → ∀ x ∈ r.1, ∃ eo eo',
        outs[x]? = some eo ∧ outs'[x]? = some eo' ∧ eo'.1 = eo.1 ∧
          eo'.2.endTime = eo.2.endTime ∧ eo'.2.ret = eo.2.ret) ∧
      (AgreeOn (fun t => ¬ Covered outs r.1 t) prices prices' → ∀ y ∈ r.2, ∀ eo,
        outs[y]? = some eo → ∃ eo', outs'[y]? = some eo' ∧ eo'.1 = eo.1 ∧
          eo'.2.endTime = eo.2.endTime ∧ eo'.2.ret = eo.2.ret) := by
  have hsp := spans_ordered prices hs events ptMul slMul side s0 last hl ht outs h
  obtain ⟨l1, hl1, hfa⟩ := tripleBarrier_get _ _ _ _ _ h
  rw [hl] at hl1
  obtain rfl : last = l1 := Option.some.inj hl1
  have hends : ∀ e ∈ outs.map spanOf, e.2 ∈ prices.map Row.time := by
    intro e he
    obtain ⟨eo, heo, rfl⟩ := List.mem_map.1 he
    obtain ⟨x, hx, rfl⟩ := List.getElem_of_mem heo
    have hlen := hfa.length_eq
    have hxe : x < events.length := by omega
    have g := hfa.get hxe hx
    simp only [List.get_eq_getElem] at g
    obtain ⟨htr, hle⟩ := ht _ (List.getElem_mem hxe)
    exact end_on_index prices ptMul slMul _ _ _ _ hs htr _ g.2
  have hne : prices.map Row.time ≠ [] := by
    intro hc
    rw [hc] at hl
    cases hl
  obtain ⟨res, hres, _, hall⟩ := CV.C44_splits c (outs.map spanOf) hev (by
    intro e he
    obtain ⟨eo, heo, rfl⟩ := List.mem_map.1 he
    exact hsp eo heo) _ hcb hs hends hne s (by rwa [List.length_map])
    (by intro g hg i hi; rw [List.length_map]; exact hin g hg i hi)
  refine ⟨res, hres, ?_⟩
  intro r hr prices' outs' h'
  obtain ⟨tests, ext, h1, h2, h3, _⟩ := hall r hr
  have hapart : ∀ x ∈ r.1, ∃ eo, outs[x]? = some eo ∧ ∀ y ∈ r.2, ∀ eo', outs[y]? = some eo' →
      CV.Apart (spanOf eo) (spanOf eo') := by
    intro x hx
    rw [h3] at hx
    unfold CV.admissible at hx
    obtain ⟨q, hq, rfl⟩ := List.mem_map.1 hx
    rw [List.mem_filter, decide_eq_true_eq] at hq
    have hq1 := List.mem_zipIdx' hq.1
    obtain ⟨hlt, hq1⟩ := hq1
    rw [List.length_map] at hlt
    refine ⟨outs[q.2], List.getElem?_eq_getElem hlt, ?_⟩
    intro y hy eo' heo'
    obtain ⟨t, htm, hyt⟩ := forall₂_left h1 y hy
    rw [List.getElem?_map, heo'] at hyt
    obtain rfl : spanOf eo' = t := by injection hyt
    obtain ⟨t', htm', hemb⟩ := forall₂_left h2 _ htm
    have hap := hq.2 t' htm'
    rw [hq1, List.getElem_map] at hap
    have hlater : (spanOf eo').2 ≤ t'.2 := embargo_later _ hs s _ _ hemb.2
    have hfirst := hemb.1
    unfold CV.Apart at *
    omega
  constructor
  · intro ha x hx
    obtain ⟨eo, heo, hap⟩ := hapart x hx
    obtain ⟨eo', h1, h2⟩ := unchanged prices prices' hs events ptMul slMul side s0 last hl ht outs
      outs' h h' ha.times x eo heo (ha.mono (by
        rintro t ⟨h1, h2⟩ ⟨y, hy, eo', heo', h3, h4⟩
        have := hap y hy eo' heo'
        unfold CV.Apart spanOf at this
        simp only at this
        omega))
    exact ⟨eo, eo', heo, h1, h2⟩
  · intro ha y hy eo heo
    exact unchanged prices prices' hs events ptMul slMul side s0 last hl ht outs
      outs' h h' ha.times y eo heo (ha.mono (by
        rintro t ⟨h1, h2⟩ ⟨x, hx, eo', heo', h3, h4⟩
        obtain ⟨eo'', heo'', hap⟩ := hapart x hx
        rw [heo'] at heo''
        obtain rfl := Option.some.inj heo''
        have := hap y hy eo heo
        unfold CV.Apart spanOf at this
        simp only at this
        omega))

/-! ## A concrete case

Bars 0..5; the first event ends at its profit barrier on bar 1, before its expiry on bar 3; the
second starts on bar 3. -/

/-- Prices, with a given high on bar 3. -/
def leakPrices (h : ℚ) : List (Row ℚ) :=
  [⟨0, some 10, some 10, some 10, some 10⟩, ⟨1, some 10, some 13, some 10, some 12⟩,
   ⟨2, some 12, some 12, some 11, some 11⟩, ⟨3, some 11, some h, some 11, some 11⟩,
   ⟨4, some 11, some 11, some 11, some 11⟩, ⟨5, some 11, some 11, some 11, some 11⟩]

/-- Two long trades. -/
def leakEvents : List (Event ℚ) :=
  [⟨0, some 3, some (1 / 5), some 1⟩, ⟨3, some 4, some (1 / 5), some 1⟩]

example : tripleBarrier (leakPrices 11) leakEvents 1 1 =
    .ok [(⟨0, some 3, some (1 / 5), some 1⟩, ⟨some 1, none, 1, some (3 / 10)⟩),
      (⟨3, some 4, some (1 / 5), some 1⟩, ⟨none, none, 4, some 0⟩)] := by decide +kernel

example : tripleBarrier (leakPrices 22) leakEvents 1 1 =
    .ok [(⟨0, some 3, some (1 / 5), some 1⟩, ⟨some 1, none, 1, some (3 / 10)⟩),
      (⟨3, some 4, some (1 / 5), some 1⟩, ⟨some 3, none, 3, some 1⟩)] := by decide +kernel

example : AgreeOn (fun t => ¬ (3 ≤ t ∧ t ≤ 4)) (leakPrices 11) (leakPrices 22) := by
  unfold AgreeOn leakPrices
  simp

example : CV.kfoldSplit 2 (0 : ℚ) (.series true ([(0, 1), (3, 4)].map CV.closeEv)) =
    .ok [([], [0]), ([0], [1])] := by decide +kernel

end FinML.Labels
