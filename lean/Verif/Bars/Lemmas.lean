import Verif.Bars.Spec
import Verif.Py.Lemmas
import Verif.Py.GroupBy
import Mathlib.Algebra.Order.BigOperators.Group.List

/-! # Helper lemmas for bars -/

set_option linter.unusedSectionVars false

namespace FinML.Bars

variable {K : Type} [Field K] [LinearOrder K] [IsStrictOrderedRing K]

theorem computeBarStats_iff (ticks : List (Tick K)) (b : Bar K) :
    computeBarStats ticks = .ok b ↔ IsBarOf ticks b := by
  unfold computeBarStats
  simp only [py_bind_eq_ok, pyGet_eq_ok_iff, npMax_eq_ok_iff, npMin_eq_ok_iff, pyLast_eq_ok_iff,
    py_pure, Except.ok.injEq]
  have hset : ∀ p : K, (p ∈ ticks.map Tick.price) = ∃ t ∈ ticks, t.price = p := by
    intro p; simp
  simp only [hset]
  constructor
  · rintro ⟨f, hf, hi, hhi, lo, hlo, la, hla, rfl⟩
    have hf' : ticks.head? = some f := by rw [List.head?_eq_getElem?]; exact hf
    refine ⟨⟨by simp [hf'], by simp [hla], hhi, hlo, rfl, ?_, ?_⟩, by simp [hf']⟩
    · intro h
      change fdiv _ (volumeOf ticks) = none
      simp [fdiv, h]
    · intro h
      refine ⟨dollarsOf ticks / volumeOf ticks, ?_, div_mul_cancel₀ _ h⟩
      change fdiv (dollarsOf ticks) (volumeOf ticks) = _
      simp [fdiv, h]
  · intro h
    obtain ⟨⟨h1, h2, h3, h4, h5, h6, h7⟩, h8⟩ := h
    rw [Option.map_eq_some_iff] at h1 h2 h8
    obtain ⟨f, hf, hf1⟩ := h1
    obtain ⟨f', hf', hf2⟩ := h8
    obtain ⟨la, hla, hla1⟩ := h2
    rw [hf] at hf'
    cases hf'
    refine ⟨f, by rw [← List.head?_eq_getElem?]; exact hf, b.high, h3, b.low, h4, la, hla, ?_⟩
    have hv : computeVwap ticks = b.vwap := by
      change fdiv (dollarsOf ticks) (volumeOf ticks) = _
      by_cases h0 : volumeOf ticks = 0
      · rw [h6 h0]; simp [fdiv, h0]
      · obtain ⟨w, hw, hw2⟩ := h7 h0
        rw [hw]
        simp only [fdiv, h0, if_false, Option.some.injEq]
        rw [← hw2, mul_div_cancel_right₀ _ h0]
    rw [hv, hf1, hf2, hla1]
    change { time := b.time, op := b.op, high := b.high, low := b.low, close := b.close,
             volume := volumeOf ticks, vwap := b.vwap } = b
    rw [← h5]

theorem computeBarStats_ok (ticks : List (Tick K)) (h : ticks ≠ []) :
    ∃ b, computeBarStats ticks = .ok b := by
  cases ticks with
  | nil => exact absurd rfl h
  | cons t ts =>
    have : pyLast (t :: ts) = .ok ((t :: ts).getLast (by simp)) := by
      rw [pyLast_eq_ok_iff, List.getLast?_eq_some_getLast]
    simp [computeBarStats, pyGet, npMax, npMin, this]

theorem IsBarOf.unique {ticks : List (Tick K)} {b b' : Bar K} (h : IsBarOf ticks b)
    (h' : IsBarOf ticks b') : b = b' := by
  have := (computeBarStats_iff ticks b).2 h
  rw [(computeBarStats_iff ticks b').2 h'] at this
  cases this; rfl

/-- Bars built from groups of a nonempty family always exist. -/
theorem mapM_barStats_ok {ι : Type} (gs : List (ι × List (Tick K))) (h : ∀ g ∈ gs, g.2 ≠ []) :
    ∃ bars, gs.mapM (fun g => computeBarStats g.2) = .ok bars ∧
      List.Forall₂ (fun g b => IsBarOf g.2 b) gs bars := by
  induction gs with
  | nil => exact ⟨[], rfl, .nil⟩
  | cons g gs ih =>
    obtain ⟨bars, h1, h2⟩ := ih fun g hg => h g (by simp [hg])
    obtain ⟨b, hb⟩ := computeBarStats_ok g.2 (h g (by simp))
    refine ⟨b :: bars, ?_, .cons ((computeBarStats_iff _ _).1 hb) h2⟩
    rw [mapM_cons_py, hb, h1]; rfl

theorem groupTicksToBars_iff {ι : Type} [LinearOrder ι] (ids : List ι) (ticks : List (Tick K))
    (bars : List (Bar K)) :
    groupTicksToBars ids ticks = .ok bars ↔
      List.Forall₂ (fun g b => IsBarOf g.2 b) (groupBy ids ticks) bars := by
  unfold groupTicksToBars
  rw [mapM_eq_ok_iff]
  constructor <;> intro h <;> refine h.imp fun g b hb => ?_
  · exact (computeBarStats_iff _ _).1 hb
  · exact (computeBarStats_iff _ _).2 hb

theorem groupTicksToBars_ok {ι : Type} [LinearOrder ι] (ids : List ι) (ticks : List (Tick K))
    (h : ids.length = ticks.length) : ∃ bars, groupTicksToBars ids ticks = .ok bars := by
  obtain ⟨bars, hb, _⟩ := mapM_barStats_ok (groupBy ids ticks) (groupBy_ne_nil ids ticks h)
  exact ⟨bars, hb⟩

/-- Nondecreasing ids: the bars are a cut of the stream. -/
theorem isCut_of_sorted {ι : Type} [LinearOrder ι] (ids : List ι) (ticks : List (Tick K))
    (h : ids.length = ticks.length) (hs : ids.Pairwise (· ≤ ·)) (bars : List (Bar K))
    (hb : groupTicksToBars ids ticks = .ok bars) :
    IsCut ticks ((groupBy ids ticks).map Prod.snd) bars := by
  refine ⟨?_, ?_, ?_⟩
  · rw [← List.flatMap_def, groupBy_flatten ids ticks h hs]
  · intro p hp
    rw [List.mem_map] at hp
    obtain ⟨g, hg, rfl⟩ := hp
    exact groupBy_ne_nil ids ticks h g hg
  · rw [List.forall₂_map_left_iff]
    exact (groupTicksToBars_iff ids ticks bars).1 hb

theorem sum_volume_of_forall₂ {ps : List (List (Tick K))} {bars : List (Bar K)}
    (h : List.Forall₂ IsBarOf ps bars) :
    (bars.map Bar.volume).sum = volumeOf ps.flatten := by
  induction h with
  | nil => simp [volumeOf]
  | cons h1 _ ih =>
    simp only [List.map_cons, List.sum_cons, ih, h1.volume, volumeOf, List.flatten_cons,
      List.map_append, List.sum_append]

theorem volumeOf_append (a b : List (Tick K)) : volumeOf (a ++ b) = volumeOf a + volumeOf b := by
  simp [volumeOf]

theorem dollarsOf_append (a b : List (Tick K)) : dollarsOf (a ++ b) = dollarsOf a + dollarsOf b := by
  simp [dollarsOf]

/-! ### Blocks -/

theorem flatMap_blocks {α : Type} (f : ℕ) (c : ℕ) (l : List α) (h : l.length ≤ c * f) :
    ((List.range c).flatMap fun k => (l.drop (k * f)).take f) = l := by
  induction c generalizing l with
  | zero => simp at h; simp [h]
  | succ c ih =>
    rw [List.range_succ_eq_map, List.flatMap_cons, List.flatMap_map]
    simp only [zero_mul, List.drop_zero]
    have := ih (l.drop f) (by simp; rw [Nat.succ_mul] at h; omega)
    conv_rhs => rw [← List.take_append_drop f l, ← this]
    congr 1
    apply List.flatMap_congr
    intro k _
    rw [List.drop_drop, Nat.succ_mul, add_comm]

theorem ceil_blocks (n f : ℕ) (hf : 0 < f) : n ≤ ((n + f - 1) / f) * f := by
  have h1 := Nat.div_add_mod (n + f - 1) f
  have h2 := Nat.mod_lt (n + f - 1) hf
  rw [mul_comm]
  omega

theorem block_pos (n f k : ℕ) (hf : 0 < f) (hk : k < (n + f - 1) / f) : k * f < n := by
  have h1 : (k + 1) * f ≤ n + f - 1 := by
    calc (k + 1) * f ≤ ((n + f - 1) / f) * f := Nat.mul_le_mul_right f hk
      _ ≤ n + f - 1 := Nat.div_mul_le_self _ _
  rw [Nat.add_mul] at h1
  omega

theorem block_const (n f k : ℕ) :
    (((List.range n).map (· / f)).drop (k * f)).take f =
      List.replicate (min f (n - k * f)) k := by
  rw [List.eq_replicate_iff]
  refine ⟨by simp, ?_⟩
  intro b hb
  obtain ⟨i, hi, rfl⟩ := List.mem_iff_getElem.1 hb
  simp at hi ⊢
  apply Nat.div_eq_of_lt_le
  · omega
  · rw [Nat.succ_mul]; omega

/-- Grouping by `index // f` returns the blocks of length `f`. -/
theorem groupBy_blocks {α : Type} (f : ℕ) (hf : 0 < f) (l : List α) :
    groupBy ((List.range l.length).map (· / f)) l =
      (List.range ((l.length + f - 1) / f)).map fun k => (k, (l.drop (k * f)).take f) := by
  set c := (l.length + f - 1) / f with hc
  have hle : l.length ≤ c * f := ceil_blocks _ _ hf
  have h := groupBy_pieces ((List.range c).map fun k => (k, (l.drop (k * f)).take f))
    (by
      rw [List.map_map]
      have : (Prod.fst ∘ fun k => (k, (l.drop (k * f)).take f)) = id := rfl
      rw [this, List.map_id]
      exact List.pairwise_lt_range)
    (by
      intro p hp
      rw [List.mem_map] at hp
      obtain ⟨k, hk, rfl⟩ := hp
      have := block_pos l.length f k hf (by simpa using hk)
      intro h0
      have h1 := congrArg List.length h0
      simp at h1
      omega)
  rw [List.flatMap_map, List.flatMap_map] at h
  simp only at h
  rw [flatMap_blocks f c l hle] at h
  have h2 : ((List.range c).flatMap fun a => List.replicate (((l.drop (a * f)).take f).length) a)
      = (List.range l.length).map (· / f) := by
    rw [← flatMap_blocks f c ((List.range l.length).map (· / f)) (by simpa using hle)]
    apply List.flatMap_congr
    intro k _
    rw [block_const _ _ _]
    simp
  rw [h2] at h
  exact h

section Floor

variable [FloorRing K]

theorem floorDiv_natCast (i f : ℕ) (hf : 0 < f) : floorDiv (i : K) (f : K) = ((i / f : ℕ) : ℤ) := by
  unfold floorDiv
  rw [Int.floor_eq_iff]
  have hf' : (0 : K) < f := by exact_mod_cast hf
  constructor
  · rw [le_div_iff₀ hf']
    have := Nat.div_mul_le_self i f
    exact_mod_cast this
  · rw [div_lt_iff₀ hf']
    have h : i < (i / f + 1) * f := by
      have := Nat.lt_mul_div_succ i hf
      rw [mul_comm] at this
      exact this
    exact_mod_cast h

/-- Quantity of a list of rows. -/
def qty {α : Type} (q : α → K) (l : List α) : K := (l.map q).sum

theorem cumIds_length (f : K) (l : List K) : (cumIds f l).length = l.length := by
  simp [cumIds]

theorem getElem?_cumIds (f : K) (l : List K) (i : ℕ) (h : i < l.length) :
    (cumIds f l)[i]? = some (floorDiv (l.take (i + 1)).sum f) := by
  simp [cumIds, getElem?_cumsum l i h]

theorem cumIds_sorted (f : K) (hf : 0 < f) (l : List K) (h : ∀ x ∈ l, 0 ≤ x) :
    (cumIds f l).Pairwise (· ≤ ·) := by
  unfold cumIds
  rw [List.pairwise_map]
  refine (cumsumFrom_pairwise 0 l h).imp ?_
  intro a b hab
  exact Int.floor_le_floor ((div_le_div_iff_of_pos_right hf).2 hab)

theorem floorDiv_bounds (c f : K) (hf : 0 < f) :
    (floorDiv c f : K) * f ≤ c ∧ c < ((floorDiv c f : K) + 1) * f := by
  unfold floorDiv
  constructor
  · rw [← le_div_iff₀ hf]; exact Int.floor_le _
  · rw [← div_lt_iff₀ hf]; exact Int.lt_floor_add_one _

/-- Bars cut by a cumulative quantity. -/
theorem cumGroups {α : Type} (q : α → K) (f : K) (hf : 0 < f) (xs : List α)
    (hq : ∀ x ∈ xs, 0 ≤ q x) :
    ∃ pieces : List (ℤ × List α),
      groupBy (cumIds f (xs.map q)) xs = pieces ∧
      (pieces.map Prod.fst).Pairwise (· < ·) ∧ (∀ p ∈ pieces, p.2 ≠ []) ∧
      cumIds f (xs.map q) = (pieces.flatMap fun p => List.replicate p.2.length p.1) ∧
      xs = pieces.flatMap Prod.snd ∧
      ∀ (pre : List (ℤ × List α)) (k : ℤ) (g : List α) (post : List (ℤ × List α)),
        pieces = pre ++ (k, g) :: post →
        ∀ u v, g = u ++ v → u ≠ [] →
          (k : K) * f ≤ qty q (pre.flatMap Prod.snd ++ u) ∧
          qty q (pre.flatMap Prod.snd ++ u) < ((k : K) + 1) * f := by
  have hlen : (cumIds f (xs.map q)).length = xs.length := by simp [cumIds_length]
  have hs := cumIds_sorted f hf (xs.map q) (by
    intro x hx
    rw [List.mem_map] at hx
    obtain ⟨a, ha, rfl⟩ := hx
    exact hq a ha)
  obtain ⟨pieces, h1, h2, h3, h4⟩ := exists_pieces _ xs hlen hs
  refine ⟨pieces, ?_, h1, h2, h3, h4, ?_⟩
  · rw [h3, h4, groupBy_pieces pieces h1 h2]
  · intro pre k g post hp u v hg hu
    obtain ⟨u', x, rfl⟩ : ∃ u' x, u = u' ++ [x] := by
      rcases List.eq_nil_or_concat u with h | ⟨u', x, h⟩
      · exact absurd h hu
      · exact ⟨u', x, by simpa using h⟩
    set i := (pre.flatMap Prod.snd).length + u'.length with hi
    have hxs : xs = (pre.flatMap Prod.snd ++ (u' ++ [x])) ++ (v ++ post.flatMap Prod.snd) := by
      rw [h4, hp, hg]; simp
    have hi' : i < (xs.map q).length := by
      rw [hxs]; simp [hi]
    have hid := getElem?_cumIds f (xs.map q) i hi'
    have htake : ((xs.map q).take (i + 1)).sum = qty q (pre.flatMap Prod.snd ++ (u' ++ [x])) := by
      rw [← List.map_take]
      have : xs.take (i + 1) = pre.flatMap Prod.snd ++ (u' ++ [x]) := by
        conv_lhs => rw [hxs]
        rw [List.take_append_of_le_length (by simp [hi]; omega)]
        apply List.take_of_length_le
        simp [hi]; omega
      rw [this]; rfl
    rw [htake] at hid
    have hidk : (cumIds f (xs.map q))[i]? = some k := by
      rw [h3, hp, List.flatMap_append, List.flatMap_cons]
      have hl : (pre.flatMap fun p => List.replicate p.2.length p.1).length =
          (pre.flatMap Prod.snd).length := by
        simp [List.length_flatMap]
      rw [List.getElem?_append_right (by rw [hl]; omega), hl,
        List.getElem?_append_left (by simp [hg, hi])]
      rw [List.getElem?_replicate, if_pos]
      simp [hg, hi]
    rw [hid] at hidk
    cases hidk
    exact floorDiv_bounds _ f hf

theorem cumGroups_first {α : Type} (q : α → K) (f : K) (pre : List (ℤ × List α)) (k : ℤ)
    (g : List α) (x : α) (l : List α) (hg : g = x :: l)
    (h : ∀ u v, g = u ++ v → u ≠ [] →
          (k : K) * f ≤ qty q (pre.flatMap Prod.snd ++ u) ∧
          qty q (pre.flatMap Prod.snd ++ u) < ((k : K) + 1) * f) :
    qty q g < f + q x := by
  have h1 := (h [x] l (by simpa using hg) (by simp)).1
  have h2 := (h g [] (by simp) (by simp [hg])).2
  simp only [qty, List.map_append, List.sum_append, List.map_cons, List.map_nil, List.sum_cons,
    List.sum_nil] at h1 h2 ⊢
  rw [add_mul] at h2
  linarith

end Floor

/-! ### Resampling -/

theorem volumeOf_eq_zero (ticks : List (Tick K)) (h : ∀ t ∈ ticks, 0 ≤ t.volume)
    (h0 : volumeOf ticks = 0) : dollarsOf ticks = 0 := by
  induction ticks with
  | nil => rfl
  | cons t ts ih =>
    have h1 : 0 ≤ volumeOf ts := List.sum_nonneg (by
      intro x hx
      rw [List.mem_map] at hx
      obtain ⟨a, ha, rfl⟩ := hx
      exact h a (by simp [ha]))
    have ht := h t (by simp)
    have : t.volume + volumeOf ts = 0 := h0
    have h2 : t.volume = 0 := by linarith
    have h3 : volumeOf ts = 0 := by linarith
    have h4 := ih (fun a ha => h a (by simp [ha])) h3
    change t.price * t.volume + dollarsOf ts = 0
    rw [h2, h4]; simp

theorem resampleBarStats_spec (pieces : List (List (Tick K))) (bars : List (Bar K))
    (hne : pieces ≠ []) (hf : List.Forall₂ IsBarOf pieces bars)
    (hv : ∀ p ∈ pieces, ∀ t ∈ p, 0 ≤ t.volume) :
    ∃ B, resampleBarStats bars = .ok B ∧ IsBarOf pieces.flatten B := by
  cases hf with
  | nil => exact absurd rfl hne
  | @cons p b ps bs hb hbs =>
    -- components that need induction
    have hvol : ∀ (ps : List (List (Tick K))) (bs : List (Bar K)), List.Forall₂ IsBarOf ps bs →
        (bs.map Bar.volume).sum = volumeOf ps.flatten := fun ps bs h => sum_volume_of_forall₂ h
    have hdol : ∀ (ps : List (List (Tick K))) (bs : List (Bar K)), List.Forall₂ IsBarOf ps bs →
        (∀ p ∈ ps, ∀ t ∈ p, 0 ≤ t.volume) →
        (bs.map barDollars).sum = dollarsOf ps.flatten := by
      intro ps bs h
      induction h with
      | nil => intro _; rfl
      | @cons p b ps bs h1 h2 ih =>
        intro hv
        have ih := ih fun p hp => hv p (by simp [hp])
        simp only [List.map_cons, List.sum_cons, ih, List.flatten_cons, dollarsOf_append]
        congr 1
        by_cases h0 : volumeOf p = 0
        · rw [barDollars, h1.vwap_none h0, volumeOf_eq_zero p (hv p (by simp)) h0]
        · obtain ⟨w, hw, hw2⟩ := h1.vwap_some h0
          rw [barDollars, hw, h1.volume]; exact hw2
    have hlast : ∀ (ps : List (List (Tick K))) (bs : List (Bar K)), List.Forall₂ IsBarOf ps bs →
        ps ≠ [] → ∃ lb, bs.getLast? = some lb ∧
          ps.flatten.getLast?.map Tick.price = some lb.close := by
      intro ps bs h
      induction h with
      | nil => intro h; exact absurd rfl h
      | @cons p b ps bs h1 h2 ih =>
        intro _
        cases h2 with
        | nil => exact ⟨b, by simp, by simpa using h1.closes⟩
        | @cons p' b' ps bs h3 h4 =>
          obtain ⟨lb, hlb, hc⟩ := ih (by simp)
          refine ⟨lb, by rw [List.getLast?_cons_cons]; exact hlb, ?_⟩
          rw [List.flatten_cons, List.getLast?_append]
          cases hl : (p' :: ps).flatten.getLast? with
          | none => rw [hl] at hc; simp at hc
          | some z => rw [hl] at hc; simpa using hc
    have hall := List.Forall₂.cons hb hbs
    obtain ⟨lb, hlb, hc⟩ := hlast _ _ hall (by simp)
    have hhigh : IsGreatest {y | ∃ t ∈ (p :: ps).flatten, t.price = y}
        ((bs.map Bar.high).foldl max b.high) := by
      have hg := foldl_max_isGreatest b.high (bs.map Bar.high)
      have key : ∀ (ps : List (List (Tick K))) (bs : List (Bar K)), List.Forall₂ IsBarOf ps bs →
          (∀ y, y ∈ bs.map Bar.high → ∃ t ∈ ps.flatten, t.price = y) ∧
          (∀ t ∈ ps.flatten, ∃ y ∈ bs.map Bar.high, t.price ≤ y) := by
        intro ps bs h
        induction h with
        | nil => simp
        | @cons p b ps bs h1 _ ih =>
          obtain ⟨i1, i2⟩ := ih
          constructor
          · intro y hy
            rw [List.map_cons, List.mem_cons] at hy
            rcases hy with rfl | hy
            · obtain ⟨t, ht, hp⟩ := h1.high.1
              exact ⟨t, by simp [ht], hp⟩
            · obtain ⟨t, ht, hp⟩ := i1 y hy
              exact ⟨t, by rw [List.flatten_cons]; exact List.mem_append_right _ ht, hp⟩
          · intro t ht
            rw [List.flatten_cons, List.mem_append] at ht
            rcases ht with ht | ht
            · exact ⟨b.high, by simp, h1.high.2 ⟨t, ht, rfl⟩⟩
            · obtain ⟨y, hy, hle⟩ := i2 t ht
              exact ⟨y, by rw [List.map_cons]; exact List.mem_cons_of_mem _ hy, hle⟩
      obtain ⟨k1, k2⟩ := key _ _ hall
      rw [List.map_cons] at k1 k2
      refine ⟨k1 _ hg.1, ?_⟩
      rintro y ⟨t, ht, rfl⟩
      obtain ⟨z, hz, hle⟩ := k2 t ht
      exact hle.trans (hg.2 hz)
    have hlow : IsLeast {y | ∃ t ∈ (p :: ps).flatten, t.price = y}
        ((bs.map Bar.low).foldl min b.low) := by
      have hg := foldl_min_isLeast b.low (bs.map Bar.low)
      have key : ∀ (ps : List (List (Tick K))) (bs : List (Bar K)), List.Forall₂ IsBarOf ps bs →
          (∀ y, y ∈ bs.map Bar.low → ∃ t ∈ ps.flatten, t.price = y) ∧
          (∀ t ∈ ps.flatten, ∃ y ∈ bs.map Bar.low, y ≤ t.price) := by
        intro ps bs h
        induction h with
        | nil => simp
        | @cons p b ps bs h1 _ ih =>
          obtain ⟨i1, i2⟩ := ih
          constructor
          · intro y hy
            rw [List.map_cons, List.mem_cons] at hy
            rcases hy with rfl | hy
            · obtain ⟨t, ht, hp⟩ := h1.low.1
              exact ⟨t, by simp [ht], hp⟩
            · obtain ⟨t, ht, hp⟩ := i1 y hy
              exact ⟨t, by rw [List.flatten_cons]; exact List.mem_append_right _ ht, hp⟩
          · intro t ht
            rw [List.flatten_cons, List.mem_append] at ht
            rcases ht with ht | ht
            · exact ⟨b.low, by simp, h1.low.2 ⟨t, ht, rfl⟩⟩
            · obtain ⟨y, hy, hle⟩ := i2 t ht
              exact ⟨y, by rw [List.map_cons]; exact List.mem_cons_of_mem _ hy, hle⟩
      obtain ⟨k1, k2⟩ := key _ _ hall
      rw [List.map_cons] at k1 k2
      refine ⟨k1 _ hg.1, ?_⟩
      rintro y ⟨t, ht, rfl⟩
      obtain ⟨z, hz, hle⟩ := k2 t ht
      exact (hg.2 hz).trans hle
    have hhead : ((p :: ps).flatten).head?.map Tick.price = some b.op ∧
        ((p :: ps).flatten).head?.map Tick.time = some b.time := by
      have h1 := hb.opens
      have h2 := hb.time
      cases p with
      | nil => simp at h1
      | cons t l => exact ⟨by simpa using h1, by simpa using h2⟩
    refine ⟨{ time := b.time, op := b.op, high := (bs.map Bar.high).foldl max b.high,
              low := (bs.map Bar.low).foldl min b.low, close := lb.close,
              volume := ((b :: bs).map Bar.volume).sum, vwap := resampleVwap (b :: bs) }, ?_, ?_⟩
    · unfold resampleBarStats
      simp only [pyGet, List.getElem?_cons_zero, py_bind_ok, List.map_cons, npMax, npMin,
        (pyLast_eq_ok_iff _ _).2 hlb, py_pure]
    · have e1 := hvol _ _ hall
      have e2 := hdol _ _ hall hv
      refine ⟨⟨hhead.1, hc, hhigh, hlow, ?_, ?_, ?_⟩, hhead.2⟩
      · exact e1
      · intro h0
        change resampleVwap (b :: bs) = none
        unfold resampleVwap fdiv
        rw [e1, if_pos h0]
      · intro h0
        refine ⟨dollarsOf (p :: ps).flatten / volumeOf (p :: ps).flatten, ?_, div_mul_cancel₀ _ h0⟩
        change resampleVwap (b :: bs) = _
        unfold resampleVwap fdiv
        rw [e1, e2, if_neg h0]

end FinML.Bars
