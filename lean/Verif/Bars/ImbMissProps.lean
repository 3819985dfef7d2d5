import Verif.Bars.TickMissProps
import Verif.Bars.MissProps
import Verif.Bars.LoopLemmas

/-!
# Imbalance bars after a missing price (C349)

The imbalance and the size of the current bar become NaN, and no comparison with NaN holds: not the one with the threshold,
nor the one with `max_bar_size`.
-/

namespace FinML.Bars

set_option linter.unusedSectionVars false

variable {K : Type} [Field K] [LinearOrder K] [IsStrictOrderedRing K]

/-- C349, the full claim: no tick imbalance bar has more ticks than `max_bar_size`. -/
def MaxSizeKept (K : Type) [Field K] [LinearOrder K] [IsStrictOrderedRing K] : Prop :=
  ∀ (max ETInit : ℕ) (absEb b0 : K) (ticks : List (MTick K)) (bars : List (MBar K)) (ids : List ℕ), 2 ≤ max → |b0| = 1 →
    aggregateImbalanceBarsM .tick 0 (some (max : K)) b0 ETInit (some absEb) none none ticks = .ok (bars, ids) →
    ∀ k, ids.count k ≤ max

/-- C349.  After the missing price, seven ticks are put into one bar of at most two. -/
theorem C349_counterexample : ¬ MaxSizeKept ℚ := by
  intro h
  obtain ⟨r, hr⟩ : ∃ r, aggregateImbalanceBarsM (K := ℚ) .tick 0 (some ((2 : ℕ) : ℚ)) 1 10 (some 1) none none
      [⟨0, some 1, some 1⟩, ⟨1, some 2, some 1⟩, ⟨2, none, some 1⟩, ⟨3, some 2, some 1⟩, ⟨4, some 3, some 1⟩,
       ⟨5, some 4, some 1⟩, ⟨6, some 5, some 1⟩] = .ok (r, [0, 0, 1, 1, 1, 1, 1]) := by
    refine ⟨[⟨0, some 1, some 2, some 1, some 2, 2, some (3 / 2)⟩, ⟨2, none, some 5, some 2, some 5, 5, some (14 / 5)⟩], ?_⟩
    decide +kernel
  have := h 2 10 1 1 _ _ _ le_rfl (by norm_num) hr 1
  revert this
  decide

/-! ## The loop -/

/-- Where the bars so far end, after the ticks up to `k`. -/
structure EndsOk (k : ℕ) (s : ImbStateM K) : Prop where
  inc : s.ends.Pairwise (· < ·)
  le : ∀ e ∈ s.ends, e ≤ k
  start : (s.start = 0 ∧ s.ends = []) ∨ (1 ≤ s.start ∧ s.start ≤ k + 1 ∧ s.ends.getLast? = some (s.start - 1))

/-- The bar can no longer be closed. -/
structure Stuck (s : ImbStateM K) : Prop where
  size : s.size = none
  theta : s.theta = none
  padding : s.padding = false

theorem closeM_ok (p : LoopParams K) (b : List (Option K)) (s s' : ImbStateM K) (i : ℕ) (h : closeM p b s i = .ok s') :
    s'.ends = s.ends ++ [i] ∧ s'.start = i + 1 ∧ s'.padding = false := by
  unfold closeM at h
  simp only [py_bind_eq_ok] at h
  obtain ⟨_, -, _, -, h⟩ := h
  cases h
  exact ⟨rfl, rfl, rfl⟩

/-- A step either leaves the bars alone or ends one at its tick. -/
theorem imbStepM_cases (p : LoopParams K) (b : List (Option K)) (s s' : ImbStateM K) (i : ℕ)
    (h : imbStepM p b s i = .ok s') :
    (s'.ends = s.ends ∧ s'.start = s.start) ∨ (s'.ends = s.ends ++ [i] ∧ s'.start = i + 1 ∧ s'.padding = false) := by
  unfold imbStepM at h
  rw [py_bind_eq_ok] at h
  obtain ⟨x, -, h⟩ := h
  simp only at h
  split_ifs at h
  · cases h
    exact .inl ⟨rfl, rfl⟩
  · exact .inr (closeM_ok p b s s' i h)
  · cases h
    exact .inl ⟨rfl, rfl⟩

theorem endsOk_step (p : LoopParams K) (b : List (Option K)) (s s' : ImbStateM K) (i : ℕ) (hs : EndsOk i s)
    (h : imbStepM p b s (i + 1) = .ok s') : EndsOk (i + 1) s' := by
  rcases imbStepM_cases p b s s' (i + 1) h with ⟨h1, h2⟩ | ⟨h1, h2, -⟩
  · refine ⟨h1 ▸ hs.inc, fun e he => (hs.le e (h1 ▸ he)).trans (by omega), ?_⟩
    rw [h1, h2]
    exact hs.start.imp id fun h => ⟨h.1, by omega, h.2.2⟩
  · refine ⟨?_, ?_, .inr ⟨by omega, by omega, by rw [h1, h2]; simp⟩⟩
    · rw [h1, List.pairwise_append]
      refine ⟨hs.inc, List.pairwise_singleton _ _, fun a ha c hc => ?_⟩
      rw [List.mem_singleton] at hc
      have := hs.le a ha
      omega
    · intro e he
      rw [h1, List.mem_append, List.mem_singleton] at he
      rcases he with he | he
      · exact (hs.le e he).trans (by omega)
      · omega

/-- At an unknown flow the loop gets stuck, or ends a bar that was waiting for its minimal size. -/
theorem imbStepM_none (p : LoopParams K) (b : List (Option K)) (s s' : ImbStateM K) (i : ℕ) (hb : b[i]? = some none)
    (h : imbStepM p b s i = .ok s') : s'.padding = false ∧ (s.padding = false → s'.ends = s.ends ∧ Stuck s') := by
  have hx : pyGet b i = .ok none := by unfold pyGet; rw [hb]
  have e : ∀ a : Option K, addM a none = none := fun a => by cases a <;> rfl
  have hc : closesM p s.threshold none none s.padding = s.padding := by simp [closesM, geM]
  unfold imbStepM at h
  rw [hx, py_bind_ok] at h
  simp only [Option.map_none, e, hc] at h
  cases hp : s.padding with
  | true =>
    rw [hp, if_pos rfl, if_neg (by simp [ltM])] at h
    exact ⟨(closeM_ok p b s s' i h).2.2, fun h' => by cases h'⟩
  | false =>
    rw [hp, if_neg (by simp)] at h
    cases h
    exact ⟨by simp, fun _ => ⟨rfl, rfl, rfl, by simp⟩⟩

theorem stuck_step (p : LoopParams K) (b : List (Option K)) (s s' : ImbStateM K) (i : ℕ) (hs : Stuck s)
    (h : imbStepM p b s i = .ok s') : s'.ends = s.ends ∧ s'.start = s.start ∧ Stuck s' := by
  unfold imbStepM at h
  rw [py_bind_eq_ok] at h
  obtain ⟨x, -, h⟩ := h
  have e : ∀ a : Option K, addM none a = none := fun a => rfl
  have hc : closesM p s.threshold none none false = false := by simp [closesM, geM]
  simp only [hs.size, hs.theta, hs.padding, e, hc] at h
  rw [if_neg (by simp)] at h
  cases h
  exact ⟨rfl, rfl, rfl, rfl, rfl⟩

theorem foldl_endsOk (p : LoopParams K) (b : List (Option K)) (n i : ℕ) (s s' : ImbStateM K) (hs : EndsOk i s)
    (h : (List.range' (i + 1) n).foldlM (imbStepM p b) s = .ok s') : EndsOk (i + n) s' := by
  induction n generalizing i s with
  | zero => cases h; exact hs
  | succ n ih =>
    rw [List.range'_succ, List.foldlM_cons, py_bind_eq_ok] at h
    obtain ⟨s1, h1, h2⟩ := h
    have := ih (i + 1) s1 (endsOk_step p b s s1 i hs h1) h2
    rwa [show i + 1 + n = i + (n + 1) by omega] at this

theorem foldl_stuck (p : LoopParams K) (b : List (Option K)) (n i : ℕ) (s s' : ImbStateM K) (hs : Stuck s)
    (h : (List.range' i n).foldlM (imbStepM p b) s = .ok s') : s'.ends = s.ends := by
  induction n generalizing i s with
  | zero => cases h; rfl
  | succ n ih =>
    rw [List.range'_succ, List.foldlM_cons, py_bind_eq_ok] at h
    obtain ⟨s1, h1, h2⟩ := h
    obtain ⟨e1, -, e2⟩ := stuck_step p b s s1 i hs h1
    rw [ih (i + 1) s1 e2 h2, e1]

theorem foldl_padding (p : LoopParams K) (b : List (Option K)) (n i : ℕ) (s s' : ImbStateM K) (hn : 1 ≤ n)
    (hb : b[i + n - 1]? = some none)
    (h : (List.range' i n).foldlM (imbStepM p b) s = .ok s') : s'.padding = false := by
  induction n generalizing i s with
  | zero => omega
  | succ n ih =>
    rw [List.range'_succ, List.foldlM_cons, py_bind_eq_ok] at h
    obtain ⟨s1, h1, h2⟩ := h
    rcases Nat.eq_zero_or_pos n with h0 | h0
    · subst h0
      cases h2
      exact (imbStepM_none p b s s' i (by simpa using hb) h1).1
    · exact ih (i + 1) s1 h0 (by rw [← hb]; congr 1; omega) h2

/-- The ends, if the flows at `i + 1` and, unless `i = 0`, at `i` are unknown: none lies after `i` but the last. -/
theorem ends_after (p : LoopParams K) (eb : Option K) (b : List (Option K)) (i : ℕ)
    (hb : i + 1 < b.length → b[i + 1]? = some none) (hb' : 1 ≤ i → i < b.length → b[i]? = some none) (ends : List ℕ)
    (h : imbalanceEndsM p eb b = .ok ends) :
    ends.Pairwise (· < ·) ∧ ends.getLast? = some (b.length - 1) ∧ ∀ e ∈ ends, i < e → e = b.length - 1 := by
  unfold imbalanceEndsM at h
  rw [py_bind_eq_ok] at h
  obtain ⟨s, h, he⟩ := h
  unfold imbLoopM at h
  rw [py_bind_eq_ok] at h
  obtain ⟨x0, h0, h⟩ := h
  have hpos : 0 < b.length := by
    rcases Nat.eq_zero_or_pos b.length with h' | h'
    · rw [List.length_eq_zero_iff] at h'
      subst h'
      cases h0
    · exact h'
  have hinit : EndsOk 0 (imbInitM p eb x0) := ⟨List.Pairwise.nil, by simp [imbInitM], .inl ⟨rfl, rfl⟩⟩
  have hok := foldl_endsOk p b (b.length - 1) 0 _ s hinit h
  have hlast : ∀ e ∈ s.ends, i < e → e = b.length - 1 := by
    intro e hes hie
    have hle := hok.le e hes
    by_cases hlt : i + 1 < b.length
    · exfalso
      have hsplit : List.range' 1 (b.length - 1) = List.range' 1 i ++ ((i + 1) :: List.range' (i + 2) (b.length - 1 - i - 1)) := by
        rw [show (i + 1) :: List.range' (i + 2) (b.length - 1 - i - 1) = List.range' (1 + 1 * i) (b.length - 1 - i) by
          rw [show b.length - 1 - i = (b.length - 1 - i - 1) + 1 by omega, List.range'_succ]
          rw [show 1 + 1 * i = i + 1 by omega]; rfl, List.range'_append, show i + (b.length - 1 - i) = b.length - 1 by omega]
      rw [hsplit, List.foldlM_append, py_bind_eq_ok] at h
      obtain ⟨s1, h1, h2⟩ := h
      rw [List.foldlM_cons, py_bind_eq_ok] at h2
      obtain ⟨s2, h2, h3⟩ := h2
      have hk1 := foldl_endsOk p b i 0 _ s1 hinit h1
      have hpad : s1.padding = false := by
        rcases Nat.eq_zero_or_pos i with hi0 | hi0
        · subst hi0
          cases h1
          rfl
        · exact foldl_padding p b i 1 _ s1 hi0 (by rw [show 1 + i - 1 = i by omega]; exact hb' hi0 (by omega)) h1
      obtain ⟨e1, e2⟩ := (imbStepM_none p b s1 s2 (i + 1) (hb hlt) h2).2 hpad
      rw [foldl_stuck p b _ _ s2 s e2 h3, e1] at hes
      have := hk1.le e hes
      omega
    · omega
  cases he
  split_ifs with hst
  · rcases hok.start with ⟨-, h2⟩ | ⟨h1, -, h2⟩
    · rw [h2]
      simp
    · refine ⟨?_, by simp, ?_⟩
      · rw [List.pairwise_append]
        refine ⟨hok.inc, List.pairwise_singleton _ _, fun a ha c hc => ?_⟩
        rw [List.mem_singleton] at hc
        have hne : s.ends ≠ [] := List.ne_nil_of_mem ha
        have hal : a ≤ s.start - 1 := by
          have hl : s.ends.getLast hne = s.start - 1 := by
            rw [List.getLast?_eq_some_getLast hne, Option.some_inj] at h2
            exact h2
          obtain ⟨l, hl'⟩ : ∃ l, s.ends = l ++ [s.start - 1] := ⟨_, by rw [← hl, List.dropLast_append_getLast]⟩
          have hinc := hok.inc
          rw [hl', List.pairwise_append] at hinc
          rw [hl', List.mem_append, List.mem_singleton] at ha
          rcases ha with ha | ha
          · exact (hinc.2.2 a ha _ (by simp)).le
          · exact ha.le
        omega
      · intro e hee
        rw [List.mem_append, List.mem_singleton] at hee
        rcases hee with hee | hee
        · exact hlast e hee
        · exact fun _ => hee
  · refine ⟨hok.inc, ?_, hlast⟩
    rcases hok.start with ⟨h1, -⟩ | ⟨h1, h3, h2⟩
    · omega
    · rw [h2]
      congr 1
      omega

/-! ## The flow at a missing price -/

theorem flow_unknown (unit : BarUnit) (b0 : K) (ticks : List (MTick K)) (b : List (Option K))
    (h : signedFlowM unit b0 ticks = .ok b) :
    b.length = ticks.length ∧ ∀ i < ticks.length, (tickRuleM b0 (ticks.map MTick.price))[i]? = some none →
      b[i]? = some none := by
  have hlen := (C348_known_partial b0 (ticks.map MTick.price)).2
  rw [List.length_map] at hlen
  have hz : ∀ q : MTick K → Option K, (List.zipWith mulM (tickRuleM b0 (ticks.map MTick.price)) (ticks.map q)).length =
      ticks.length ∧ ∀ i < ticks.length, (tickRuleM b0 (ticks.map MTick.price))[i]? = some none →
      (List.zipWith mulM (tickRuleM b0 (ticks.map MTick.price)) (ticks.map q))[i]? = some none := by
    intro q
    refine ⟨by simp [hlen], fun i hi hn => ?_⟩
    rw [List.getElem?_zipWith, hn, List.getElem?_map, List.getElem?_eq_getElem hi]
    rfl
  unfold signedFlowM at h
  cases unit with
  | time => cases h
  | tick => cases h; exact ⟨hlen, fun i _ h => h⟩
  | volume => cases h; exact hz _
  | dollars => cases h; exact hz _

/-- C349, what is computed.  All ticks after a missing price are put into one bar, whatever the unit and the limits (missing
from the full claim: the maximal size). -/
theorem C349_one_bar_partial (unit : BarUnit) (minSize : K) (maxSize : Option K) (b0 : K) (ETInit : ℕ)
    (absEbInit : Option K) (TSpan bSpan : Option ℕ) (ticks : List (MTick K)) (bars : List (MBar K)) (ids : List ℕ)
    (h : aggregateImbalanceBarsM unit minSize maxSize b0 ETInit absEbInit TSpan bSpan ticks = .ok (bars, ids))
    (i : ℕ) (t : MTick K) (ht : ticks[i]? = some t) (hp : t.price = none) :
    ∃ k, ∀ j, i < j → j < ticks.length → ids[j]? = some k := by
  unfold aggregateImbalanceBarsM at h
  rw [py_bind_eq_ok] at h
  obtain ⟨b, hb, h⟩ := h
  simp only at h
  rw [py_bind_eq_ok] at h
  obtain ⟨ends, hends, h⟩ := h
  rw [py_bind_eq_ok] at h
  obtain ⟨ids', hids, h⟩ := h
  rw [py_bind_eq_ok] at h
  obtain ⟨res, -, h⟩ := h
  cases h
  obtain ⟨hlen, hflow⟩ := flow_unknown unit b0 ticks b hb
  have hpi : (ticks.map MTick.price)[i]? = some none := by rw [List.getElem?_map, ht, Option.map_some, hp]
  have hun : ∀ j, 1 ≤ j → (j = i ∨ j = i + 1) → j < ticks.length →
      (tickRuleM b0 (ticks.map MTick.price))[j]? = some none := by
    intro j h1 hj hjl
    refine (C348_unknown b0 _ j (by simpa using hjl)).2 ⟨j, le_rfl, ⟨h1, ?_⟩, fun k h1 h2 => by omega⟩
    rcases hj with rfl | rfl
    · exact .inl hpi
    · exact .inr (by rw [Nat.add_sub_cancel]; exact hpi)
  obtain ⟨h1, h2, h3⟩ := ends_after _ _ b i
    (fun hl => hflow _ (by omega) (hun _ (by omega) (.inr rfl) (by omega)))
    (fun hi hl => hflow _ (by omega) (hun _ hi (.inl rfl) (by omega))) ends hends
  rw [hlen] at h2 h3
  rw [computeTickBarId_spec _ _ h1 h2] at hids
  cases hids
  refine ⟨barOf ends (i + 1), fun j hij hj => ?_⟩
  rw [List.getElem?_map, List.getElem?_range hj, Option.map_some]
  congr 1
  unfold barOf
  congr 1
  apply List.filter_congr
  intro e he
  have := h3 e he
  rw [decide_eq_decide]
  constructor
  · intro hej
    by_contra hc
    have := this (by omega)
    omega
  · intro hc
    omega

/-! ## Missing volumes -/

/-- After an unknown flow at `i` at most one more bar is ended in the loop, and from then on the threshold is unknown. -/
def Fading (i : ℕ) (s : ImbStateM K) : Prop :=
  s.ends.filter (fun e => decide (i < e)) = [] ∨
    ((s.ends.filter fun e => decide (i < e)).length = 1 ∧ s.threshold = none ∧ s.padding = false)

theorem closeM_threshold (p : LoopParams K) (b : List (Option K)) (s s' : ImbStateM K) (i e : ℕ) (hb : b[i]? = some none)
    (hie : i < e) (h : closeM p b s e = .ok s') : s'.threshold = none := by
  unfold closeM at h
  simp only [py_bind_eq_ok] at h
  obtain ⟨ET, -, Eb, hE, h⟩ := h
  unfold ewmaLastM at hE
  rw [py_bind_eq_ok] at hE
  obtain ⟨r, -, hE⟩ := hE
  have hm : none ∈ b.take e := by
    refine List.mem_iff_getElem?.2 ⟨i, ?_⟩
    rw [List.getElem?_take_of_lt hie, hb]
  rw [if_pos hm] at hE
  cases hE
  cases h
  rfl

theorem fading_step (p : LoopParams K) (hmax : p.maxSize = none) (b : List (Option K)) (s s' : ImbStateM K) (i k : ℕ)
    (hb : b[i]? = some none) (hs : Fading i s) (h : imbStepM p b s k = .ok s') : Fading i s' := by
  unfold imbStepM at h
  rw [py_bind_eq_ok] at h
  obtain ⟨x, -, h⟩ := h
  simp only at h
  rcases hs with hs | ⟨h1, h2, h3⟩
  · split_ifs at h
    · cases h; exact .inl hs
    · obtain ⟨e1, -, e3⟩ := closeM_ok p b s s' k h
      by_cases hik : i < k
      · exact .inr ⟨by rw [e1, List.filter_append, hs]; simp [hik], closeM_threshold p b s s' i k hb hik h, e3⟩
      · exact .inl (by rw [e1, List.filter_append, hs]; simp [hik])
    · cases h; exact .inl hs
  · have hg : ∀ a : Option K, geM a none = false := fun a => by cases a <;> rfl
    have hc : closesM p s.threshold (addM s.size (x.map abs)) (addM s.theta x) s.padding = false := by
      simp [closesM, h2, h3, hmax, hg]
    rw [hc, if_neg (by simp)] at h
    cases h
    exact .inr ⟨h1, h2, h3⟩

theorem foldl_fading (p : LoopParams K) (hmax : p.maxSize = none) (b : List (Option K)) (l : List ℕ) (s s' : ImbStateM K)
    (i : ℕ) (hb : b[i]? = some none) (hs : Fading i s) (h : l.foldlM (imbStepM p b) s = .ok s') : Fading i s' := by
  induction l generalizing s with
  | nil => cases h; exact hs
  | cons k l ih =>
    rw [List.foldlM_cons, py_bind_eq_ok] at h
    obtain ⟨s1, h1, h2⟩ := h
    exact ih s1 (fading_step p hmax b s s1 i k hb hs h1) h2

/-- C349.  A missing volume also stops the bars, if their size has no limit: the later ticks make at most two bars. -/
theorem C349_missing_volume (unit : BarUnit) (hu : unit ≠ .tick) (minSize : K) (b0 : K) (ETInit : ℕ)
    (absEbInit : Option K) (TSpan bSpan : Option ℕ) (ticks : List (MTick K)) (bars : List (MBar K)) (ids : List ℕ)
    (h : aggregateImbalanceBarsM unit minSize none b0 ETInit absEbInit TSpan bSpan ticks = .ok (bars, ids))
    (i : ℕ) (t : MTick K) (ht : ticks[i]? = some t) (hp : t.volume = none) :
    ∃ k, ∀ j, i < j → j < ticks.length → ids[j]? = some k ∨ ids[j]? = some (k + 1) := by
  unfold aggregateImbalanceBarsM at h
  rw [py_bind_eq_ok] at h
  obtain ⟨b, hb, h⟩ := h
  simp only at h
  rw [py_bind_eq_ok] at h
  obtain ⟨ends, hends, h⟩ := h
  rw [py_bind_eq_ok] at h
  obtain ⟨ids', hids, h⟩ := h
  rw [py_bind_eq_ok] at h
  obtain ⟨res, -, h⟩ := h
  cases h
  have hlen := (flow_unknown unit b0 ticks b hb).1
  have hil : i < ticks.length := (List.getElem?_eq_some_iff.1 ht).1
  have hbi : b[i]? = some none := by
    obtain ⟨f, hf⟩ : ∃ f, (tickRuleM b0 (ticks.map MTick.price))[i]? = some f :=
      ⟨_, List.getElem?_eq_getElem (by rw [(C348_known_partial b0 _).2, List.length_map]; exact hil)⟩
    have hm : ∀ a : Option K, mulM a none = none := fun a => by cases a <;> rfl
    have hd : t.dollars = none := by unfold MTick.dollars; rw [hp]; cases t.price <;> rfl
    unfold signedFlowM at hb
    cases unit with
    | time => cases hb
    | tick => exact absurd rfl hu
    | volume =>
      cases hb
      rw [List.getElem?_zipWith, hf, List.getElem?_map, ht]
      simp [hp, hm]
    | dollars =>
      cases hb
      rw [List.getElem?_zipWith, hf, List.getElem?_map, ht]
      simp [hd, hm]
  obtain ⟨h1, h2, -⟩ := ends_after _ _ b b.length (fun hl => absurd hl (by omega)) (fun _ hl => absurd hl (by omega)) ends hends
  rw [hlen] at h2
  rw [computeTickBarId_spec _ _ h1 h2] at hids
  cases hids
  -- the ends after `i`
  have hf : (ends.filter fun e => decide (i < e ∧ e < ticks.length - 1)).length ≤ 1 := by
    unfold imbalanceEndsM at hends
    rw [py_bind_eq_ok] at hends
    obtain ⟨s, hs, he⟩ := hends
    unfold imbLoopM at hs
    rw [py_bind_eq_ok] at hs
    obtain ⟨x0, -, hs⟩ := hs
    have hfad := foldl_fading _ rfl b _ _ s i hbi (.inl rfl) hs
    have hle : (s.ends.filter fun e => decide (i < e)).length ≤ 1 := by
      rcases hfad with hfad | ⟨hfad, -⟩
      · rw [hfad]; simp
      · omega
    have hsub : (s.ends.filter fun e => decide (i < e ∧ e < ticks.length - 1)).length ≤ 1 := by
      refine le_trans (List.Sublist.length_le (List.monotone_filter_right _ fun e he => ?_)) hle
      simp only [decide_eq_true_eq] at he ⊢
      exact he.1
    cases he
    split_ifs
    · rw [List.filter_append, hlen]
      simpa using hsub
    · exact hsub
  refine ⟨barOf ends (i + 1), fun j hij hj => ?_⟩
  rw [List.getElem?_map, List.getElem?_range hj, Option.map_some]
  have hsplit : barOf ends j = barOf ends (i + 1) + (ends.filter fun e => decide (i < e ∧ e < j)).length := by
    unfold barOf
    clear hends h1 h2 hf
    induction ends with
    | nil => rfl
    | cons e ends ih =>
      by_cases h1 : e < i + 1
      · rw [List.filter_cons_of_pos (by simpa using h1.trans_le hij), List.filter_cons_of_pos (by simpa using h1),
          List.filter_cons_of_neg (by simp only [decide_eq_true_eq]; omega), List.length_cons, List.length_cons, ih]
        omega
      · by_cases h2 : e < j
        · rw [List.filter_cons_of_pos (by simpa using h2), List.filter_cons_of_neg (by simpa using h1),
            List.filter_cons_of_pos (by simp only [decide_eq_true_eq]; omega), List.length_cons, List.length_cons, ih]
          omega
        · rw [List.filter_cons_of_neg (by simpa using h2), List.filter_cons_of_neg (by simpa using h1),
            List.filter_cons_of_neg (by simp only [decide_eq_true_eq]; omega), ih]
  have hle : (ends.filter fun e => decide (i < e ∧ e < j)).length ≤ 1 := by
    refine le_trans (List.Sublist.length_le (List.monotone_filter_right _ fun e he => ?_)) hf
    simp only [decide_eq_true_eq] at he ⊢
    omega
  rw [hsplit]
  rcases Nat.le_one_iff_eq_zero_or_eq_one.1 hle with h0 | h0 <;> rw [h0]
  · exact .inl rfl
  · exact .inr rfl

/-- The second of the two bars occurs: the tick without volume ends a bar that waited for its minimal size. -/
example : (aggregateImbalanceBarsM (K := ℚ) .volume 4 none 1 1 (some 1) none none
    [⟨0, some 1, some 1⟩, ⟨1, some 2, some 2⟩, ⟨2, some 3, none⟩, ⟨3, some 4, some 9⟩, ⟨4, some 5, some 9⟩,
     ⟨5, some 6, some 9⟩]).toOption.map Prod.snd = some [0, 0, 0, 1, 2, 2] := by decide +kernel

/-! ## Without missing values -/

/-- The state without the debug columns. -/
def ImbState.plain (s : ImbState K) : ImbStateM K :=
  ⟨s.ends, s.Ts, s.start, some s.size, some s.theta, some s.threshold, s.padding⟩

theorem ewmaLastM_complete (b : List K) (span : ℕ) :
    ewmaLastM (b.map some) span = ((fastEwma b span true) >>= pyLast).map some := by
  unfold ewmaLastM
  have e : (b.map some).map (fun x : Option K => x.getD 0) = b := by
    rw [List.map_map]
    simp [Function.comp_def]
  have hn : ¬ none ∈ b.map some := by simp
  simp only [e, hn, if_false]
  cases (fastEwma b span true) >>= pyLast <;> rfl

theorem pyGet_complete (b : List K) (i : ℕ) : pyGet (b.map some) i = (pyGet b i).map some := by
  unfold pyGet
  rw [List.getElem?_map]
  cases b[i]? <;> rfl

theorem imbStepM_complete (p : LoopParams K) (b : List K) (s : ImbState K) (i : ℕ) :
    imbStepM p (b.map some) s.plain i = (imbStep p b s i).map ImbState.plain := by
  unfold imbStepM imbStep
  rw [pyGet_complete]
  cases pyGet b i with
  | error e => rfl
  | ok x =>
    have hm : (Except.ok x : Py K).map some = .ok (some x) := rfl
    rw [hm, py_bind_ok, py_bind_ok]
    have hc : closesM p s.plain.threshold (addM s.plain.size ((some x).map abs)) (addM s.plain.theta (some x))
        s.plain.padding = decide (s.threshold ≤ |s.theta + x| ∨ geMax (s.size + |x|) p.maxSize ∨ s.padding) := by
      cases hmx : p.maxSize <;> cases hpd : s.padding <;>
        simp [closesM, ImbState.plain, addM, geM, geMax, hmx, hpd]
    have hl : ltM (addM s.plain.size ((some x).map abs)) p.minSize = decide (s.size + |x| < p.minSize) := rfl
    simp only [hc, hl, decide_eq_true_eq]
    split_ifs with h1 h2
    · rfl
    · unfold closeM
      rw [← List.map_take, ewmaLastM_complete]
      simp only [ImbState.plain]
      cases ((fastEwma (s.Ts ++ [(((i - s.start + 1 : ℕ)) : K)])
        (effTSpan p.TSpan (s.Ts ++ [(((i - s.start + 1 : ℕ)) : K)]).length) true) >>= pyLast) with
      | error e => rfl
      | ok ET =>
        rw [py_bind_ok, py_bind_ok]
        cases (fastEwma (b.take i) (min p.bSpan (i + 1)) true >>= pyLast) <;> rfl
    · rfl

theorem foldlM_complete (p : LoopParams K) (b : List K) (l : List ℕ) (s : ImbState K) :
    l.foldlM (imbStepM p (b.map some)) s.plain = (l.foldlM (imbStep p b) s).map ImbState.plain := by
  induction l generalizing s with
  | nil => rfl
  | cons i l ih =>
    rw [List.foldlM_cons, List.foldlM_cons, imbStepM_complete]
    cases imbStep p b s i with
    | error e => rfl
    | ok s' => exact ih s'

theorem signedFlowM_complete (unit : BarUnit) (b0 : K) (ticks : List (Tick K)) :
    signedFlowM unit b0 (ticks.map Tick.complete) = (signedFlow unit b0 ticks).map (List.map some) := by
  have e1 : (ticks.map Tick.complete).map MTick.price = (ticks.map Tick.price).map some := by
    rw [List.map_map, List.map_map]; rfl
  have e2 : (ticks.map Tick.complete).map MTick.volume = (ticks.map Tick.volume).map some := by
    rw [List.map_map, List.map_map]; rfl
  have e3 : (ticks.map Tick.complete).map MTick.dollars = (ticks.map fun t => t.price * t.volume).map some := by
    rw [List.map_map, List.map_map]; rfl
  have hz : ∀ a c : List K, List.zipWith mulM (a.map some) (c.map some) = (List.zipWith (· * ·) a c).map some := by
    intro a
    induction a with
    | nil => intro c; rfl
    | cons x a ih =>
      intro c
      cases c with
      | nil => rfl
      | cons y c => simp only [List.map_cons, List.zipWith_cons_cons, ih]; rfl
  unfold signedFlowM signedFlow
  simp only [e1, e2, e3, C348_complete, hz]
  cases unit <;> rfl

theorem groupTicksM_some {ι : Type} [LinearOrder ι] (ids : List ι) (ticks : List (Tick K)) (h : ids.length = ticks.length) :
    groupTicksM (ids.map some) (ticks.map Tick.complete) = (groupTicksToBars ids ticks).map (List.map Bar.complete) := by
  unfold groupTicksM groupTicksToBars
  rw [keyed_complete, List.map_fst_zip (by simp [h]), List.map_snd_zip (by simp [h]), groupBy_map_right]
  exact mapM_map_complete _ (fun g : ι × List (MTick K) => barStatsM g.2) (fun a : ι × List (Tick K) => computeBarStats a.2) _
    (fun a => barStatsM_complete a.2) _

theorem tickBarIdLoop_length (ends : List ℕ) (n i cur : ℕ) (ids : List ℕ) (h : tickBarIdLoop ends n i cur = .ok ids) :
    ids.length = n := by
  induction n generalizing i cur ids with
  | zero => cases h; rfl
  | succ n ih =>
    rw [tickBarIdLoop, py_bind_eq_ok] at h
    obtain ⟨e, -, h⟩ := h
    simp only at h
    rw [py_bind_eq_ok] at h
    obtain ⟨rest, hr, h⟩ := h
    cases h
    rw [List.length_cons, ih _ _ _ hr]

/-- C349.  Without missing values this is the model of C08, except for the debug columns. -/
theorem C349_complete (unit : BarUnit) (minSize : K) (maxSize : Option K) (b0 : K) (ETInit : ℕ)
    (absEbInit : Option K) (TSpan bSpan : Option ℕ) (ticks : List (Tick K)) (hE : 1 ≤ ETInit ∨ absEbInit ≠ none)
    (hne : ticks ≠ []) :
    aggregateImbalanceBarsM unit minSize maxSize b0 ETInit absEbInit TSpan bSpan (ticks.map Tick.complete) =
      (aggregateImbalanceBars unit minSize maxSize b0 ETInit absEbInit TSpan bSpan ticks).map
        fun r => (r.1.map Bar.complete, r.2.1) := by
  unfold aggregateImbalanceBarsM aggregateImbalanceBars
  rw [signedFlowM_complete]
  have hfl : ∀ b, signedFlow unit b0 ticks = .ok b → b ≠ [] := by
    intro b hb h0
    subst h0
    cases ticks with
    | nil => exact hne rfl
    | cons t ts => cases unit <;> simp [signedFlow, tickRule] at hb
  cases hb : signedFlow unit b0 ticks with
  | error e => rfl
  | ok b =>
    have hbn := hfl b hb
    have hm : (Except.ok b : Py (List K)).map (List.map some) = .ok (b.map some) := rfl
    rw [hm, py_bind_ok, py_bind_ok]
    have hnot : ¬ (absEbInit = none ∧ b.take ETInit = []) := by
      rintro ⟨h1, h2⟩
      rcases hE with hE | hE
      · rw [List.take_eq_nil_iff] at h2
        rcases h2 with h2 | h2
        · omega
        · exact hbn h2
      · exact hE h1
    rw [if_neg hnot]
    have heb : absEbM absEbInit ETInit (b.map some) = some (absEbInit.getD |mean (b.take ETInit)|) := by
      cases absEbInit with
      | some e => rfl
      | none =>
        have h2 : b.take ETInit ≠ [] := fun h => hnot ⟨rfl, h⟩
        unfold absEbM
        simp only [← List.map_take, List.map_eq_nil_iff, h2, false_or, List.mem_map, reduceCtorEq, and_false, exists_false,
          if_false, Option.getD_none]
        rw [show (List.map some (List.take ETInit b)).reduceOption = b.take ETInit by simp [List.reduceOption]]
    simp only [heb]
    set p : LoopParams K := { minSize := minSize, maxSize := maxSize, ETInit := (ETInit : K),
                              TSpan := TSpan, bSpan := bSpan.getD (3 * ETInit) }
    set eb := absEbInit.getD |mean (b.take ETInit)|
    have hends : imbalanceEndsM p (some eb) (b.map some) = (computeImbalanceBarSizes p eb b).map Prod.fst := by
      unfold imbalanceEndsM computeImbalanceBarSizes imbLoopM imbLoop
      rw [pyGet_complete, List.length_map]
      cases pyGet b 0 with
      | error e => rfl
      | ok x0 =>
        have hm : (Except.ok x0 : Py K).map some = .ok (some x0) := rfl
        have hi : imbInitM p (some eb) (some x0) = (imbInit p eb x0).plain := rfl
        rw [hm, py_bind_ok, py_bind_ok, hi, foldlM_complete]
        cases (List.range' 1 (b.length - 1)).foldlM (imbStep p b) (imbInit p eb x0) with
        | error e => rfl
        | ok s =>
          change Except.ok (if s.start < b.length then _ else _) = Except.map Prod.fst (if s.start < b.length then _ else _)
          by_cases h : s.start < b.length
          · rw [if_pos h, if_pos h]; rfl
          · rw [if_neg h, if_neg h]; rfl
    rw [hends]
    cases computeImbalanceBarSizes p eb b with
    | error e => rfl
    | ok r =>
      obtain ⟨ends, c, d, e⟩ := r
      change (computeTickBarId _ ends >>= _) = Except.map _ (computeTickBarId _ ends >>= _)
      rw [List.length_map]
      cases hids : computeTickBarId ticks.length ends with
      | error e => rfl
      | ok ids =>
        rw [py_bind_ok, py_bind_ok, groupTicksM_some ids ticks (tickBarIdLoop_length ends _ _ _ _ hids)]
        cases groupTicksToBars ids ticks <;> rfl

example : (aggregateImbalanceBarsM (K := ℚ) .volume 4 (some 3) 1 10 (some 1) none none
    [⟨0, some 1, some 1⟩, ⟨1, some 2, some 2⟩, ⟨2, none, some 1⟩, ⟨3, some 2, some 1⟩, ⟨4, some 3, some 1⟩]).toOption.map
    Prod.snd = some [0, 0, 0, 1, 1] := by decide +kernel

end FinML.Bars
