import Verif.Bars.ImbMissProps
import Verif.Bars.RunsMissModel

/-!
# Runs bars of ticks with missing values (C351)

A tick without a flag is neither a buy nor a sell but counts in the size of its bar, so that the bars go on.  A buy without
volume makes `max(buys, sells)` NaN, while a sell without volume is passed over.
-/

namespace FinML.Bars

set_option linter.unusedSectionVars false

variable {K : Type} [Field K] [LinearOrder K] [IsStrictOrderedRing K]

/-- The same ticks with prices turned around. -/
def MTick.mirror (c : K) (t : MTick K) : MTick K := { t with price := t.price.map fun p => c - p }

/-- C351, the full claim: buys and sells are treated alike, also if volumes are missing. -/
def RunsMirrorMissing (K : Type) [Field K] [LinearOrder K] [IsStrictOrderedRing K] : Prop :=
  ∀ (minSize : K) (maxSize : Option K) (b0 : K) (ETInit : ℕ) (P Eb Es c : K) (TSpan bSpan : Option ℕ)
    (ticks : List (MTick K)) (r r' : List (MBar K) × List ℕ), |b0| = 1 →
    aggregateRunsBarsM .volume minSize maxSize b0 ETInit (some P) (some Eb) (some Es) TSpan bSpan ticks = .ok r →
    aggregateRunsBarsM .volume minSize maxSize (-b0) ETInit (some (1 - P)) (some Es) (some Eb) TSpan bSpan
      (ticks.map (MTick.mirror c)) = .ok r' →
    r.2 = r'.2

/-- Six ticks, the second a fall (or, mirrored, a rise) of unknown volume. -/
def fallUnknown : List (MTick ℚ) :=
  [⟨0, some 10, some 1⟩, ⟨1, some 9, none⟩, ⟨2, some 10, some 1⟩, ⟨3, some 11, some 1⟩, ⟨4, some 12, some 1⟩,
   ⟨5, some 13, some 1⟩]

/-- C351.  A sell without volume leaves three bars, a buy without volume one. -/
theorem C351_counterexample : ¬ RunsMirrorMissing ℚ := by
  intro h
  have e1 : (aggregateRunsBarsM (K := ℚ) .volume 0 none 1 4 (some (1 / 2)) (some 1) (some 1) none none fallUnknown).map Prod.snd =
      .ok [0, 0, 0, 1, 1, 2] := by decide +kernel
  have e2 : (aggregateRunsBarsM (K := ℚ) .volume 0 none (-1) 4 (some (1 - 1 / 2)) (some 1) (some 1) none none
      (fallUnknown.map (MTick.mirror 20))).map Prod.snd = .ok [0, 0, 0, 0, 0, 0] := by decide +kernel
  cases h1 : aggregateRunsBarsM (K := ℚ) .volume 0 none 1 4 (some (1 / 2)) (some 1) (some 1) none none fallUnknown with
  | error e => rw [h1] at e1; cases e1
  | ok r =>
    cases h2 : aggregateRunsBarsM (K := ℚ) .volume 0 none (-1) 4 (some (1 - 1 / 2)) (some 1) (some 1) none none
        (fallUnknown.map (MTick.mirror 20)) with
    | error e => rw [h2] at e2; cases e2
    | ok r' =>
      have := h 0 none 1 4 (1 / 2) 1 1 20 none none fallUnknown r r' (by norm_num) h1 h2
      rw [h1] at e1
      rw [h2] at e2
      have e1' : r.2 = [0, 0, 0, 1, 1, 2] := by injection e1
      have e2' : r'.2 = [0, 0, 0, 0, 0, 0] := by injection e2
      rw [e1', e2'] at this
      revert this
      decide

/-! ## Where bars end -/

/-- Bar ends after the ticks up to `k`, with the next bar starting at `start`. -/
structure EndsFine (k start : ℕ) (ends : List ℕ) : Prop where
  inc : ends.Pairwise (· < ·)
  le : ∀ e ∈ ends, e ≤ k
  start : (start = 0 ∧ ends = []) ∨ (1 ≤ start ∧ start ≤ k + 1 ∧ ends.getLast? = some (start - 1))

theorem endsFine_close {k start : ℕ} {ends : List ℕ} (h : EndsFine k start ends) :
    EndsFine (k + 1) (k + 1 + 1) (ends ++ [k + 1]) := by
  refine ⟨?_, fun e he => ?_, .inr ⟨by omega, by omega, by simp⟩⟩
  · rw [List.pairwise_append]
    refine ⟨h.inc, List.pairwise_singleton _ _, fun a ha c hc => ?_⟩
    rw [List.mem_singleton] at hc
    have := h.le a ha
    omega
  · rw [List.mem_append, List.mem_singleton] at he
    rcases he with he | he
    · exact (h.le e he).trans (by omega)
    · omega

theorem endsFine_next {k start : ℕ} {ends : List ℕ} (h : EndsFine k start ends) : EndsFine (k + 1) start ends :=
  ⟨h.inc, fun e he => (h.le e he).trans (by omega), h.start.imp id fun h => ⟨h.1, by omega, h.2.2⟩⟩

theorem endsFine_final {n start : ℕ} {ends : List ℕ} (hn : 0 < n) (h : EndsFine (n - 1) start ends) :
    (if start < n then ends ++ [n - 1] else ends).Pairwise (· < ·) ∧
    (if start < n then ends ++ [n - 1] else ends).getLast? = some (n - 1) := by
  split_ifs with hst
  · refine ⟨?_, by simp⟩
    rw [List.pairwise_append]
    refine ⟨h.inc, List.pairwise_singleton _ _, fun a ha c hc => ?_⟩
    rw [List.mem_singleton] at hc
    rcases h.start with ⟨-, h2⟩ | ⟨h1, -, h2⟩
    · rw [h2] at ha; simp at ha
    · have hne : ends ≠ [] := List.ne_nil_of_mem ha
      have hl : ends.getLast hne = start - 1 := by
        rw [List.getLast?_eq_some_getLast hne, Option.some_inj] at h2
        exact h2
      obtain ⟨l, hl'⟩ : ∃ l, ends = l ++ [start - 1] := ⟨_, by rw [← hl, List.dropLast_append_getLast]⟩
      have hinc := h.inc
      rw [hl', List.pairwise_append] at hinc
      rw [hl', List.mem_append, List.mem_singleton] at ha
      have : a ≤ start - 1 := by
        rcases ha with ha | ha
        · exact (hinc.2.2 a ha _ (by simp)).le
        · exact ha.le
      omega
  · refine ⟨h.inc, ?_⟩
    rcases h.start with ⟨h1, -⟩ | ⟨h1, h3, h2⟩
    · omega
    · rw [h2]
      congr 1
      omega

theorem runsCloseM_ok (p : LoopParams K) (s s' : RunsStateM K) (i : ℕ) (h : runsCloseM p s i = .ok s') :
    s'.ends = s.ends ++ [i] ∧ s'.start = i + 1 ∧ s'.padding = false ∧ s'.size = some 0 ∧
    (none ∈ s.vBuys → s'.threshold = none) := by
  unfold runsCloseM at h
  simp only [py_bind_eq_ok] at h
  obtain ⟨ET, -, P, -, Eb, hEb, Es, -, h⟩ := h
  cases h
  refine ⟨rfl, rfl, rfl, rfl, fun hm => ?_⟩
  unfold ewmaLastM at hEb
  rw [py_bind_eq_ok] at hEb
  obtain ⟨r, -, hEb⟩ := hEb
  rw [if_pos hm] at hEb
  cases hEb
  rfl

/-- A step leaves the bars alone, or ends one at its tick. -/
theorem runsStepM_cases (p : LoopParams K) (b v : List (Option K)) (s s' : RunsStateM K) (i : ℕ)
    (h : runsStepM p b v s i = .ok s') : ∃ x q, pyGet b i = .ok x ∧ pyGet v i = .ok q ∧
      ((runsClosesM p (runsAddM s x q) = false ∧ s' = runsAddM s x q) ∨
       (runsClosesM p (runsAddM s x q) = true ∧ ltM (runsAddM s x q).size p.minSize = true ∧
          s' = { runsAddM s x q with padding := true }) ∨
       (runsClosesM p (runsAddM s x q) = true ∧ ltM (runsAddM s x q).size p.minSize = false ∧
          runsCloseM p (runsAddM s x q) i = .ok s')) := by
  unfold runsStepM at h
  rw [py_bind_eq_ok] at h
  obtain ⟨x, hx, h⟩ := h
  rw [py_bind_eq_ok] at h
  obtain ⟨q, hq, h⟩ := h
  refine ⟨x, q, hx, hq, ?_⟩
  simp only at h
  split_ifs at h with h1 h2
  · cases h; exact .inr (.inl ⟨h1, h2, rfl⟩)
  · exact .inr (.inr ⟨h1, by simpa using h2, h⟩)
  · cases h; exact .inl ⟨by simpa using h1, rfl⟩

theorem runs_endsFine_step (p : LoopParams K) (b v : List (Option K)) (s s' : RunsStateM K) (k : ℕ)
    (hs : EndsFine k s.start s.ends) (h : runsStepM p b v s (k + 1) = .ok s') : EndsFine (k + 1) s'.start s'.ends := by
  obtain ⟨x, q, -, -, ⟨-, rfl⟩ | ⟨-, -, rfl⟩ | ⟨-, -, hc⟩⟩ := runsStepM_cases p b v s s' (k + 1) h
  · exact endsFine_next hs
  · exact endsFine_next hs
  · obtain ⟨e1, e2, -⟩ := runsCloseM_ok p _ s' (k + 1) hc
    rw [e1, e2]
    exact endsFine_close hs

/-- What every step keeps holds at the end of the loop. -/
theorem runs_invariant (p : LoopParams K) (b v : List (Option K)) (I : ℕ → RunsStateM K → Prop) (n i : ℕ)
    (hstep : ∀ k s s', i ≤ k → k < i + n → I k s → runsStepM p b v s (k + 1) = .ok s' → I (k + 1) s')
    (s s' : RunsStateM K) (hs : I i s) (h : (List.range' (i + 1) n).foldlM (runsStepM p b v) s = .ok s') : I (i + n) s' := by
  induction n generalizing i s with
  | zero => cases h; exact hs
  | succ n ih =>
    rw [List.range'_succ, List.foldlM_cons, py_bind_eq_ok] at h
    obtain ⟨s1, h1, h2⟩ := h
    have := ih (i + 1) (fun k s s' hk hk' => hstep k s s' (by omega) (by omega)) s1
      (hstep i s s1 le_rfl (by omega) hs h1) h2
    rwa [show i + 1 + n = i + (n + 1) by omega] at this

/-- The parts of a finished call. -/
theorem runsBars_inv (unit : BarUnit) (minSize : K) (maxSize : Option K) (b0 : K) (ETInit : ℕ)
    (PInit EvBuyInit EvSellInit : Option K) (TSpan bSpan : Option ℕ) (ticks : List (MTick K)) (bars : List (MBar K))
    (ids : List ℕ)
    (h : aggregateRunsBarsM unit minSize maxSize b0 ETInit PInit EvBuyInit EvSellInit TSpan bSpan ticks = .ok (bars, ids)) :
    ∃ (p : LoopParams K) (r : RunsInitM K) (v : List (Option K)) (x0 q0 : Option K) (s : RunsStateM K),
      p.minSize = minSize ∧ p.maxSize = maxSize ∧ tradedQtyM unit ticks = .ok v ∧
      pyGet (tickRuleM b0 (ticks.map MTick.price)) 0 = .ok x0 ∧ pyGet v 0 = .ok q0 ∧ 0 < ticks.length ∧
      (List.range' 1 (ticks.length - 1)).foldlM (runsStepM p (tickRuleM b0 (ticks.map MTick.price)) v)
        (runsInitM p r x0 q0) = .ok s ∧ EndsFine (ticks.length - 1) s.start s.ends ∧
      ids = (List.range ticks.length).map
        (barOf (if s.start < ticks.length then s.ends ++ [ticks.length - 1] else s.ends)) := by
  unfold aggregateRunsBarsM at h
  simp only at h
  rw [py_bind_eq_ok] at h
  obtain ⟨v, hv, h⟩ := h
  rw [py_bind_eq_ok] at h
  obtain ⟨ends, hends, h⟩ := h
  rw [py_bind_eq_ok] at h
  obtain ⟨ids', hids, h⟩ := h
  rw [py_bind_eq_ok] at h
  obtain ⟨res, -, h⟩ := h
  cases h
  unfold runsEndsM at hends
  rw [py_bind_eq_ok] at hends
  obtain ⟨s, hs, he⟩ := hends
  unfold runsLoopM at hs
  rw [py_bind_eq_ok] at hs
  obtain ⟨x0, hx0, hs⟩ := hs
  rw [py_bind_eq_ok] at hs
  obtain ⟨q0, hq0, hs⟩ := hs
  have hlen := (C348_known_partial b0 (ticks.map MTick.price)).2
  rw [List.length_map] at hlen
  rw [hlen] at hs he
  have hpos : 0 < ticks.length := by
    cases ticks with
    | nil => cases hx0
    | cons t ts => simp
  have hfine := runs_invariant _ _ _ (fun k s => EndsFine k s.start s.ends) (ticks.length - 1) 0
    (fun k s s' _ _ hs h => runs_endsFine_step _ _ _ s s' k hs h) _ s
    ⟨List.Pairwise.nil, by simp [runsInitM], .inl ⟨rfl, rfl⟩⟩ hs
  rw [Nat.zero_add] at hfine
  refine ⟨_, _, v, x0, q0, s, rfl, rfl, hv, hx0, hq0, hpos, hs, hfine, ?_⟩
  cases he
  obtain ⟨h1, h2⟩ := endsFine_final hpos hfine
  rw [computeTickBarId_spec _ _ h1 h2] at hids
  cases hids
  rfl

/-! ## Buys without volume -/

/-- No bar can be ended any more, if there is no maximal size. -/
def RunsDead (s : RunsStateM K) : Prop := s.padding = false ∧ (s.vBuyRuns = none ∨ s.threshold = none)

theorem geM_none (a : Option K) : geM a none = false := by cases a <;> rfl

theorem dead_step (p : LoopParams K) (hmax : p.maxSize = none) (b v : List (Option K)) (s s' : RunsStateM K) (i : ℕ)
    (hs : RunsDead s) (h : runsStepM p b v s i = .ok s') : s'.ends = s.ends ∧ RunsDead s' := by
  obtain ⟨x, q, -, -, hc⟩ := runsStepM_cases p b v s s' i h
  have hd : RunsDead (runsAddM s x q) := by
    refine ⟨hs.1, hs.2.imp (fun h => ?_) id⟩
    simp [runsAddM, h, addM]
  have hf : runsClosesM p (runsAddM s x q) = false := by
    unfold runsClosesM
    rw [hmax, hd.1, geM_none]
    rcases hd.2 with h | h
    · rw [h]; simp [pyMaxNan, geM]
    · rw [h, geM_none]; rfl
  rw [hf] at hc
  rcases hc with ⟨-, rfl⟩ | ⟨hc, -⟩ | ⟨hc, -⟩
  · exact ⟨rfl, hd⟩
  · cases hc
  · cases hc

theorem dying_step (p : LoopParams K) (b v : List (Option K)) (s s' : RunsStateM K) (i : ℕ)
    (f : K) (hf : 0 ≤ f) (hb : b[i]? = some (some f)) (hv : v[i]? = some none)
    (h : runsStepM p b v s i = .ok s') : RunsDead s' := by
  obtain ⟨x, q, hx, hq, hc⟩ := runsStepM_cases p b v s s' i h
  have ex : x = some f := by unfold pyGet at hx; rw [hb] at hx; cases hx; rfl
  have eq : q = none := by unfold pyGet at hq; rw [hv] at hq; cases hq; rfl
  subst ex eq
  have ea : ∀ a : Option K, addM a none = none := fun a => by cases a <;> rfl
  have hbuy : isBuyM (some f) = true := by simp [isBuyM, hf]
  have h1 : (runsAddM s (some f) none).vBuyRuns = none := by simp [runsAddM, hbuy, ea]
  have h2 : (runsAddM s (some f) none).size = none := by simp [runsAddM, ea]
  have h3 : none ∈ (runsAddM s (some f) none).vBuys := by simp [runsAddM, hbuy]
  rw [h2] at hc
  rcases hc with ⟨hc, rfl⟩ | ⟨-, hc, -⟩ | ⟨-, -, hc⟩
  · refine ⟨?_, .inl h1⟩
    unfold runsClosesM at hc
    simp only [Bool.or_eq_false_iff] at hc
    exact hc.2.2
  · cases hc
  · obtain ⟨-, -, e3, -, e5⟩ := runsCloseM_ok p _ s' i hc
    exact ⟨e3, .inr (e5 h3)⟩

theorem barOf_constant (ends : List ℕ) (n i j : ℕ) (h : ∀ e ∈ ends, i < e → e = n - 1) (hij : i < j) (hj : j < n) :
    barOf ends j = barOf ends (i + 1) := by
  unfold barOf
  congr 1
  apply List.filter_congr
  intro e he
  have := h e he
  rw [decide_eq_decide]
  constructor
  · intro hej
    by_contra hc
    have := this (by omega)
    omega
  · intro hc
    omega

/-- C351, buys without volume (missing from the full claim: they are not treated like sells).  If bars have no maximal size,
all later ticks are put into one bar. -/
theorem C351_buy_partial (unit : BarUnit) (hu : unit ≠ .tick) (minSize b0 : K) (ETInit : ℕ)
    (PInit EvBuyInit EvSellInit : Option K) (TSpan bSpan : Option ℕ) (ticks : List (MTick K)) (bars : List (MBar K))
    (ids : List ℕ)
    (h : aggregateRunsBarsM unit minSize none b0 ETInit PInit EvBuyInit EvSellInit TSpan bSpan ticks = .ok (bars, ids))
    (i : ℕ) (t : MTick K) (ht : ticks[i]? = some t) (hvol : t.volume = none) (f : K) (hf : 0 ≤ f)
    (hflag : (tickRuleM b0 (ticks.map MTick.price))[i]? = some (some f)) :
    ∃ k, ∀ j, i < j → j < ticks.length → ids[j]? = some k := by
  obtain ⟨p, r, v, x0, q0, s, -, hmax, hv, hx0, hq0, hpos, hs, hfine, rfl⟩ :=
    runsBars_inv unit minSize none b0 ETInit PInit EvBuyInit EvSellInit TSpan bSpan ticks bars ids h
  have hil : i < ticks.length := (List.getElem?_eq_some_iff.1 ht).1
  have hvi : v[i]? = some none := by
    have hd : t.dollars = none := by unfold MTick.dollars; rw [hvol]; cases t.price <;> rfl
    unfold tradedQtyM at hv
    cases unit with
    | time => cases hv
    | tick => exact absurd rfl hu
    | volume => cases hv; rw [List.getElem?_map, ht, Option.map_some, hvol]
    | dollars => cases hv; rw [List.getElem?_map, ht, Option.map_some, hd]
  set b := tickRuleM b0 (ticks.map MTick.price)
  -- no bar ends after `i` in the loop
  have hno : ∀ e ∈ s.ends, e ≤ i := by
    have hinit : EndsFine 0 (runsInitM p r x0 q0).start (runsInitM p r x0 q0).ends :=
      ⟨List.Pairwise.nil, by simp [runsInitM], .inl ⟨rfl, rfl⟩⟩
    have hrest : ∀ s1, RunsDead s1 → (∀ e ∈ s1.ends, e ≤ i) →
        (List.range' (i + 1) (ticks.length - 1 - i)).foldlM (runsStepM p b v) s1 = .ok s → ∀ e ∈ s.ends, e ≤ i := by
      intro s1 hd he hfold
      exact (runs_invariant p b v (fun _ s => RunsDead s ∧ ∀ e ∈ s.ends, e ≤ i) _ i
        (fun k s s' _ _ hs h => by
          obtain ⟨e1, e2⟩ := dead_step p hmax b v s s' (k + 1) hs.1 h
          exact ⟨e2, by rw [e1]; exact hs.2⟩) s1 s ⟨hd, he⟩ hfold).2
    cases i with
    | zero =>
      refine hrest (runsInitM p r x0 q0) ⟨rfl, .inl ?_⟩ (by simp [runsInitM]) (by simpa using hs)
      have e0 : x0 = some f := by unfold pyGet at hx0; rw [hflag] at hx0; cases hx0; rfl
      have e1 : q0 = none := by unfold pyGet at hq0; rw [hvi] at hq0; cases hq0; rfl
      subst e0 e1
      simp [runsInitM, isBuyM, hf]
    | succ i =>
      have hsplit : List.range' 1 (ticks.length - 1) =
          List.range' 1 i ++ ((i + 1) :: List.range' (i + 1 + 1) (ticks.length - 1 - (i + 1))) := by
        rw [show (i + 1) :: List.range' (i + 1 + 1) (ticks.length - 1 - (i + 1)) = List.range' (1 + 1 * i) (ticks.length - 1 - i) by
          rw [show ticks.length - 1 - i = (ticks.length - 1 - (i + 1)) + 1 by omega, List.range'_succ]
          rw [show 1 + 1 * i = i + 1 by omega], List.range'_append, show i + (ticks.length - 1 - i) = ticks.length - 1 by omega]
      rw [hsplit, List.foldlM_append, py_bind_eq_ok] at hs
      obtain ⟨s1, h1, h2⟩ := hs
      rw [List.foldlM_cons, py_bind_eq_ok] at h2
      obtain ⟨s2, h2, h3⟩ := h2
      have hf1 := runs_invariant p b v (fun k s => EndsFine k s.start s.ends) i 0
        (fun k s s' _ _ hs h => runs_endsFine_step _ _ _ s s' k hs h) _ s1 hinit h1
      rw [Nat.zero_add] at hf1
      exact hrest s2 (dying_step p b v s1 s2 (i + 1) f hf hflag hvi h2)
        (runs_endsFine_step p b v s1 s2 i hf1 h2).le h3
  refine ⟨barOf (if s.start < ticks.length then s.ends ++ [ticks.length - 1] else s.ends) (i + 1), fun j hij hj => ?_⟩
  rw [List.getElem?_map, List.getElem?_range hj, Option.map_some]
  congr 1
  refine barOf_constant _ ticks.length i j (fun e he hie => ?_) hij hj
  split_ifs at he
  · rw [List.mem_append, List.mem_singleton] at he
    rcases he with he | he
    · have := hno e he; omega
    · exact he
  · have := hno e he; omega

/-! ## Ticks without price -/

/-- The current tick bar is shorter than `m`, and so were the ones before. -/
structure ShortBars (m : K) (k : ℕ) (s : RunsStateM K) : Prop where
  fine : EndsFine k s.start s.ends
  size : s.size = some ((k + 1 - s.start : ℕ) : K)
  lt : ((k + 1 - s.start : ℕ) : K) < m
  win : ∀ j d : ℕ, m ≤ d → j + d ≤ k → ∃ e ∈ s.ends, j ≤ e ∧ e < j + d

theorem start_end {k start : ℕ} {ends : List ℕ} (h : EndsFine k start ends) (h0 : 0 < start) : start - 1 ∈ ends := by
  rcases h.start with ⟨h1, -⟩ | ⟨-, -, h2⟩
  · omega
  · exact List.mem_of_getLast? h2

theorem start_le {k start : ℕ} {ends : List ℕ} (h : EndsFine k start ends) : start ≤ k + 1 := by
  rcases h.start with ⟨h1, -⟩ | ⟨-, h2, -⟩ <;> omega

theorem shortBars_window (m : K) (k : ℕ) (s : RunsStateM K) (hs : ShortBars m k s) (j d : ℕ) (hd : m ≤ d)
    (hjd : j + d ≤ k + 1) : ∃ e ∈ s.ends, j ≤ e ∧ e < j + d := by
  rcases Nat.lt_or_ge k (j + d) with h | h
  · have hlt : ((k + 1 - s.start : ℕ) : K) < d := hs.lt.trans_le hd
    rw [Nat.cast_lt] at hlt
    have := start_le hs.fine
    exact ⟨s.start - 1, start_end hs.fine (by omega), by omega, by omega⟩
  · exact hs.win j d hd h

theorem shortBars_step (p : LoopParams K) (m : K) (hm : 2 ≤ m) (hmax : p.maxSize = some m) (hmin : p.minSize ≤ m)
    (b v : List (Option K)) (s s' : RunsStateM K) (k : ℕ) (hv : v[k + 1]? = some (some 1)) (hs : ShortBars m k s)
    (h : runsStepM p b v s (k + 1) = .ok s') : ShortBars m (k + 1) s' := by
  obtain ⟨x, q, -, hq, hc⟩ := runsStepM_cases p b v s s' (k + 1) h
  have eq : q = some 1 := by unfold pyGet at hq; rw [hv] at hq; cases hq; rfl
  subst eq
  have hle := start_le hs.fine
  have hsize : (runsAddM s x (some 1)).size = some ((k + 1 + 1 - s.start : ℕ) : K) := by
    simp only [runsAddM, hs.size, addM, Option.bind_some, Option.map_some]
    congr 1
    rw [show k + 1 + 1 - s.start = (k + 1 - s.start) + 1 by omega]
    push_cast
    ring
  have hclose : m ≤ ((k + 1 + 1 - s.start : ℕ) : K) → runsClosesM p (runsAddM s x (some 1)) = true ∧
      ltM (runsAddM s x (some 1)).size p.minSize = false := by
    intro hge
    constructor
    · unfold runsClosesM
      rw [hsize, hmax]
      simp [geM, hge]
    · rw [hsize]
      simp only [ltM, decide_eq_false_iff_not, not_lt]
      exact hmin.trans hge
  rcases hc with ⟨hc, rfl⟩ | ⟨h1, h2, rfl⟩ | ⟨-, -, hc⟩
  · refine ⟨endsFine_next hs.fine, hsize, ?_, fun j d hd hjd => shortBars_window m k s hs j d hd hjd⟩
    by_contra hge
    rw [(hclose (not_lt.1 hge)).1] at hc
    cases hc
  · refine ⟨endsFine_next hs.fine, hsize, ?_, fun j d hd hjd => shortBars_window m k s hs j d hd hjd⟩
    by_contra hge
    rw [(hclose (not_lt.1 hge)).2] at h2
    cases h2
  · obtain ⟨e1, e2, -, e4, -⟩ := runsCloseM_ok p _ s' (k + 1) hc
    refine ⟨by rw [e1, e2]; exact endsFine_close hs.fine, by rw [e4, e2]; simp, by rw [e2]; simp; linarith, ?_⟩
    intro j d hd hjd
    obtain ⟨e, he, h3⟩ := shortBars_window m k s hs j d hd hjd
    exact ⟨e, by rw [e1]; exact List.mem_append_left _ he, h3⟩

/-- C351, ticks without price.  Tick runs bars keep to their maximal size whatever prices are missing: no `m + 1` consecutive
ticks are in the same bar (compare C349). -/
theorem C351_max_size (minSize m b0 : K) (hm : 2 ≤ m) (hmin : minSize ≤ m) (ETInit : ℕ)
    (PInit EvBuyInit EvSellInit : Option K) (TSpan bSpan : Option ℕ) (ticks : List (MTick K)) (bars : List (MBar K))
    (ids : List ℕ)
    (h : aggregateRunsBarsM .tick minSize (some m) b0 ETInit PInit EvBuyInit EvSellInit TSpan bSpan ticks = .ok (bars, ids))
    (j d : ℕ) (hd : m ≤ d) (hjd : j + d < ticks.length) : ids[j]? ≠ ids[j + d]? := by
  obtain ⟨p, r, v, x0, q0, s, hmin', hmax, hv, hx0, hq0, hpos, hs, hfine, rfl⟩ :=
    runsBars_inv .tick minSize (some m) b0 ETInit PInit EvBuyInit EvSellInit TSpan bSpan ticks bars ids h
  cases hv
  have hv1 : ∀ i < ticks.length, (ticks.map fun _ => (some 1 : Option K))[i]? = some (some 1) := fun i hi => by
    rw [List.getElem?_map, List.getElem?_eq_getElem hi]; rfl
  have e1 : q0 = some 1 := by unfold pyGet at hq0; rw [hv1 0 hpos] at hq0; cases hq0; rfl
  have hshort := runs_invariant p _ _ (fun k s => ShortBars m k s) (ticks.length - 1) 0
    (fun k s s' _ hk hs h => shortBars_step p m hm hmax (hmin' ▸ hmin) _ _ s s' k (hv1 _ (by omega)) hs h) _ s
    ⟨⟨List.Pairwise.nil, by simp [runsInitM], .inl ⟨rfl, rfl⟩⟩, by simp [runsInitM, e1], by simp [runsInitM]; linarith,
      fun j d hd hjd => by
        exfalso
        have : (d : K) = 0 := by
          have : d = 0 := by omega
          rw [this]; simp
        linarith⟩ hs
  rw [Nat.zero_add] at hshort
  obtain ⟨e, he, h1, h2⟩ := hshort.win j d hd (by omega)
  rw [List.getElem?_map, List.getElem?_map, List.getElem?_range hjd, List.getElem?_range (by omega)]
  simp only [Option.map_some, ne_eq, Option.some_inj]
  set E := if s.start < ticks.length then s.ends ++ [ticks.length - 1] else s.ends
  have heE : e ∈ E := by
    simp only [E]
    split_ifs
    · exact List.mem_append_left _ he
    · exact he
  have : barOf E j < barOf E (j + d) := by
    unfold barOf
    rw [← List.countP_eq_length_filter, ← List.countP_eq_length_filter]
    obtain ⟨l1, l2, hl⟩ := List.append_of_mem heE
    rw [hl, List.countP_append, List.countP_append, List.countP_cons_of_neg (by simpa using h1),
      List.countP_cons_of_pos (by simpa using h2)]
    have hmono : ∀ l : List ℕ, l.countP (fun x => decide (x < j)) ≤ l.countP (fun x => decide (x < j + d)) := fun l =>
      List.countP_mono_left fun x _ hx => by
        simp only [decide_eq_true_eq] at hx ⊢
        omega
    have := hmono l1
    have := hmono l2
    omega
  omega

/-! ## Without missing values -/

/-- The state without the debug columns. -/
def RunsState.plain (s : RunsState K) : RunsStateM K :=
  ⟨s.ends, s.Ts, s.buyRatios, s.vBuys.map some, s.vSells.map some, s.start, some s.size, s.buyRuns, some s.vBuyRuns,
    some s.vSellRuns, s.threshold, s.padding⟩

theorem runsThresholdM_complete (ET P : K) (a c : Option K) : runsThresholdM ET (some P) a c = runsThreshold ET P a c := by
  unfold runsThresholdM runsThreshold mulM
  cases a <;> cases c <;> rfl

theorem pyMaxNan_some (a c : K) : pyMaxNan (some a) (some c) = some (max a c) := by
  unfold pyMaxNan
  by_cases h : a < c
  · simp [h, max_eq_right h.le]
  · simp [h, max_eq_left (not_lt.1 h)]

theorem runsStepM_complete (p : LoopParams K) (b v : List K) (s : RunsState K) (i : ℕ) :
    runsStepM p (b.map some) (v.map some) s.plain i = (runsStep p b v s i).map RunsState.plain := by
  unfold runsStepM runsStep
  rw [pyGet_complete, pyGet_complete]
  cases pyGet b i with
  | error e => rfl
  | ok x =>
    cases pyGet v i with
    | error e => rfl
    | ok q =>
      have hm : ∀ y : K, (Except.ok y : Py K).map some = .ok (some y) := fun _ => rfl
      rw [hm, hm, py_bind_ok, py_bind_ok, py_bind_ok, py_bind_ok]
      have hadd : runsAddM s.plain (some x) (some q) = ⟨s.ends, s.Ts, s.buyRatios,
          (if 0 ≤ x then s.vBuys ++ [q] else s.vBuys).map some, (if x < 0 then s.vSells ++ [q] else s.vSells).map some,
          s.start, some (s.size + q), s.buyRuns + (if 0 ≤ x then 1 else 0), some (s.vBuyRuns + (if 0 ≤ x then q else 0)),
          some (s.vSellRuns + (if x < 0 then q else 0)), s.threshold, s.padding⟩ := by
        by_cases h0 : 0 ≤ x
        · have h1 : ¬ x < 0 := not_lt.2 h0
          simp [runsAddM, RunsState.plain, isBuyM, isSellM, addM, h0, h1]
        · have h1 : x < 0 := not_le.1 h0
          simp [runsAddM, RunsState.plain, isBuyM, isSellM, addM, h0, h1]
      have hc : runsClosesM p (runsAddM s.plain (some x) (some q)) =
          decide (geNan (max (s.vBuyRuns + (if 0 ≤ x then q else 0)) (s.vSellRuns + (if x < 0 then q else 0))) s.threshold ∨
            geMax (s.size + q) p.maxSize ∨ s.padding) := by
        rw [hadd]
        unfold runsClosesM
        rw [pyMaxNan_some]
        cases hmx : p.maxSize <;> cases hpd : s.padding <;> cases hth : s.threshold <;> simp [geM, geMax, geNan]
      have hl : ltM (runsAddM s.plain (some x) (some q)).size p.minSize = decide (s.size + q < p.minSize) := by
        rw [hadd]; rfl
      simp only [hc, hl, decide_eq_true_eq]
      clear hc hl
      generalize (if 0 ≤ x then s.vBuys ++ [q] else s.vBuys) = vB at hadd ⊢
      generalize (if x < 0 then s.vSells ++ [q] else s.vSells) = vS at hadd ⊢
      generalize (if 0 ≤ x then (1 : K) else 0) = one at hadd ⊢
      generalize (if 0 ≤ x then q else 0) = qB at hadd ⊢
      generalize (if x < 0 then q else 0) = qS at hadd ⊢
      split_ifs with h1 h2
      · rw [hadd]; rfl
      · rw [hadd]
        unfold runsCloseM
        simp only [ewmaLastM_complete, List.length_map]
        cases (fastEwma (s.Ts ++ [(((i - s.start + 1 : ℕ)) : K)])
          (effTSpan p.TSpan (s.Ts ++ [(((i - s.start + 1 : ℕ)) : K)]).length) true >>= pyLast) with
        | error e => rfl
        | ok ET =>
          rw [py_bind_ok, py_bind_ok]
          cases (fastEwma (s.buyRatios ++ [(s.buyRuns + one) / ((i - s.start + 1 : ℕ) : K)])
            (effTSpan p.TSpan (s.Ts ++ [(((i - s.start + 1 : ℕ)) : K)]).length) true >>= pyLast) with
          | error e => rfl
          | ok P =>
            rw [py_bind_ok, py_bind_ok]
            cases (fastEwma vB
              (min vB.length p.bSpan) true >>= pyLast) with
            | error e => rfl
            | ok Eb =>
              rw [hm, py_bind_ok, py_bind_ok]
              cases (fastEwma vS
                (min vS.length p.bSpan) true >>= pyLast) with
              | error e => rfl
              | ok Es =>
                rw [hm, py_bind_ok, py_bind_ok, runsThresholdM_complete]
                rfl
      · rw [hadd]; rfl

theorem foldlM_runs_complete (p : LoopParams K) (b v : List K) (l : List ℕ) (s : RunsState K) :
    l.foldlM (runsStepM p (b.map some) (v.map some)) s.plain = (l.foldlM (runsStep p b v) s).map RunsState.plain := by
  induction l generalizing s with
  | nil => rfl
  | cons i l ih =>
    rw [List.foldlM_cons, List.foldlM_cons, runsStepM_complete]
    cases runsStep p b v s i with
    | error e => rfl
    | ok s' => exact ih s'

theorem runsInitM_complete (p : LoopParams K) (r : RunsInit K) (x q : K) :
    runsInitM p ⟨some r.PBuy, r.EvBuy, r.EvSell⟩ (some x) (some q) = (runsInit p r x q).plain := by
  unfold runsInitM runsInit RunsState.plain
  rw [runsThresholdM_complete]
  by_cases h0 : 0 ≤ x
  · have h1 : ¬ x < 0 := not_lt.2 h0
    simp [isBuyM, isSellM, h0, h1]
  · have h1 : x < 0 := not_le.1 h0
    simp [isBuyM, isSellM, h0, h1]

theorem meanQty_complete (init : Option K) (l : List (K × K)) (P : K → Bool) (Q : Option K → Bool)
    (hPQ : ∀ x, Q (some x) = P x) :
    meanQtyM init (((l.map fun z => (some z.1, some z.2)).filter fun z => Q z.1).map Prod.snd) =
      match init with
      | some x => some x
      | none => meanNan ((l.filter fun z => P z.1).map Prod.snd) := by
  unfold meanQtyM
  cases init with
  | some x => rfl
  | none =>
    simp only
    congr 1
    rw [List.filter_map, List.map_map]
    have : ((fun z : Option K × Option K => Q z.1) ∘ fun z : K × K => (some z.1, some z.2)) = fun z => P z.1 := by
      funext z
      exact hPQ z.1
    rw [this, show (Prod.snd ∘ fun z : K × K => ((some z.1, some z.2) : Option K × Option K)) = some ∘ Prod.snd from rfl,
      ← List.map_map]
    simp [List.reduceOption]

/-- C351.  Without missing values this is the model of C11, except for the debug columns. -/
theorem C351_complete (unit : BarUnit) (minSize : K) (maxSize : Option K) (b0 : K) (ETInit : ℕ)
    (PInit EvBuyInit EvSellInit : Option K) (TSpan bSpan : Option ℕ) (ticks : List (Tick K))
    (hE : 1 ≤ ETInit ∨ PInit ≠ none) (hne : ticks ≠ []) :
    aggregateRunsBarsM unit minSize maxSize b0 ETInit PInit EvBuyInit EvSellInit TSpan bSpan (ticks.map Tick.complete) =
      (aggregateRunsBars unit minSize maxSize b0 ETInit PInit EvBuyInit EvSellInit TSpan bSpan ticks).map
        fun r => (r.1.map Bar.complete, r.2.1) := by
  unfold aggregateRunsBarsM aggregateRunsBars
  have e1 : (ticks.map Tick.complete).map MTick.price = (ticks.map Tick.price).map some := by
    rw [List.map_map, List.map_map]; rfl
  have e2 : tradedQtyM unit (ticks.map Tick.complete) = (tradedQty unit ticks).map (List.map some) := by
    unfold tradedQtyM tradedQty
    cases unit
    · rfl
    · simp only [Except.map, List.map_map]
      rfl
    · simp only [Except.map, List.map_map]; rfl
    · simp only [Except.map, List.map_map]; rfl
  rw [e1, C348_complete, e2]
  cases hv : tradedQty unit ticks with
  | error e => rfl
  | ok v =>
    have hm : (Except.ok v : Py (List K)).map (List.map some) = .ok (v.map some) := rfl
    simp only [hm, py_bind_ok]
    set b := tickRule b0 (ticks.map Tick.price) with hb
    have hbn : b ≠ [] := by
      cases ticks with
      | nil => exact absurd rfl hne
      | cons t ts => simp [hb, tickRule]
    have hnot : ¬ (PInit = none ∧ b.take ETInit = []) := by
      rintro ⟨h1, h2⟩
      rcases hE with hE | hE
      · rw [List.take_eq_nil_iff] at h2
        rcases h2 with h2 | h2
        · omega
        · exact hbn h2
      · exact hE h1
    rw [if_neg hnot]
    have hpos : ∀ x : K, (isBuyM (some x) && decide (some x ≠ some 0)) = decide (0 < x) := by
      intro x
      rw [Bool.eq_iff_iff]
      simp only [isBuyM, Bool.and_eq_true, decide_eq_true_eq, ne_eq, Option.some_inj]
      exact ⟨fun h => lt_of_le_of_ne h.1 (Ne.symm h.2), fun h => ⟨h.le, h.ne'⟩⟩
    have hP : pBuyM PInit ((b.map some).take ETInit) =
        some (PInit.getD ((((b.take ETInit).filter (0 < ·)).length : K) / ((b.take ETInit).length : K))) := by
      cases PInit with
      | some x => rfl
      | none =>
        have h2 : b.take ETInit ≠ [] := fun h => hnot ⟨rfl, h⟩
        unfold pBuyM
        simp only [← List.map_take, List.map_eq_nil_iff, h2, if_false, Option.getD_none, List.length_map, List.filter_map]
        congr 4
        apply List.filter_congr
        intro x _
        exact hpos x
    have hz : ((b.map some).take ETInit).zip ((v.map some).take ETInit) =
        ((b.take ETInit).zip (v.take ETInit)).map fun z => ((some z.1, some z.2) : Option K × Option K) := by
      rw [← List.map_take, ← List.map_take, List.zip_map]
      rfl
    rw [hP, hz]
    have hB := meanQty_complete EvBuyInit ((b.take ETInit).zip (v.take ETInit)) (fun x => decide (0 < x))
      (fun x => isBuyM x && decide (x ≠ some 0)) hpos
    have hS := meanQty_complete EvSellInit ((b.take ETInit).zip (v.take ETInit)) (fun x => decide (x < 0))
      isSellM (fun x => rfl)
    simp only [hB, hS]
    generalize PInit.getD ((((b.take ETInit).filter (0 < ·)).length : K) / ((b.take ETInit).length : K)) = P
    set p : LoopParams K := { minSize := minSize, maxSize := maxSize, ETInit := (ETInit : K),
                              TSpan := TSpan, bSpan := bSpan.getD (3 * ETInit) }
    have fin : ∀ Eb Es : Option K,
        (runsEndsM p ⟨some P, Eb, Es⟩ (b.map some) (v.map some) >>= fun ends =>
          computeTickBarId (ticks.map Tick.complete).length ends >>= fun ids =>
            groupTicksM (ids.map some) (ticks.map Tick.complete) >>= fun res => pure (res, ids)) =
        (computeRunsBarSizes p ⟨P, Eb, Es⟩ b v >>= fun x =>
          computeTickBarId ticks.length x.1 >>= fun ids =>
            groupTicksToBars ids ticks >>= fun res => pure (res, ids, x.2.2.1, x.2.2.2)).map
          fun r => (r.1.map Bar.complete, r.2.1) := by
      intro Eb Es
      have hends : runsEndsM p ⟨some P, Eb, Es⟩ (b.map some) (v.map some) =
          (computeRunsBarSizes p ⟨P, Eb, Es⟩ b v).map Prod.fst := by
        unfold runsEndsM computeRunsBarSizes runsLoopM runsLoop
        rw [pyGet_complete, pyGet_complete, List.length_map]
        cases pyGet b 0 with
        | error e => rfl
        | ok x0 =>
          cases pyGet v 0 with
          | error e => rfl
          | ok q0 =>
            have hm : ∀ y : K, (Except.ok y : Py K).map some = .ok (some y) := fun _ => rfl
            have hi := runsInitM_complete p ⟨P, Eb, Es⟩ x0 q0
            simp only [hm, py_bind_ok] at hi ⊢
            rw [hi, foldlM_runs_complete]
            cases (List.range' 1 (b.length - 1)).foldlM (runsStep p b v) (runsInit p ⟨P, Eb, Es⟩ x0 q0) with
            | error e => rfl
            | ok s =>
              change Except.ok (if s.start < b.length then _ else _) = Except.map Prod.fst (if s.start < b.length then _ else _)
              by_cases h : s.start < b.length
              · rw [if_pos h, if_pos h]; rfl
              · rw [if_neg h, if_neg h]; rfl
      rw [hends]
      cases computeRunsBarSizes p ⟨P, Eb, Es⟩ b v with
      | error e => rfl
      | ok r =>
        obtain ⟨ends, c, d, e⟩ := r
        change (computeTickBarId _ ends >>= _) = Except.map _ (computeTickBarId _ ends >>= _)
        rw [List.length_map]
        cases hids : computeTickBarId ticks.length ends with
        | error e => rfl
        | ok ids =>
          rw [py_bind_ok, py_bind_ok, groupTicksM_some ids ticks (tickBarIdLoop_length ends _ _ _ _ hids)]
          cases groupTicksToBars ids ticks <;> rfl
    cases EvBuyInit <;> cases EvSellInit <;> exact fin _ _

/-! ## Ticks without flag -/

/-- Not negative, if known. -/
def NonNegM (a : Option K) : Prop := ∀ x, a = some x → 0 ≤ x

theorem nonNegM_add {a c : Option K} (ha : NonNegM a) (hc : NonNegM c) : NonNegM (addM a c) := by
  intro x hx
  unfold addM at hx
  cases a with
  | none => cases hx
  | some y =>
    cases c with
    | none => cases hx
    | some z =>
      cases hx
      exact add_nonneg (ha y rfl) (hc z rfl)

theorem ltM_nonNeg {a : Option K} (ha : NonNegM a) : ltM a 0 = false := by
  cases a with
  | none => rfl
  | some x => simp [ltM, ha x rfl]

/-- Two states that differ in their sizes at most. -/
structure SameButSize (s s' : RunsStateM K) : Prop where
  eq : s' = { s with size := s'.size }
  left : NonNegM s.size
  right : NonNegM s'.size

theorem runsAddM_sameButSize {s s' : RunsStateM K} (h : SameButSize s s') (x q q' : Option K) (hq : NonNegM q)
    (hq' : NonNegM q') (hx : ∀ f, x = some f → q = q') : SameButSize (runsAddM s x q) (runsAddM s' x q') := by
  refine ⟨?_, nonNegM_add h.left hq, nonNegM_add h.right hq'⟩
  rw [h.eq]
  cases x with
  | none => rfl
  | some f => rw [hx f rfl]; rfl

/-- The same outcome, up to the sizes. -/
def SameOutcome : Py (RunsStateM K) → Py (RunsStateM K) → Prop
  | .ok s, .ok s' => SameButSize s s'
  | .error e, .error e' => e = e'
  | _, _ => False

theorem runsStepM_sameButSize (p : LoopParams K) (hmin : p.minSize = 0) (hmax : p.maxSize = none) (b v v' : List (Option K))
    (hlen : v.length = v'.length) (hn : ∀ q ∈ v, NonNegM q) (hn' : ∀ q ∈ v', NonNegM q)
    (hv : ∀ (i : ℕ) (f : K), b[i]? = some (some f) → v[i]? = v'[i]?) (s s' : RunsStateM K) (h : SameButSize s s') (i : ℕ) :
    SameOutcome (runsStepM p b v s i) (runsStepM p b v' s' i) := by
  unfold runsStepM pyGet
  cases hb : b[i]? with
  | none => exact rfl
  | some x =>
    cases hi : v[i]? with
    | none =>
      have : v'[i]? = none := by
        rw [List.getElem?_eq_none_iff] at hi ⊢
        omega
      rw [this]
      exact rfl
    | some q =>
      obtain ⟨q', hi'⟩ : ∃ q', v'[i]? = some q' := by
        have := (List.getElem?_eq_some_iff.1 hi).1
        exact ⟨_, List.getElem?_eq_getElem (hlen ▸ this)⟩
      have hx : ∀ f, x = some f → q = q' := by
        rintro f rfl
        have := hv i f hb
        rw [hi, hi'] at this
        exact Option.some_inj.1 this
      have ha := runsAddM_sameButSize h x q q' (hn q (List.mem_of_getElem? hi)) (hn' q' (List.mem_of_getElem? hi')) hx
      rw [hi']
      simp only [py_bind_ok, hmin, ltM_nonNeg ha.left, ltM_nonNeg ha.right, Bool.false_eq_true, if_false]
      have hc : runsClosesM p (runsAddM s' x q') = runsClosesM p (runsAddM s x q) := by
        rw [ha.eq]
        unfold runsClosesM
        rw [hmax, geM_none, geM_none]
      have hcl : runsCloseM p (runsAddM s' x q') i = runsCloseM p (runsAddM s x q) i := by
        rw [ha.eq]
        rfl
      rw [hc]
      by_cases hcc : runsClosesM p (runsAddM s x q) = true
      · rw [if_pos hcc, if_pos hcc, hcl]
        cases hr : runsCloseM p (runsAddM s x q) i with
        | error e => exact rfl
        | ok r =>
          have hz : NonNegM r.size := by
            rw [(runsCloseM_ok p _ r i hr).2.2.2.1]
            rintro y hy
            cases hy
            exact le_rfl
          exact ⟨rfl, hz, hz⟩
      · rw [if_neg hcc, if_neg hcc]
        exact ha

theorem runsFold_sameButSize (p : LoopParams K) (hmin : p.minSize = 0) (hmax : p.maxSize = none) (b v v' : List (Option K))
    (hlen : v.length = v'.length) (hn : ∀ q ∈ v, NonNegM q) (hn' : ∀ q ∈ v', NonNegM q)
    (hv : ∀ (i : ℕ) (f : K), b[i]? = some (some f) → v[i]? = v'[i]?) (l : List ℕ) (s s' : RunsStateM K)
    (h : SameButSize s s') :
    SameOutcome (l.foldlM (runsStepM p b v) s) (l.foldlM (runsStepM p b v') s') := by
  induction l generalizing s s' with
  | nil => exact h
  | cons i l ih =>
    have h1 := runsStepM_sameButSize p hmin hmax b v v' hlen hn hn' hv s s' h i
    rw [List.foldlM_cons, List.foldlM_cons]
    cases hr : runsStepM p b v s i with
    | error e =>
      cases hr' : runsStepM p b v' s' i with
      | error e' => rw [hr, hr'] at h1; exact h1
      | ok r' => rw [hr, hr'] at h1; exact h1.elim
    | ok r =>
      cases hr' : runsStepM p b v' s' i with
      | error e' => rw [hr, hr'] at h1; exact h1.elim
      | ok r' =>
        rw [hr, hr'] at h1
        exact ih r r' h1

theorem runsEndsM_sameButSize (p : LoopParams K) (hmin : p.minSize = 0) (hmax : p.maxSize = none) (r : RunsInitM K)
    (b v v' : List (Option K)) (hlen : v.length = v'.length) (hn : ∀ q ∈ v, NonNegM q) (hn' : ∀ q ∈ v', NonNegM q)
    (hv : ∀ (i : ℕ) (f : K), b[i]? = some (some f) → v[i]? = v'[i]?) : runsEndsM p r b v = runsEndsM p r b v' := by
  unfold runsEndsM runsLoopM pyGet
  cases hb : b[0]? with
  | none => rfl
  | some x =>
    cases hi : v[0]? with
    | none =>
      have : v'[0]? = none := by
        rw [List.getElem?_eq_none_iff] at hi ⊢
        omega
      rw [this]
      rfl
    | some q =>
      obtain ⟨q', hi'⟩ : ∃ q', v'[0]? = some q' := by
        have := (List.getElem?_eq_some_iff.1 hi).1
        exact ⟨_, List.getElem?_eq_getElem (hlen ▸ this)⟩
      have hinit : SameButSize (runsInitM p r x q) (runsInitM p r x q') := by
        refine ⟨?_, hn q (List.mem_of_getElem? hi), hn' q' (List.mem_of_getElem? hi')⟩
        cases x with
        | none => rfl
        | some f =>
          have := hv 0 f hb
          rw [hi, hi'] at this
          cases this
          rfl
      have := runsFold_sameButSize p hmin hmax b v v' hlen hn hn' hv (List.range' 1 (b.length - 1)) _ _ hinit
      rw [hi']
      simp only [py_bind_ok]
      cases h1 : (List.range' 1 (b.length - 1)).foldlM (runsStepM p b v) (runsInitM p r x q) with
      | error e =>
        cases h2 : (List.range' 1 (b.length - 1)).foldlM (runsStepM p b v') (runsInitM p r x q') with
        | error e' => rw [h1, h2] at this; cases this; rfl
        | ok s' => rw [h1, h2] at this; exact this.elim
      | ok s =>
        cases h2 : (List.range' 1 (b.length - 1)).foldlM (runsStepM p b v') (runsInitM p r x q') with
        | error e' => rw [h1, h2] at this; exact this.elim
        | ok s' =>
          rw [h1, h2] at this
          rw [py_bind_ok, py_bind_ok, this.eq]

theorem zip_filter_flagged (b v v' : List (Option K)) (hlen : v.length = v'.length) (Q : Option K → Bool)
    (hQ : Q none = false) (hv : ∀ (i : ℕ) (f : K), b[i]? = some (some f) → v[i]? = v'[i]?) (n : ℕ) :
    ((b.take n).zip (v.take n)).filter (fun z => Q z.1) = ((b.take n).zip (v'.take n)).filter (fun z => Q z.1) := by
  induction n generalizing b v v' with
  | zero => rfl
  | succ n ih =>
    cases b with
    | nil => simp
    | cons x b =>
      cases v with
      | nil =>
        cases v' with
        | nil => rfl
        | cons q' v' => simp at hlen
      | cons q v =>
        cases v' with
        | nil => simp at hlen
        | cons q' v' =>
          have ht := ih b v v' (by simpa using hlen) fun i f h => by simpa using hv (i + 1) f (by simpa using h)
          simp only [List.take_succ_cons, List.zip_cons_cons, List.filter_cons]
          cases x with
          | none => simp only [hQ]; exact ht
          | some f =>
            have : q = q' := by simpa using hv 0 f rfl
            rw [this, ht]

/-- C351, ticks without flag.  Without limits of the size, the volume of a tick without flag plays no part in the bars: it is
neither a buy nor a sell. -/
theorem C351_unflagged (b0 : K) (ETInit : ℕ) (PInit EvBuyInit EvSellInit : Option K) (TSpan bSpan : Option ℕ)
    (ticks ticks' : List (MTick K)) (hp : ticks.map MTick.price = ticks'.map MTick.price)
    (hn : ∀ t ∈ ticks ++ ticks', ∀ x, t.volume = some x → 0 ≤ x)
    (hv : ∀ (i : ℕ) (f : K), (tickRuleM b0 (ticks.map MTick.price))[i]? = some (some f) →
      (ticks.map MTick.volume)[i]? = (ticks'.map MTick.volume)[i]?)
    (r r' : List (MBar K) × List ℕ)
    (h : aggregateRunsBarsM .volume 0 none b0 ETInit PInit EvBuyInit EvSellInit TSpan bSpan ticks = .ok r)
    (h' : aggregateRunsBarsM .volume 0 none b0 ETInit PInit EvBuyInit EvSellInit TSpan bSpan ticks' = .ok r') :
    r.2 = r'.2 := by
  have hlen : ticks.length = ticks'.length := by simpa using congrArg List.length hp
  have hl : (ticks.map MTick.volume).length = (ticks'.map MTick.volume).length := by simpa using hlen
  unfold aggregateRunsBarsM tradedQtyM at h h'
  simp only [py_bind_ok] at h h'
  rw [← hp, ← hlen] at h'
  rw [← zip_filter_flagged _ _ _ hl (fun x => isBuyM x && decide (x ≠ some 0)) rfl hv ETInit,
    ← zip_filter_flagged _ _ _ hl isSellM rfl hv ETInit, ← runsEndsM_sameButSize _ rfl rfl _ _ _ _ hl ?_ ?_ hv] at h'
  · rw [py_bind_eq_ok] at h h'
    obtain ⟨ends, he, h⟩ := h
    obtain ⟨ends', he', h'⟩ := h'
    rw [he] at he'
    cases he'
    rw [py_bind_eq_ok] at h h'
    obtain ⟨ids, hi, h⟩ := h
    obtain ⟨ids', hi', h'⟩ := h'
    rw [hi] at hi'
    cases hi'
    rw [py_bind_eq_ok] at h h'
    obtain ⟨res, -, h⟩ := h
    obtain ⟨res', -, h'⟩ := h'
    cases h
    cases h'
    rfl
  · intro q hq x hx
    obtain ⟨t, ht, rfl⟩ := List.mem_map.1 hq
    exact hn t (List.mem_append_left _ ht) x hx
  · intro q hq x hx
    obtain ⟨t, ht, rfl⟩ := List.mem_map.1 hq
    exact hn t (List.mem_append_right _ ht) x hx

/-- Ticks whose fourth has no price, so that it and the next have no flag; its volume is `q`. -/
def noFlag (q : Option ℚ) : List (MTick ℚ) :=
  [⟨0, some 10, some 1⟩, ⟨1, some 9, some 1⟩, ⟨2, some 10, some 1⟩, ⟨3, none, q⟩, ⟨4, some 10, none⟩, ⟨5, some 11, some 1⟩,
   ⟨6, some 12, some 1⟩, ⟨7, some 11, some 2⟩]

example : tickRuleM 1 ((noFlag none).map MTick.price) =
    [some 1, some (-1), some 1, none, none, some 1, some 1, some (-1)] := by decide +kernel

example : (aggregateRunsBarsM (K := ℚ) .volume 0 none 1 4 (some (1 / 2)) (some 1) (some 1) none none
    (noFlag (some 5))).toOption.map Prod.snd = some [0, 0, 0, 1, 1, 1, 1, 2] := by decide +kernel

example : (aggregateRunsBarsM (K := ℚ) .volume 0 none 1 4 (some (1 / 2)) (some 1) (some 1) none none
    (noFlag none)).toOption.map Prod.snd = some [0, 0, 0, 1, 1, 1, 1, 2] := by decide +kernel

/-! ## Initial expectations -/

/-- The known quantities of the ticks whose flag satisfies `P`. -/
def knownQty (P : K → Bool) : List (Option K × Option K) → List K
  | [] => []
  | (some f, some q) :: l => if P f then q :: knownQty P l else knownQty P l
  | _ :: l => knownQty P l

theorem knownQty_eq (P : K → Bool) (Q : Option K → Bool) (hQ : Q none = false) (hPQ : ∀ x, Q (some x) = P x)
    (l : List (Option K × Option K)) : ((l.filter fun z => Q z.1).map Prod.snd).reduceOption = knownQty P l := by
  induction l with
  | nil => rfl
  | cons z l ih =>
    obtain ⟨f, q⟩ := z
    cases f with
    | none =>
      rw [List.filter_cons_of_neg (by simp [hQ])]
      exact ih
    | some f =>
      by_cases hP : P f = true
      · rw [List.filter_cons_of_pos (by simp [hPQ, hP]), List.map_cons]
        cases q with
        | none => rw [List.reduceOption_cons_of_none]; exact ih
        | some q => rw [List.reduceOption_cons_of_some, ih]; simp [knownQty, hP]
      · rw [List.filter_cons_of_neg (by simp [hPQ, hP])]
        cases q with
        | none => exact ih
        | some q => rw [ih]; simp [knownQty, hP]

/-- C351, initial expectations.  They are taken from the first `E_T_init` ticks: the share of buys among all of them, with flag or
without, and the mean of the known quantities of buys and of sells. -/
theorem C351_initial (unit : BarUnit) (minSize : K) (maxSize : Option K) (b0 : K) (ETInit : ℕ) (TSpan bSpan : Option ℕ)
    (ticks : List (MTick K)) (v : List (Option K)) (hv : tradedQtyM unit ticks = .ok v) (fl : List (Option K))
    (hfl : fl = (tickRuleM b0 (ticks.map MTick.price)).take ETInit) (hne : fl ≠ []) (buys sells : List K)
    (hbuys : buys = knownQty (fun f => decide (0 < f)) (fl.zip (v.take ETInit))) (hb : buys ≠ [])
    (hsells : sells = knownQty (fun f => decide (f < 0)) (fl.zip (v.take ETInit))) (hs : sells ≠ []) :
    aggregateRunsBarsM unit minSize maxSize b0 ETInit none none none TSpan bSpan ticks =
      aggregateRunsBarsM unit minSize maxSize b0 ETInit
        (some (((fl.filterMap id).filter fun f => decide (0 < f)).length / fl.length))
        (some (buys.sum / buys.length)) (some (sells.sum / sells.length)) TSpan bSpan ticks := by
  have hpos : ∀ x : K, (isBuyM (some x) && decide (some x ≠ some 0)) = decide (0 < x) := by
    intro x
    rw [Bool.eq_iff_iff]
    simp only [isBuyM, Bool.and_eq_true, decide_eq_true_eq, ne_eq, Option.some_inj]
    exact ⟨fun h => lt_of_le_of_ne h.1 (Ne.symm h.2), fun h => ⟨h.le, h.ne'⟩⟩
  have hcount : ∀ l : List (Option K), (l.filter fun x => isBuyM x && decide (x ≠ some 0)).length =
      ((l.filterMap id).filter fun f => decide (0 < f)).length := by
    intro l
    induction l with
    | nil => rfl
    | cons x l ih =>
      cases x with
      | none => rw [List.filter_cons_of_neg (by simp [isBuyM])]; exact ih
      | some x =>
        rw [show (some x :: l).filterMap id = x :: l.filterMap id from rfl, List.filter_cons, List.filter_cons, hpos x]
        split_ifs
        · rw [List.length_cons, List.length_cons, ih]
        · exact ih
  have e1 := knownQty_eq (fun f : K => decide (0 < f)) (fun x => isBuyM x && decide (x ≠ some 0)) rfl hpos
    (fl.zip (v.take ETInit))
  have e2 := knownQty_eq (fun f : K => decide (f < 0)) isSellM rfl (fun x => rfl) (fl.zip (v.take ETInit))
  unfold aggregateRunsBarsM
  simp only [hv, py_bind_ok, ← hfl, pBuyM, meanQtyM, if_neg hne, hcount, e1, e2, ← hbuys, ← hsells, meanNan, if_neg hb, if_neg hs]
  rfl

/-- With the fourth tick as it is, the first four ticks give the share 1/2 of buys and means 1 of the buys and of the sells. -/
example : (tickRuleM 1 ((noFlag none).map MTick.price)).take 4 = [some 1, some (-1), some 1, none] ∧
    knownQty (fun f => decide (0 < f)) ([some 1, some (-1), some 1, none].zip (((noFlag none).map MTick.volume).take 4)) =
      [1, 1] ∧
    knownQty (fun f => decide (f < 0)) ([some 1, some (-1), some 1, none].zip (((noFlag none).map MTick.volume).take 4)) =
      [1] := by decide +kernel

example : (aggregateRunsBarsM (K := ℚ) .tick 0 (some 3) 1 10 (some (1 / 2)) (some 1) (some 1) none none
    [⟨0, some 2, some 1⟩, ⟨1, some 1, some 1⟩, ⟨2, some 2, some 1⟩, ⟨3, none, some 1⟩, ⟨4, some 3, some 1⟩, ⟨5, some 3, some 1⟩,
     ⟨6, some 5, some 1⟩]).toOption.map Prod.snd = some [0, 0, 0, 1, 1, 1, 2] := by decide +kernel

end FinML.Bars
