import Verif.Metrics.Model
import Verif.Metrics.PosProps
import Verif.Py.GroupBy
import Verif.Py.Lemmas
import Mathlib.Tactic.Linarith
import Mathlib.Tactic.FieldSimp
import Mathlib.Tactic.Ring
import Mathlib.Tactic.NormNum
import Mathlib.Data.Rat.Floor
import Mathlib.Order.Bounds.Basic
import Mathlib.Data.List.TakeWhile
import Mathlib.Data.List.Induction

/-! # Drawdown and time under water (C95, C96) -/

set_option linter.unusedSectionVars false

namespace FinML.Metrics

variable {K : Type} [Field K] [LinearOrder K] [IsStrictOrderedRing K]

/-! ## Specification -/

/-- `h` is a new high at time `t`, and `run` are the values after it that do not exceed it, up to the
next new high (the head of `post`). -/
structure HighRun (s pre : Ser K) (t : ℤ) (h : K) (run post : Ser K) : Prop where
  eq : s = pre ++ (t, h) :: (run ++ post)
  before : ∀ p ∈ pre, p.2 < h
  under : ∀ p ∈ run, p.2 ≤ h
  exceed : ∀ p ∈ post.head?, h < p.2

/-- A high, its time and the lowest value until it is exceeded, if that is lower. -/
def IsDrawdown (s : Ser K) (t : ℤ) (h m : K) : Prop :=
  ∃ pre run post, HighRun s pre t h run post ∧
    IsLeast {y : K | ∃ p ∈ (t, h) :: run, y = p.2} m ∧ m < h

/-- `a` is followed by `b` (or is `b`). -/
def Falls (s : Ser K) (a b : K) : Prop :=
  ∃ (i j : ℕ) (u v : ℤ), i ≤ j ∧ s[i]? = some (u, a) ∧ s[j]? = some (v, b)

/-! ## Blocks -/

/-- The series cut at new highs. -/
def blocksFrom (t : ℤ) (h : K) (acc : List K) : Ser K → List (ℤ × K × List K)
  | [] => [(t, h, acc)]
  | (u, x) :: rest =>
    if h < x then (t, h, acc) :: blocksFrom u x [x] rest else blocksFrom t h (acc ++ [x]) rest

theorem blocks_vals (rest : Ser K) : ∀ (t : ℤ) (h : K) (acc : List K),
    (blocksFrom t h acc rest).flatMap (fun b => b.2.2) = acc ++ rest.map Prod.snd := by
  induction rest with
  | nil => intro t h acc; simp [blocksFrom]
  | cons y rest ih =>
    intro t h acc
    obtain ⟨u, x⟩ := y
    unfold blocksFrom
    split_ifs with hx
    · simp [List.flatMap_cons, ih]
    · simp [ih]

theorem blocks_hwm (rest : Ser K) : ∀ (t : ℤ) (h : K) (acc : List K),
    (blocksFrom t h acc rest).flatMap (fun b => List.replicate b.2.2.length b.2.1)
      = List.replicate acc.length h ++ cummaxFrom h (rest.map Prod.snd) := by
  induction rest with
  | nil => intro t h acc; simp [blocksFrom, cummaxFrom]
  | cons y rest ih =>
    intro t h acc
    obtain ⟨u, x⟩ := y
    unfold blocksFrom
    split_ifs with hx
    · simp [List.flatMap_cons, ih, cummaxFrom, max_eq_right hx.le]
    · push Not at hx
      simp [ih, cummaxFrom, max_eq_left hx, List.replicate_succ']

theorem blocks_keys (rest : Ser K) : ∀ (t : ℤ) (h : K) (acc : List K), acc ≠ [] →
    ((blocksFrom t h acc rest).map fun b => b.2.1).Pairwise (· < ·) ∧
    (∀ b ∈ blocksFrom t h acc rest, h ≤ b.2.1 ∧ b.2.2 ≠ []) := by
  induction rest with
  | nil => intro t h acc ha; simp [blocksFrom, ha]
  | cons y rest ih =>
    intro t h acc ha
    obtain ⟨u, x⟩ := y
    unfold blocksFrom
    split_ifs with hx
    · obtain ⟨h1, h2⟩ := ih u x [x] (by simp)
      constructor
      · rw [List.map_cons, List.pairwise_cons]
        refine ⟨?_, h1⟩
        intro k hk
        obtain ⟨b, hb, rfl⟩ := List.mem_map.1 hk
        exact lt_of_lt_of_le hx (h2 b hb).1
      · intro b hb
        rcases List.mem_cons.1 hb with rfl | hb
        · exact ⟨le_refl _, ha⟩
        · exact ⟨hx.le.trans (h2 b hb).1, (h2 b hb).2⟩
    · exact ih t h (acc ++ [x]) (by simp)

theorem blocks_cons (rest : Ser K) : ∀ (t : ℤ) (h : K) (acc : List K),
    ∃ v bs, blocksFrom t h acc rest = (t, h, v) :: bs := by
  induction rest with
  | nil => intro t h acc; exact ⟨acc, [], rfl⟩
  | cons y rest ih =>
    intro t h acc
    obtain ⟨u, x⟩ := y
    unfold blocksFrom
    split_ifs with hx
    · exact ⟨acc, _, rfl⟩
    · exact ih t h (acc ++ [x])

theorem blocks_times (rest : Ser K) : ∀ (t : ℤ) (h : K) (acc seen : List K), h ∈ seen →
    (∀ y ∈ seen, y ≤ h) →
    t :: firstTimes seen ((rest.map Prod.fst).zip (cummaxFrom h (rest.map Prod.snd)))
      = (blocksFrom t h acc rest).map Prod.fst := by
  induction rest with
  | nil => intro t h acc seen _ _; simp [blocksFrom, cummaxFrom, firstTimes]
  | cons y rest ih =>
    intro t h acc seen hm hle
    obtain ⟨u, x⟩ := y
    unfold blocksFrom
    split_ifs with hx
    · simp only [List.map_cons, cummaxFrom, List.zip_cons_cons, max_eq_right hx.le, firstTimes]
      rw [if_neg (fun hc => absurd (hle x hc) (not_le.2 hx)),
        ih u x [x] (x :: seen) (by simp) (by
          intro y hy
          rcases List.mem_cons.1 hy with rfl | hy
          · exact le_refl _
          · exact (hle y hy).trans hx.le)]
    · push Not at hx
      simp only [List.map_cons, cummaxFrom, List.zip_cons_cons, max_eq_left hx, firstTimes]
      rw [if_pos hm, ih t h (acc ++ [x]) seen hm hle]

theorem blocks_times_lt (rest : Ser K) : ∀ (t : ℤ) (h : K) (acc : List K),
    (t :: rest.map Prod.fst).Pairwise (· < ·) →
    ((blocksFrom t h acc rest).map Prod.fst).Pairwise (· < ·) ∧
    (∀ b ∈ blocksFrom t h acc rest, t ≤ b.1) := by
  induction rest with
  | nil => intro t h acc _; simp [blocksFrom]
  | cons y rest ih =>
    intro t h acc hs
    obtain ⟨u, x⟩ := y
    rw [List.map_cons, List.pairwise_cons] at hs
    have hu : t < u := hs.1 u (by simp)
    unfold blocksFrom
    split_ifs with hx
    · obtain ⟨h1, h2⟩ := ih u x [x] hs.2
      constructor
      · rw [List.map_cons, List.pairwise_cons]
        refine ⟨?_, h1⟩
        intro k hk
        obtain ⟨b, hb, rfl⟩ := List.mem_map.1 hk
        exact lt_of_lt_of_le hu (h2 b hb)
      · intro b hb
        rcases List.mem_cons.1 hb with rfl | hb
        · exact le_refl _
        · exact hu.le.trans (h2 b hb)
    · refine ih t h (acc ++ [x]) ?_
      rw [List.pairwise_cons]
      exact ⟨fun a ha => hs.1 a (List.mem_cons_of_mem _ ha), (List.pairwise_cons.1 hs.2).2⟩

/-- The blocks are the runs after each high. -/
theorem mem_blocks (s : Ser K) (rest : Ser K) : ∀ (pre0 : Ser K) (t : ℤ) (h : K) (run0 : Ser K),
    s = pre0 ++ (t, h) :: (run0 ++ rest) → (∀ p ∈ pre0, p.2 < h) → (∀ p ∈ run0, p.2 ≤ h) →
    ∀ (t' : ℤ) (h' : K) (v : List K),
      (t', h', v) ∈ blocksFrom t h (h :: run0.map Prod.snd) rest ↔
        ∃ pre run post, HighRun s pre t' h' run post ∧ v = h' :: run.map Prod.snd ∧
          pre0.length ≤ pre.length := by
  induction rest with
  | nil =>
    intro pre0 t h run0 hs hpre hrun t' h' v
    simp only [blocksFrom, List.mem_singleton, Prod.mk.injEq]
    constructor
    · rintro ⟨rfl, rfl, rfl⟩
      exact ⟨pre0, run0, [], ⟨hs, hpre, hrun, by simp⟩, rfl, le_refl _⟩
    · rintro ⟨pre, run, post, ⟨e, hb, hu, hx⟩, rfl, hlen⟩
      rw [List.append_nil] at hs
      rw [hs, List.append_eq_append_iff] at e
      rcases e with ⟨X, e1, e2⟩ | ⟨X, e1, e2⟩
      · cases X with
        | nil =>
          simp only [List.nil_append, List.cons.injEq, Prod.mk.injEq] at e2
          obtain ⟨⟨rfl, rfl⟩, e3⟩ := e2
          cases post with
          | nil => simp at e3; subst e3; simp
          | cons p post =>
            exfalso
            have h1 := hx p (by simp)
            have h2 := hrun p (by rw [e3]; simp)
            exact absurd h1 (not_lt.2 h2)
        | cons q X =>
          exfalso
          simp only [List.cons_append, List.cons.injEq] at e2
          obtain ⟨rfl, e3⟩ := e2
          have h1 := hb (t, h) (by rw [e1]; simp)
          have h2 := hrun (t', h') (by rw [e3]; simp)
          exact absurd h1 (not_lt.2 h2)
      · have : X = [] := by
          have := congrArg List.length e1
          simp at this
          exact List.eq_nil_of_length_eq_zero (by omega)
        subst this
        simp only [List.nil_append, List.cons.injEq, Prod.mk.injEq] at e2
        obtain ⟨⟨rfl, rfl⟩, e3⟩ := e2
        cases post with
        | nil => simp at e3; subst e3; simp
        | cons p post =>
          exfalso
          have h1 := hx p (by simp)
          have h2 := hrun p (by rw [← e3]; simp)
          exact absurd h1 (not_lt.2 h2)
  | cons y rest ih =>
    intro pre0 t h run0 hs hpre hrun t' h' v
    obtain ⟨u, x⟩ := y
    unfold blocksFrom
    split_ifs with hx
    · have hrec := ih (pre0 ++ (t, h) :: run0) u x [] (by rw [hs]; simp) (by
        intro p hp
        rcases List.mem_append.1 hp with hp | hp
        · exact (hpre p hp).trans hx
        · rcases List.mem_cons.1 hp with rfl | hp
          · exact hx
          · exact lt_of_le_of_lt (hrun p hp) hx) (by simp) t' h' v
      simp only [List.map_nil] at hrec
      rw [List.mem_cons, hrec]
      constructor
      · rintro (h1 | ⟨pre, run, post, hr, hv, hl⟩)
        · simp only [Prod.mk.injEq] at h1
          obtain ⟨rfl, rfl, rfl⟩ := h1
          exact ⟨pre0, run0, (u, x) :: rest, ⟨hs, hpre, hrun, by simpa using hx⟩, rfl, le_refl _⟩
        · exact ⟨pre, run, post, hr, hv, by simp at hl; omega⟩
      · rintro ⟨pre, run, post, ⟨e, hb, hu, hp⟩, rfl, hlen⟩
        -- is it the first block?
        rcases Nat.eq_or_lt_of_le hlen with hl | hl
        · left
          rw [hs] at e
          obtain ⟨e1, e2⟩ := List.append_inj e hl
          simp only [List.cons.injEq, Prod.mk.injEq] at e2
          obtain ⟨⟨rfl, rfl⟩, e3⟩ := e2
          rw [List.append_eq_append_iff] at e3
          have : run = run0 := by
            rcases e3 with ⟨Y, e4, e5⟩ | ⟨Y, e4, e5⟩
            · cases Y with
              | nil => simpa using e4
              | cons q Y =>
                exfalso
                simp only [List.cons_append, List.cons.injEq] at e5
                obtain ⟨rfl, -⟩ := e5
                have := hu (u, x) (by rw [e4]; simp)
                exact absurd hx (not_lt.2 this)
            · cases Y with
              | nil => simpa using e4.symm
              | cons q Y =>
                exfalso
                have h1 := hp q (by rw [e5]; simp)
                have h2 := hrun q (by rw [e4]; simp)
                exact absurd h1 (not_lt.2 h2)
          subst this
          rfl
        · right
          refine ⟨pre, run, post, ⟨e, hb, hu, hp⟩, rfl, ?_⟩
          by_contra hc
          rw [List.length_append, List.length_cons] at hc
          push Not at hc
          -- then (t, h) is in pre, and (t', h') in run0
          have h1 : s[pre0.length]? = some (t, h) := by rw [hs]; simp
          have h2 : s[pre0.length]? = pre[pre0.length]? := by
            rw [e, List.getElem?_append_left hl]
          have h3 : (t, h) ∈ pre := List.mem_of_getElem? (by rw [← h2, h1])
          have h4 : s[pre.length]? = some (t', h') := by rw [e]; simp
          have h5 : s[pre.length]? = run0[pre.length - pre0.length - 1]? := by
            rw [hs, List.getElem?_append_right hl.le]
            obtain ⟨k, hk⟩ : ∃ k, pre.length - pre0.length = k + 1 := ⟨pre.length - pre0.length - 1, by omega⟩
            rw [hk, List.getElem?_cons_succ, List.getElem?_append_left (by omega)]
            congr 1
          have h6 : (t', h') ∈ run0 := List.mem_of_getElem? (by rw [← h5, h4])
          exact absurd (hb _ h3) (not_lt.2 (hrun _ h6))
    · have hrec := ih pre0 t h (run0 ++ [(u, x)]) (by rw [hs]; simp) hpre (by
        intro p hp
        rcases List.mem_append.1 hp with hp | hp
        · exact hrun p hp
        · simp at hp; rw [hp]; exact not_lt.1 hx) t' h' v
      simp only [List.map_append, List.map_cons, List.map_nil] at hrec
      rw [← hrec]
      rfl

/-- Every place of the series belongs to a run. -/
theorem exists_run (q rest : Ser K) (hq : q ≠ []) :
    ∃ pre t h run post, HighRun (q ++ rest) pre t h run post ∧ (∀ p ∈ q, p.2 ≤ h) ∧
      ∀ p ∈ q.getLast?, p ∈ (t, h) :: run := by
  have hdec : ∀ q : Ser K, q ≠ [] → ∃ pre t h run, q = pre ++ (t, h) :: run ∧
      (∀ p ∈ pre, p.2 < h) ∧ (∀ p ∈ run, p.2 ≤ h) := by
    intro q
    induction q using List.reverseRecOn with
    | nil => intro h; exact absurd rfl h
    | append_singleton q y ih =>
      intro _
      obtain ⟨u, x⟩ := y
      by_cases hq : q = []
      · exact ⟨[], u, x, [], by simp [hq], by simp, by simp⟩
      · obtain ⟨pre, t, h, run, rfl, h1, h2⟩ := ih hq
        by_cases hx : h < x
        · refine ⟨pre ++ (t, h) :: run, u, x, [], by simp, ?_, by simp⟩
          intro p hp
          rcases List.mem_append.1 hp with hp | hp
          · exact (h1 p hp).trans hx
          · rcases List.mem_cons.1 hp with rfl | hp
            · exact hx
            · exact lt_of_le_of_lt (h2 p hp) hx
        · refine ⟨pre, t, h, run ++ [(u, x)], by simp, h1, ?_⟩
          intro p hp
          rcases List.mem_append.1 hp with hp | hp
          · exact h2 p hp
          · simp at hp; rw [hp]; exact not_lt.1 hx
  obtain ⟨pre, t, h, run, rfl, h1, h2⟩ := hdec q hq
  refine ⟨pre, t, h, run ++ rest.takeWhile fun p => p.2 ≤ h, rest.dropWhile fun p => p.2 ≤ h,
    ⟨?_, h1, ?_, ?_⟩, ?_, ?_⟩
  · simp [List.takeWhile_append_dropWhile]
  · intro p hp
    rcases List.mem_append.1 hp with hp | hp
    · exact h2 p hp
    · simpa using List.mem_takeWhile_imp hp
  · intro p hp
    have := List.head?_dropWhile_not (fun p : ℤ × K => decide (p.2 ≤ h)) rest
    rw [Option.mem_def] at hp
    rw [hp] at this
    simpa using this
  · intro p hp
    rcases List.mem_append.1 hp with hp | hp
    · exact (h1 p hp).le
    · rcases List.mem_cons.1 hp with rfl | hp
      · exact le_refl _
      · exact h2 p hp
  · intro p hp
    rw [List.getLast?_append, List.getLast?_eq_some_getLast (by simp)] at hp
    simp at hp
    have := List.getLast_mem (l := (t, h) :: run) (by simp)
    rw [hp] at this
    rcases List.mem_cons.1 this with rfl | h
    · simp
    · simp [h]

theorem groupMin_isLeast (v : List K) (m : K) : groupMin v = some m ↔ IsLeast {y | y ∈ v} m := by
  cases v with
  | nil => simp [groupMin, IsLeast]
  | cons a v =>
    have h := foldl_min_isLeast a v
    simp only [groupMin, Option.some.injEq]
    constructor
    · rintro rfl
      simpa using h
    · intro h'
      have h2 : IsLeast {y | y ∈ a :: v} (v.foldl min a) := by simpa using h
      exact h2.unique h'

/-- The table before the filter. -/
theorem hwmRows_eq (t : ℤ) (x : K) (rest : Ser K) :
    hwmRows ((t, x) :: rest) = ((blocksFrom t x [x] rest).filterMap fun b =>
      (groupMin b.2.2).map fun m => (⟨b.1, b.2.1, m⟩ : HwmRow K)).filter fun r => r.low < r.hwm := by
  unfold hwmRows
  simp only [List.map_cons, cummax]
  congr 1
  obtain ⟨k1, k2⟩ := blocks_keys rest t x [x] (by simp)
  have hg : groupBy (x :: cummaxFrom x (rest.map Prod.snd)) (x :: rest.map Prod.snd)
      = (blocksFrom t x [x] rest).map Prod.snd := by
    have hp := groupBy_pieces ((blocksFrom t x [x] rest).map Prod.snd)
      (by rw [List.map_map]; exact k1) (by
        intro p hp
        obtain ⟨b, hb, rfl⟩ := List.mem_map.1 hp
        exact (k2 b hb).2)
    rw [List.flatMap_map, List.flatMap_map] at hp
    have h1 := blocks_vals rest t x [x]
    have h2 := blocks_hwm rest t x [x]
    simp only [List.length_singleton, List.replicate_one, List.singleton_append] at h1 h2
    rw [h1, h2] at hp
    exact hp
  rw [hg]
  have ht : firstTimes [] ((t :: rest.map Prod.fst).zip (x :: cummaxFrom x (rest.map Prod.snd)))
      = (blocksFrom t x [x] rest).map Prod.fst := by
    simp only [List.zip_cons_cons, firstTimes, List.not_mem_nil, if_false]
    exact blocks_times rest t x [x] [x] (by simp) (by simp)
  rw [ht]
  -- every group has a minimum, so nothing is dropped
  have hz : ∀ bs : List (ℤ × K × List K), (∀ b ∈ bs, b.2.2 ≠ []) →
      List.zipWith (fun t (g : K × K) => (⟨t, g.1, g.2⟩ : HwmRow K)) (bs.map Prod.fst)
        ((bs.map Prod.snd).filterMap fun g => (groupMin g.2).map fun m => (g.1, m))
      = bs.filterMap fun b => (groupMin b.2.2).map fun m => (⟨b.1, b.2.1, m⟩ : HwmRow K) := by
    intro bs
    induction bs with
    | nil => intro _; rfl
    | cons b bs ih =>
      intro hb
      have hb0 := hb b (by simp)
      obtain ⟨tb, hb', v⟩ := b
      cases v with
      | nil => exact absurd rfl hb0
      | cons a v =>
        have e : groupMin (a :: v) = some (v.foldl min a) := rfl
        simp only [List.map_cons, List.filterMap_cons, e, Option.map_some, List.zipWith_cons_cons]
        rw [ih fun b hb' => hb b (List.mem_cons_of_mem _ hb')]
  exact hz _ fun b hb => (k2 b hb).2

/-- The rows are the drawdowns. -/
theorem mem_hwmRows (s : Ser K) (t : ℤ) (h m : K) :
    (⟨t, h, m⟩ : HwmRow K) ∈ hwmRows s ↔ IsDrawdown s t h m := by
  cases s with
  | nil =>
    have : hwmRows ([] : Ser K) = [] := rfl
    rw [this]
    simp only [List.not_mem_nil, false_iff]
    rintro ⟨pre, run, post, hr, -⟩
    have := hr.eq
    simp at this
  | cons y rest =>
    obtain ⟨t0, x⟩ := y
    rw [hwmRows_eq, List.mem_filter, List.mem_filterMap]
    have hb := mem_blocks ((t0, x) :: rest) rest [] t0 x [] rfl (by simp) (by simp)
    simp only [List.map_nil] at hb
    constructor
    · rintro ⟨⟨⟨t', h', v⟩, hv, he⟩, hlt⟩
      obtain ⟨m', hm, e⟩ := Option.map_eq_some_iff.1 he
      simp only [HwmRow.mk.injEq] at e
      obtain ⟨rfl, rfl, rfl⟩ := e
      obtain ⟨pre, run, post, hr, rfl, -⟩ := (hb _ _ _).1 hv
      refine ⟨pre, run, post, hr, ?_, by simpa using hlt⟩
      have := (groupMin_isLeast _ _).1 hm
      convert this using 1
      ext z
      simp [eq_comm]
    · rintro ⟨pre, run, post, hr, hm, hlt⟩
      refine ⟨⟨(t, h, h :: run.map Prod.snd), (hb _ _ _).2 ⟨pre, run, post, hr, rfl, by simp⟩, ?_⟩,
        by simpa using hlt⟩
      have : groupMin (h :: run.map Prod.snd) = some m := by
        rw [groupMin_isLeast]
        convert hm using 1
        ext z
        simp [eq_comm]
      simp only [this, Option.map_some]

/-- The rows come in order of time and of height. -/
theorem hwmRows_sorted (s : Ser K) (hs : (s.map Prod.fst).Pairwise (· < ·)) :
    ((hwmRows s).map HwmRow.time).Pairwise (· < ·) := by
  cases s with
  | nil => exact List.Pairwise.nil
  | cons y rest =>
    obtain ⟨t0, x⟩ := y
    rw [hwmRows_eq]
    have h1 := (blocks_times_lt rest t0 x [x] hs).1
    have hz : ∀ bs : List (ℤ × K × List K),
        List.Sublist ((bs.filterMap fun b => (groupMin b.2.2).map fun m => (⟨b.1, b.2.1, m⟩ : HwmRow K)).map HwmRow.time)
          (bs.map Prod.fst) := by
      intro bs
      induction bs with
      | nil => simp
      | cons b bs ih =>
        obtain ⟨tb, hb', v⟩ := b
        cases v with
        | nil => simp only [List.filterMap_cons, groupMin, Option.map_none, List.map_cons]; exact ih.cons _
        | cons a v =>
          simp only [List.filterMap_cons, groupMin, Option.map_some, List.map_cons]
          exact ih.cons_cons _
    refine h1.sublist (List.Sublist.trans (List.Sublist.map _ List.filter_sublist) (hz _))

/-! ## C95 -/

/-- C95: the reported drawdowns are exactly the falls from each new high to the lowest value before it
is exceeded, in order of time; in dollars, or relative to the high. -/
theorem C95_drawdowns (s : Ser K) (hs : (s.map Prod.fst).Pairwise (· < ·)) :
    ((drawdowns s true).map Prod.fst).Pairwise (· < ·) ∧
    ((drawdowns s false).map Prod.fst) = (drawdowns s true).map Prod.fst ∧
    (∀ (t : ℤ) (d : Option K), (t, d) ∈ drawdowns s true ↔
      ∃ h m : K, IsDrawdown s t h m ∧ d = some (h - m)) ∧
    (∀ (t : ℤ) (d : Option K), (t, d) ∈ drawdowns s false ↔
      ∃ h m : K, IsDrawdown s t h m ∧ d = if h = 0 then none else some (1 - m / h)) := by
  have hf : ∀ b : Bool, (drawdowns s b).map Prod.fst = (hwmRows s).map HwmRow.time := by
    intro b
    unfold drawdowns
    rw [List.map_map]
    rfl
  refine ⟨?_, by rw [hf, hf], ?_, ?_⟩
  · rw [hf]; exact hwmRows_sorted s hs
  · intro t d
    unfold drawdowns
    rw [List.mem_map]
    constructor
    · rintro ⟨⟨t', h, m⟩, hr, e⟩
      simp only [if_true, Prod.mk.injEq] at e
      obtain ⟨rfl, rfl⟩ := e
      exact ⟨h, m, (mem_hwmRows s _ _ _).1 hr, rfl⟩
    · rintro ⟨h, m, hd, rfl⟩
      exact ⟨⟨t, h, m⟩, (mem_hwmRows s _ _ _).2 hd, rfl⟩
  · intro t d
    unfold drawdowns
    rw [List.mem_map]
    constructor
    · rintro ⟨⟨t', h, m⟩, hr, e⟩
      simp only [Bool.false_eq_true, if_false, Prod.mk.injEq] at e
      obtain ⟨rfl, rfl⟩ := e
      refine ⟨h, m, (mem_hwmRows s _ _ _).1 hr, ?_⟩
      unfold fdiv
      split_ifs <;> rfl
    · rintro ⟨h, m, hd, rfl⟩
      refine ⟨⟨t, h, m⟩, (mem_hwmRows s _ _ _).2 hd, ?_⟩
      simp only [Bool.false_eq_true, if_false, Prod.mk.injEq, true_and]
      unfold fdiv
      split_ifs <;> rfl

/-- A drawdown is a fall of the series. -/
theorem isDrawdown_falls {s : Ser K} {t : ℤ} {h m : K} (hd : IsDrawdown s t h m) : Falls s h m := by
  obtain ⟨pre, run, post, hr, hm, -⟩ := hd
  obtain ⟨p, hp, rfl⟩ := hm.1
  obtain ⟨k, hk⟩ := List.mem_iff_getElem?.1 hp
  have hklt : k < ((t, h) :: run).length := (List.getElem?_eq_some_iff.1 hk).1
  refine ⟨pre.length, pre.length + k, t, p.1, by omega, by rw [hr.eq]; simp, ?_⟩
  rw [hr.eq, List.getElem?_append_right (by omega), Nat.add_sub_cancel_left, ← List.cons_append,
    List.getElem?_append_left hklt, hk]

/-- Every fall is covered by a drawdown. -/
theorem falls_le {s : Ser K} {a b : K} (hf : Falls s a b) (hab : b < a) :
    ∃ t h m, IsDrawdown s t h m ∧ a ≤ h ∧ m ≤ b := by
  obtain ⟨i, j, u, v, hij, hi, hj⟩ := hf
  have hjl : j < s.length := (List.getElem?_eq_some_iff.1 hj).1
  have hs : s = s.take (j + 1) ++ s.drop (j + 1) := (List.take_append_drop _ _).symm
  have hlast : (s.take (j + 1)).getLast? = some (v, b) := by
    rw [List.getLast?_eq_getElem?, List.length_take, Nat.min_eq_left (by omega)]
    simp [hj]
  have hne : s.take (j + 1) ≠ [] := by
    intro h; rw [h] at hlast; simp at hlast
  obtain ⟨pre, t, h, run, post, hr, hle, hmem⟩ := exists_run (s.take (j + 1)) (s.drop (j + 1)) hne
  rw [← hs] at hr
  have hb := hmem (v, b) (by rw [hlast]; rfl)
  have ha : a ≤ h := hle (u, a) (by
    apply List.mem_of_getElem? (i := i)
    rw [List.getElem?_take, if_pos (by omega)]; exact hi)
  have hleast := foldl_min_isLeast h (run.map Prod.snd)
  set m := (run.map Prod.snd).foldl min h with hm
  have hset : {y : K | ∃ p ∈ (t, h) :: run, y = p.2} = {y | y ∈ h :: run.map Prod.snd} := by
    ext z; simp [eq_comm]
  have hleast' : IsLeast {y : K | ∃ p ∈ (t, h) :: run, y = p.2} m := by rw [hset]; simpa using hleast
  have hmb : m ≤ b := hleast'.2 ⟨(v, b), hb, rfl⟩
  exact ⟨t, h, m, ⟨pre, run, post, hr, hleast', lt_of_le_of_lt hmb (lt_of_lt_of_le hab ha)⟩, ha, hmb⟩

/-- C95: dollar drawdowns are positive, none is reported exactly if the series never falls, and the
largest reported is the largest fall from an earlier to a later value. -/
theorem C95_maximum (s : Ser K) (hs : (s.map Prod.fst).Pairwise (· < ·)) :
    (∀ t d, (t, d) ∈ drawdowns s true → ∃ x : K, d = some x ∧ 0 < x) ∧
    (drawdowns s true = [] ↔ ∀ a b : K, Falls s a b → a ≤ b) ∧
    (∀ D : K, 0 < D →
      (IsGreatest {d : K | ∃ t : ℤ, (t, some d) ∈ drawdowns s true} D ↔
        IsGreatest {d : K | ∃ a b : K, Falls s a b ∧ d = a - b} D)) := by
  have hC := (C95_drawdowns s hs).2.2.1
  have hpos : ∀ t d, (t, d) ∈ drawdowns s true → ∃ x : K, d = some x ∧ 0 < x := by
    intro t d hd
    obtain ⟨h, m, ⟨_, _, _, _, _, hlt⟩, rfl⟩ := (hC t d).1 hd
    exact ⟨_, rfl, sub_pos.2 hlt⟩
  have hsub : ∀ d : K, (∃ t : ℤ, (t, some d) ∈ drawdowns s true) → ∃ a b : K, Falls s a b ∧ d = a - b := by
    rintro d ⟨t, hd⟩
    obtain ⟨h, m, hd, e⟩ := (hC t _).1 hd
    exact ⟨h, m, isDrawdown_falls hd, by simpa using e⟩
  have hcov : ∀ a b : K, Falls s a b → b < a → ∃ (t : ℤ) (d : K), (t, some d) ∈ drawdowns s true ∧ a - b ≤ d := by
    intro a b hf hab
    obtain ⟨t, h, m, hd, h1, h2⟩ := falls_le hf hab
    exact ⟨t, h - m, (hC t _).2 ⟨h, m, hd, rfl⟩, by linarith⟩
  refine ⟨hpos, ?_, ?_⟩
  · constructor
    · intro he a b hf
      by_contra hc
      obtain ⟨t, d, hd, -⟩ := hcov a b hf (not_le.1 hc)
      rw [he] at hd
      simp at hd
    · intro hle
      by_contra hc
      obtain ⟨⟨t, d⟩, rest, e⟩ := List.exists_cons_of_ne_nil hc
      obtain ⟨h, m, hd, -⟩ := (hC t d).1 (by rw [e]; simp)
      have h1 := hle h m (isDrawdown_falls hd)
      obtain ⟨_, _, _, _, _, hlt⟩ := hd
      exact absurd hlt (not_lt.2 h1)
  · intro D hD
    constructor
    · rintro ⟨h1, h2⟩
      refine ⟨hsub D h1, ?_⟩
      rintro d ⟨a, b, hf, rfl⟩
      rcases le_or_gt a b with hab | hab
      · linarith
      · obtain ⟨t, d, hd, hle⟩ := hcov a b hf hab
        exact hle.trans (h2 ⟨t, hd⟩)
    · rintro ⟨⟨a, b, hf, rfl⟩, h2⟩
      obtain ⟨t, d, hd, hle⟩ := hcov a b hf (sub_pos.1 hD)
      have : d ≤ a - b := h2 (hsub d ⟨t, hd⟩)
      have hdd : d = a - b := le_antisymm this hle
      subst hdd
      exact ⟨⟨t, hd⟩, fun d' hd' => h2 (hsub d' hd')⟩

/-- C95: for positive values the relative drawdowns are between 0 and 1 and the largest is the largest
relative fall. -/
theorem C95_relative (s : Ser K) (hs : (s.map Prod.fst).Pairwise (· < ·)) (hp : ∀ p ∈ s, 0 < p.2) :
    (∀ t d, (t, d) ∈ drawdowns s false → ∃ x : K, d = some x ∧ 0 < x ∧ x < 1) ∧
    (∀ D : K, 0 < D →
      (IsGreatest {d : K | ∃ t : ℤ, (t, some d) ∈ drawdowns s false} D ↔
        IsGreatest {d : K | ∃ a b : K, Falls s a b ∧ d = 1 - b / a} D)) := by
  have hC := (C95_drawdowns s hs).2.2.2
  have hpf : ∀ a b : K, Falls s a b → 0 < a ∧ 0 < b := by
    rintro a b ⟨i, j, u, v, -, hi, hj⟩
    exact ⟨hp _ (List.mem_of_getElem? hi), hp _ (List.mem_of_getElem? hj)⟩
  have hsub : ∀ d : K, (∃ t : ℤ, (t, some d) ∈ drawdowns s false) → ∃ a b : K, Falls s a b ∧ d = 1 - b / a := by
    rintro d ⟨t, hd⟩
    obtain ⟨h, m, hd, e⟩ := (hC t _).1 hd
    have hf := isDrawdown_falls hd
    rw [if_neg (hpf h m hf).1.ne'] at e
    exact ⟨h, m, hf, by simpa using e⟩
  have hcov : ∀ a b : K, Falls s a b → b < a → ∃ (t : ℤ) (d : K), (t, some d) ∈ drawdowns s false ∧ 1 - b / a ≤ d := by
    intro a b hf hab
    obtain ⟨t, h, m, hd, h1, h2⟩ := falls_le hf hab
    have hhm := hpf h m (isDrawdown_falls hd)
    have hab' := hpf a b hf
    refine ⟨t, 1 - m / h, (hC t _).2 ⟨h, m, hd, by rw [if_neg hhm.1.ne']⟩, ?_⟩
    have : m / h ≤ b / a := div_le_div₀ hab'.2.le h2 hab'.1 h1
    linarith
  refine ⟨?_, ?_⟩
  · intro t d hd
    obtain ⟨h, m, hdd, rfl⟩ := (hC t d).1 hd
    have hhm := hpf h m (isDrawdown_falls hdd)
    rw [if_neg hhm.1.ne']
    obtain ⟨_, _, _, _, _, hlt⟩ := hdd
    refine ⟨_, rfl, ?_, ?_⟩
    · rw [sub_pos, div_lt_one hhm.1]; exact hlt
    · have := div_pos hhm.2 hhm.1; linarith
  · intro D hD
    constructor
    · rintro ⟨h1, h2⟩
      refine ⟨hsub D h1, ?_⟩
      rintro d ⟨a, b, hf, rfl⟩
      rcases le_or_gt a b with hab | hab
      · have : 1 ≤ b / a := by rw [one_le_div (hpf a b hf).1]; exact hab
        linarith
      · obtain ⟨t, d, hd, hle⟩ := hcov a b hf hab
        exact hle.trans (h2 ⟨t, hd⟩)
    · rintro ⟨⟨a, b, hf, rfl⟩, h2⟩
      have hab : b < a := by
        have := hpf a b hf
        have h3 : b / a < 1 := by linarith
        rwa [div_lt_one this.1] at h3
      obtain ⟨t, d, hd, hle⟩ := hcov a b hf hab
      have : d ≤ 1 - b / a := h2 (hsub d ⟨t, hd⟩)
      have hdd : d = 1 - b / a := le_antisymm this hle
      subst hdd
      exact ⟨⟨t, hd⟩, fun d' hd' => h2 (hsub d' hd')⟩

example : drawdowns ([(0, 2), (1, 1), (2, 3), (3, 4), (4, 3), (6, 5)] : Ser ℚ) true
    = [(0, some 1), (3, some 1)] := by decide +kernel

/-! ## C96 -/

/-- The full claim of C96: each reported time is the time until the high is exceeded. -/
def UnderWaterClaim : Prop := ∀ s : Ser ℚ, (s.map Prod.fst).Pairwise (· < ·) →
  ∀ (t : ℤ) (d : ℚ), (t, d) ∈ timeUnderWater s →
    ∃ (h : ℚ) (pre run post : Ser ℚ) (u : ℤ) (x : ℚ), HighRun s pre t h run ((u, x) :: post) ∧ d = days t u

/-- The high 2 of day 0 is exceeded on day 2; 3 days are reported. -/
theorem C96_under_water_counterexample : ¬ UnderWaterClaim := by
  intro hc
  have h1 := hc [(0, 2), (dayNs, 1), (2 * dayNs, 3), (3 * dayNs, 4), (4 * dayNs, 3)] (by decide) 0 3
    (by decide +kernel)
  obtain ⟨h, pre, run, post, u, x, hr, hd⟩ := h1
  have hu : u = 3 * dayNs := by
    change _ = ((u - 0 : ℤ) : ℚ) / (dayNs : ℚ) at hd
    have h2 : ((u - 0 : ℤ) : ℚ) = 3 * (dayNs : ℚ) := by
      rw [eq_div_iff (dayNs_pos (K := ℚ)).ne'] at hd
      exact hd.symm
    have : u - 0 = 3 * dayNs := by exact_mod_cast h2
    omega
  subst hu
  have e := hr.eq
  -- the run must contain day 2, whose value is higher
  cases pre with
  | cons p pre =>
    simp only [List.cons_append, List.cons.injEq] at e
    have h2 : (0, h) ∈ ([(dayNs, 1), (2 * dayNs, 3), (3 * dayNs, 4), (4 * dayNs, 3)] : Ser ℚ) := by
      rw [e.2]; simp
    simp [dayNs] at h2
  | nil =>
    simp only [List.nil_append, List.cons.injEq, Prod.mk.injEq, true_and] at e
    obtain ⟨rfl, e⟩ := e
    have hlen := congrArg List.length e
    simp at hlen
    rcases run with _ | ⟨a, run⟩
    · simp [dayNs] at e
    rcases run with _ | ⟨b, run⟩
    · simp [dayNs] at e
    · simp only [List.cons_append, List.cons.injEq] at e
      have h3 := hr.under b (by simp)
      rw [← e.2.1] at h3
      norm_num at h3

/-- C96 (partial): the times reported are those of all drawdowns but the last.  The time reported for a
high is the time to the next high that has a drawdown itself; it is at least the time until the high
is exceeded, and equal to it exactly if the high that exceeds it has a drawdown.  Missing: equality in
general, which the code does not have. -/
theorem C96_under_water_partial (s : Ser K) (hs : (s.map Prod.fst).Pairwise (· < ·)) :
    (timeUnderWater s).map Prod.fst = ((drawdowns s true).map Prod.fst).dropLast ∧
    ∀ (t : ℤ) (d : K), (t, d) ∈ timeUnderWater s →
      ∃ (h : K) (pre run post : Ser K) (u : ℤ) (x : K) (b : ℤ),
        HighRun s pre t h run ((u, x) :: post) ∧
        (∃ h' m', IsDrawdown s b h' m') ∧ t < b ∧
        (∀ c h' m', IsDrawdown s c h' m' → c ≤ t ∨ b ≤ c) ∧
        d = days t b ∧ days t u ≤ d ∧ (d = days t u ↔ ∃ m', IsDrawdown s u x m') := by
  have hsorted := hwmRows_sorted s hs
  constructor
  · unfold timeUnderWater drawdowns
    simp only [List.map_map]
    rw [List.map_zipWith]
    have : (List.map (Prod.fst ∘ fun r : HwmRow K => (r.time, if true = true then some (r.hwm - r.low)
        else (fdiv r.low r.hwm).map fun q => 1 - q)) (hwmRows s)) = (hwmRows s).map HwmRow.time := rfl
    erw [this]
    generalize (hwmRows s).map HwmRow.time = ts
    induction ts with
    | nil => rfl
    | cons a ts ih =>
      cases ts with
      | nil => rfl
      | cons b ts =>
        simp only [List.dropLast_cons_cons, List.tail_cons, List.zipWith_cons_cons] at ih ⊢
        rw [ih]
  · intro t d hd
    unfold timeUnderWater at hd
    simp only at hd
    set ts := (hwmRows s).map HwmRow.time with hts
    obtain ⟨i, hi⟩ := List.mem_iff_getElem?.1 hd
    rw [List.getElem?_zipWith_eq_some] at hi
    obtain ⟨t', b, ha, hb, e⟩ := hi
    rw [List.getElem?_tail] at hb
    simp only [Prod.mk.injEq] at e
    obtain ⟨rfl, rfl⟩ := e
    have ha' : ts[i]? = some t' := by
      rw [List.getElem?_dropLast] at ha
      split_ifs at ha with h
      exact ha
    have hlt : ∀ (i j : ℕ) (x y : ℤ), i < j → ts[i]? = some x → ts[j]? = some y → x < y := by
      intro i j x y hij hx hy
      obtain ⟨h1, rfl⟩ := List.getElem?_eq_some_iff.1 hx
      obtain ⟨h2, rfl⟩ := List.getElem?_eq_some_iff.1 hy
      exact List.pairwise_iff_getElem.1 hsorted i j h1 h2 hij
    have hmem : ∀ c : ℤ, c ∈ ts ↔ ∃ h m, IsDrawdown s c h m := by
      intro c
      rw [hts, List.mem_map]
      constructor
      · rintro ⟨⟨c', h, m⟩, hr, rfl⟩
        exact ⟨h, m, (mem_hwmRows s _ _ _).1 hr⟩
      · rintro ⟨h, m, hd⟩
        exact ⟨⟨c, h, m⟩, (mem_hwmRows s _ _ _).2 hd, rfl⟩
    have hbd : ∃ h' m', IsDrawdown s b h' m' := (hmem b).1 (List.mem_of_getElem? hb)
    obtain ⟨h, m, hdd⟩ := (hmem t').1 (List.mem_of_getElem? ha')
    have htb : t' < b := hlt i (i + 1) _ _ (by omega) ha' hb
    have hgap : ∀ c h' m', IsDrawdown s c h' m' → c ≤ t' ∨ b ≤ c := by
      intro c h' m' hc
      obtain ⟨k, hk⟩ := List.mem_iff_getElem?.1 ((hmem c).2 ⟨h', m', hc⟩)
      rcases Nat.lt_trichotomy k i with h1 | rfl | h1
      · exact Or.inl (hlt k i _ _ h1 hk ha').le
      · rw [ha'] at hk; simp at hk; exact Or.inl hk.ge
      · rcases Nat.eq_or_lt_of_le h1 with h2 | h2
        · rw [← h2, hb] at hk; simp at hk; exact Or.inr hk.le
        · exact Or.inr (hlt (i + 1) k _ _ h2 hb hk).le
    -- the run of t'
    obtain ⟨pre, run, post, hr, hm, hmh⟩ := hdd
    -- the high at b is after the run
    obtain ⟨hB, mB, preB, runB, postB, hrB, hmB, hmBh⟩ := hbd
    have htimes : ∀ (i j : ℕ) (p q : ℤ × K), s[i]? = some p → s[j]? = some q → p.1 < q.1 → i < j := by
      intro i j p q hp hq hpq
      by_contra hc
      rcases Nat.eq_or_lt_of_le (not_lt.1 hc) with h1 | h1
      · rw [h1, hp] at hq; simp at hq; rw [hq] at hpq; exact lt_irrefl _ hpq
      · obtain ⟨l1, e1⟩ := List.getElem?_eq_some_iff.1 hp
        obtain ⟨l2, e2⟩ := List.getElem?_eq_some_iff.1 hq
        have := List.pairwise_iff_getElem.1 hs j i (by simpa using l2) (by simpa using l1) h1
        rw [List.getElem_map, List.getElem_map, e1, e2] at this
        exact absurd this (lt_asymm hpq)
    have hidx : pre.length < preB.length :=
      htimes _ _ (t', h) (b, hB) (by rw [hr.eq]; simp) (by rw [hrB.eq]; simp) htb
    have hhB : h < hB := by
      have h1 : s[pre.length]? = some (t', h) := by rw [hr.eq]; simp
      rw [hrB.eq, List.getElem?_append_left hidx] at h1
      exact hrB.before _ (List.mem_of_getElem? h1)
    have hidx2 : pre.length + 1 + run.length ≤ preB.length := by
      by_contra hc
      push Not at hc
      have h1 : s[preB.length]? = some (b, hB) := by rw [hrB.eq]; simp
      rw [hr.eq, List.getElem?_append_right hidx.le] at h1
      obtain ⟨k, hk⟩ : ∃ k, preB.length - pre.length = k + 1 := ⟨preB.length - pre.length - 1, by omega⟩
      rw [hk, List.getElem?_cons_succ, List.getElem?_append_left (by omega)] at h1
      exact absurd hhB (not_lt.2 (hr.under _ (List.mem_of_getElem? h1)))
    cases post with
    | nil =>
      exfalso
      have h1 : preB.length < s.length := by rw [hrB.eq]; simp
      rw [hr.eq] at h1
      simp at h1
      omega
    | cons q post =>
      obtain ⟨u, x⟩ := q
      have hxu : h < x := hr.exceed (u, x) (by simp)
      have hu : s[pre.length + 1 + run.length]? = some (u, x) := by
        have : s = (pre ++ (t', h) :: run) ++ (u, x) :: post := by rw [hr.eq]; simp
        rw [this, List.getElem?_append_right (by simp; omega)]
        simp
        have : pre.length + 1 + run.length - (pre.length + (run.length + 1)) = 0 := by omega
        rw [this]; simp
      have hub : u ≤ b := by
        by_contra hc
        have := htimes preB.length (pre.length + 1 + run.length) (b, hB) (u, x) (by rw [hrB.eq]; simp) hu
          (not_le.1 hc)
        omega
      have htu : t' < u := by
        by_contra hc
        have h1 : s[pre.length]? = some (t', h) := by rw [hr.eq]; simp
        rcases eq_or_lt_of_le (not_lt.1 hc) with h2 | h2
        · have hnd : (s.map Prod.fst).Nodup := hs.imp fun h => ne_of_lt h
          subst h2
          have := time_inj hs hu h1
          omega
        · have := htimes _ _ _ _ hu h1 h2
          omega
      refine ⟨h, pre, run, post, u, x, b, hr, ⟨hB, mB, preB, runB, postB, hrB, hmB, hmBh⟩, htb, hgap, rfl,
        ?_, ?_⟩
      · change (days t' u : K) ≤ days t' b
        have h1 : (0 : K) ≤ days u b := days_nonneg hub
        have h2 : (days t' u : K) + days u b = days t' b := days_add _ _ _
        linarith
      · change (days t' b : K) = days t' u ↔ _
        have hiff : (days t' b : K) = days t' u ↔ b = u := by
          change ((b - t' : ℤ) : K) / (dayNs : K) = ((u - t' : ℤ) : K) / (dayNs : K) ↔ _
          rw [div_left_inj' (dayNs_pos (K := K)).ne', Int.cast_inj]
          omega
        rw [hiff]
        constructor
        · rintro rfl
          have h1 : s[preB.length]? = some (b, hB) := by rw [hrB.eq]; simp
          have h2 := time_inj hs h1 hu
          rw [h2, hu] at h1
          simp at h1
          subst h1
          exact ⟨mB, preB, runB, postB, hrB, hmB, hmBh⟩
        · rintro ⟨m', hd'⟩
          rcases hgap u x m' hd' with h1 | h1
          · omega
          · omega

end FinML.Metrics
