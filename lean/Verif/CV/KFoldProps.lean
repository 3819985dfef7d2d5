import Verif.CV.Props
import Verif.Py.Search
import Mathlib.Data.List.Range

/-! # Properties C41-C43: PurgedKFold -/

set_option linter.unusedSectionVars false

namespace FinML.CV

variable {K : Type} [Field K] [LinearOrder K] [IsStrictOrderedRing K] [FloorRing K]

/-! ## Sections of `array_split` -/

theorem kfoldSplit_series (nSplits : ℤ) (pct : K) (events : List Event) :
    kfoldSplit nSplits pct (.series true events) = kfoldEvents nSplits pct events := rfl

theorem splitSizes_sum (n k : ℕ) (hk : 0 < k) : (splitSizes n k).sum = n := by
  unfold splitSizes
  rw [List.sum_append, List.sum_replicate, List.sum_replicate, nsmul_eq_mul, nsmul_eq_mul, Nat.cast_id, Nat.cast_id]
  have h1 := Nat.div_add_mod n k
  have h2 := Nat.mod_lt n hk
  obtain ⟨d, hd⟩ := Nat.exists_eq_add_of_le h2.le
  have h3 : k - n % k = d := by omega
  rw [h3, Nat.mul_add, Nat.mul_one]
  have h4 : k * (n / k) = n % k * (n / k) + d * (n / k) := by
    rw [← Nat.add_mul, ← hd]
  omega

theorem splitSizes_length (n k : ℕ) (hk : 0 < k) : (splitSizes n k).length = k := by
  unfold splitSizes
  have h2 := Nat.mod_lt n hk
  simp
  omega

theorem mem_splitSizes (n k s : ℕ) (h : s ∈ splitSizes n k) : s = n / k ∨ s = n / k + 1 := by
  unfold splitSizes at h
  rcases List.mem_append.1 h with h | h
  · exact Or.inr (List.eq_of_mem_replicate h)
  · exact Or.inl (List.eq_of_mem_replicate h)

theorem take_range'' (a m s : ℕ) (h : s ≤ m) : (List.range' a m).take s = List.range' a s := by
  apply List.ext_getElem
  · simp [h]
  · intro i h1 h2
    simp

theorem cut_range' (sizes : List ℕ) (a m : ℕ) (h : sizes.sum = m) :
    (cut sizes (List.range' a m)).flatten = List.range' a m ∧
      (cut sizes (List.range' a m)).map List.length = sizes ∧
      ∀ p ∈ cut sizes (List.range' a m), ∃ i, p = List.range' i p.length ∧ a ≤ i ∧
        i + p.length ≤ a + m := by
  induction sizes generalizing a m with
  | nil =>
    simp only [List.sum_nil] at h
    subst h
    simp [cut]
  | cons s ss ih =>
    rw [List.sum_cons] at h
    have htake : (List.range' a m).take s = List.range' a s := take_range'' a m s (by omega)
    have hdrop : (List.range' a m).drop s = List.range' (a + s) (m - s) := by
      rw [List.drop_range', Nat.mul_one]
    obtain ⟨h1, h2, h3⟩ := ih (a + s) (m - s) (by omega)
    simp only [cut, htake, hdrop]
    refine ⟨?_, ?_, ?_⟩
    · rw [List.flatten_cons, h1]
      have := List.range'_append_1 (s := a) (m := s) (n := m - s)
      rw [this]
      congr 1
      omega
    · rw [List.map_cons, h2, List.length_range']
    · intro p hp
      rcases List.mem_cons.1 hp with rfl | hp
      · exact ⟨a, by rw [List.length_range'], le_refl _, by rw [List.length_range']; omega⟩
      · obtain ⟨i, e1, e2, e3⟩ := h3 p hp
        exact ⟨i, e1, by omega, by omega⟩

theorem foldBounds_range' (i s : ℕ) (hs : 0 < s) : foldBounds (List.range' i s) = .ok (i, i + s) := by
  unfold foldBounds
  have h1 : pyGet (List.range' i s) 0 = .ok i := by
    rw [pyGet_eq_ok_iff, List.getElem?_range' (by omega)]
    simp
  have h2 : pyLast (List.range' i s) = .ok (i + s - 1) := by
    rw [pyLast_eq_ok_iff, List.getLast?_eq_getElem?, List.length_range',
      List.getElem?_range' (by omega)]
    congr 1
    omega
  rw [h1, py_bind_ok, h2, py_bind_ok, py_pure]
  congr 2
  omega

theorem take_drop_range (n i s : ℕ) (h : i + s ≤ n) :
    ((List.range n).take (i + s)).drop i = List.range' i s := by
  rw [List.range_eq_range', take_range'' _ _ _ h, List.drop_range']
  simp

theorem fold_test (events : List Event) (emb : ℤ) (b : ℕ × ℕ) (r : List ℕ × List ℕ)
    (h : kfoldOne events emb b = .ok r) : r.2 = ((List.range events.length).take b.2).drop b.1 := by
  unfold kfoldOne at h
  simp only at h
  rw [py_bind_eq_ok] at h
  obtain ⟨_, _, h⟩ := h
  rw [py_bind_eq_ok] at h
  obtain ⟨_, _, h⟩ := h
  rw [py_bind_eq_ok] at h
  obtain ⟨_, _, h⟩ := h
  cases h
  rfl

/-- The folds, in terms of their bounds. -/
theorem kfold_bounds (events : List Event) (nSplits : ℤ) (pct : K) (h0 : 0 < nSplits)
    (hn : nSplits ≤ events.length) :
    ∃ bounds : List (ℕ × ℕ), kfoldEvents nSplits pct events =
        bounds.mapM (kfoldOne events (pyInt ((events.length : K) * pct))) ∧
      (bounds.length : ℤ) = nSplits ∧
      (∀ b ∈ bounds, b.1 < b.2 ∧ b.2 ≤ events.length ∧
        (b.2 - b.1 = events.length / nSplits.toNat ∨ b.2 - b.1 = events.length / nSplits.toNat + 1)) ∧
      (bounds.flatMap fun b => List.range' b.1 (b.2 - b.1)) = List.range events.length := by
  have hk : 0 < nSplits.toNat := by omega
  obtain ⟨c1, c2, c3⟩ := cut_range' (splitSizes events.length nSplits.toNat) 0 events.length
    (splitSizes_sum _ _ hk)
  rw [← List.range_eq_range'] at c1 c2 c3
  generalize hp : cut (splitSizes events.length nSplits.toNat) (List.range events.length) = pieces
    at c1 c2 c3
  have hlen : pieces.length = nSplits.toNat := by
    rw [← splitSizes_length events.length nSplits.toNat hk, ← c2, List.length_map]
  have hsz : ∀ p ∈ pieces, p.length = events.length / nSplits.toNat ∨
      p.length = events.length / nSplits.toNat + 1 := by
    intro p hpm
    exact mem_splitSizes _ _ _ (by rw [← c2]; exact List.mem_map.2 ⟨p, hpm, rfl⟩)
  have hdiv : 0 < events.length / nSplits.toNat := Nat.div_pos (by omega) hk
  have hb : ∀ p ∈ pieces, foldBounds p = .ok (p.headD 0, p.headD 0 + p.length) ∧
      p = List.range' (p.headD 0) p.length ∧ p.headD 0 + p.length ≤ events.length := by
    intro p hpm
    obtain ⟨i, e1, _, e3⟩ := c3 p hpm
    have hpos : 0 < p.length := by have := hsz p hpm; omega
    have hhead : p.headD 0 = i := by
      rw [e1]
      obtain ⟨m, hm⟩ : ∃ m, p.length = m + 1 := ⟨p.length - 1, by omega⟩
      rw [hm, List.range'_succ]
      rfl
    rw [hhead]
    refine ⟨?_, e1, by omega⟩
    have := foldBounds_range' i p.length hpos
    rwa [← e1] at this
  refine ⟨pieces.map fun p => (p.headD 0, p.headD 0 + p.length), ?_, ?_, ?_, ?_⟩
  · unfold kfoldEvents arraySplit
    rw [if_neg (by omega), py_bind_ok, hp,
      mapM_ok_of_forall foldBounds (fun p => (p.headD 0, p.headD 0 + p.length)) pieces
        (fun p hpm => (hb p hpm).1), py_bind_ok]
  · rw [List.length_map, hlen]
    omega
  · intro b hbm
    obtain ⟨p, hpm, rfl⟩ := List.mem_map.1 hbm
    have := hsz p hpm
    have h3 := (hb p hpm).2.2
    simp only
    omega
  · rw [← c1, List.flatMap_map, List.flatMap_def]
    congr 1
    conv_rhs => rw [← List.map_id pieces]
    apply List.map_congr_left
    intro p hpm
    simp only [id]
    rw [Nat.add_sub_cancel_left]
    exact (hb p hpm).2.1.symm

theorem maxEnd_closed (evs : List (ℤ × ℤ)) (h : evs ≠ []) :
    ∃ m, maxEnd (evs.map closeEv) = .ok m ∧ IsGreatest {y | ∃ e ∈ evs, e.2 = y} m := by
  have h1 : (evs.map closeEv).filterMap Prod.snd = evs.map Prod.snd := by
    rw [List.filterMap_map]
    induction evs with
    | nil => rfl
    | cons a l ih =>
      by_cases hl : l = []
      · subst hl; rfl
      · have := ih hl
        simp only [List.filterMap_cons, List.map_cons]
        rw [this]
        rfl
  unfold maxEnd
  rw [h1, if_neg (by simpa using h)]
  cases hx : npMax (evs.map Prod.snd) with
  | error e =>
    exfalso
    cases hev : evs.map Prod.snd with
    | nil => exact h (List.map_eq_nil_iff.1 hev)
    | cons a l => rw [hev] at hx; cases hx
  | ok m =>
    refine ⟨m, rfl, ?_⟩
    have := (npMax_eq_ok_iff _ _).1 hx
    have hset : {y | y ∈ evs.map Prod.snd} = {y | ∃ e ∈ evs, e.2 = y} := by
      ext y; simp
    rwa [hset] at this

/-- The events of a fold. -/
def slot (events : List (ℤ × ℤ)) (i j : ℕ) : List (ℤ × ℤ) := (events.take j).drop i

theorem mapM_pyGet_range' {α : Type} (l : List α) (i s : ℕ) (h : i + s ≤ l.length) :
    (List.range' i s).mapM (pyGet l) = .ok ((l.take (i + s)).drop i) := by
  induction s generalizing i with
  | zero =>
    simp only [List.range'_zero, List.mapM_nil, Nat.add_zero]
    rw [List.drop_eq_nil_of_le (by simp)]
    rfl
  | succ s ih =>
    rw [List.range'_succ, mapM_cons_py]
    have h1 : pyGet l i = .ok l[i] := by
      rw [pyGet_eq_ok_iff, List.getElem?_eq_getElem (by omega)]
    rw [h1, py_bind_ok, ih (i + 1) (by omega), py_bind_ok, py_pure]
    congr 1
    have h2 : i + (s + 1) = i + 1 + s := by omega
    rw [h2]
    rw [List.drop_eq_getElem_cons (i := i) (l := l.take (i + 1 + s)) (by simp; omega)]
    simp

theorem pyDrop_range (k : ℤ) (hk : 0 ≤ k) (n x : ℕ) :
    x ∈ pyDrop k (List.range n) ↔ k ≤ x ∧ x < n := by
  unfold pyDrop
  rw [if_pos hk, List.range_eq_range', List.drop_range', List.mem_range'_1]
  omega

theorem searchRight_eq_countP (l : List ℤ) (hl : l.Pairwise (· ≤ ·)) (v : ℤ) :
    searchRight l v = l.countP fun a => decide (a ≤ v) := by
  induction l with
  | nil => rfl
  | cons a l ih =>
    rw [List.pairwise_cons] at hl
    rw [searchRight_cons]
    by_cases h : a ≤ v
    · rw [if_pos h, ih hl.2, List.countP_cons_of_pos (by simpa using h)]
    · rw [if_neg h, List.countP_cons_of_neg (by simpa using h)]
      symm
      rw [List.countP_eq_zero]
      intro b hb
      have := hl.1 b hb
      simp only [decide_eq_true_eq]
      omega

/-- One fold: what the train set contains. -/
theorem fold_char (events : List (ℤ × ℤ)) (hs : (events.map Prod.fst).Pairwise (· ≤ ·))
    (emb : ℤ) (hemb : 0 ≤ emb) (i j : ℕ) (hij : i < j) (hj : j ≤ events.length) :
    ∃ train te, kfoldOne (events.map closeEv) emb (i, j) = .ok (train, List.range' i (j - i)) ∧
      IsGreatest {y | ∃ e ∈ slot events i j, e.2 = y} te ∧
      (∀ x, x ∈ train ↔ ∃ ev, events[x]? = some ev ∧
        (ev.2 < events[i].1 ∨
          (((events.countP fun e => decide (e.1 ≤ te)) : ℕ) : ℤ) + 1 + emb ≤ x)) ∧
      (∀ x ev, events[x]? = some ev →
        (te < ev.1 ↔ events.countP (fun e => decide (e.1 ≤ te)) ≤ x)) ∧
      ((∀ e ∈ events, e.1 ≤ e.2) → train.Pairwise (· < ·)) := by
  have hslot : (((events.map closeEv).take j).drop i) = (slot events i j).map closeEv := by
    unfold slot; rw [← List.map_take, ← List.map_drop]
  have hne : slot events i j ≠ [] := by
    unfold slot
    rw [ne_eq, List.drop_eq_nil_iff]
    simp
    omega
  obtain ⟨te, hte, hgr⟩ := maxEnd_closed (slot events i j) hne
  have hij' : i + (j - i) = j := by omega
  have hfst : (events.map closeEv).map Prod.fst = events.map Prod.fst := by
    rw [List.map_map]; rfl
  have hcount : searchRight (events.map Prod.fst) te = events.countP fun e => decide (e.1 ≤ te) := by
    rw [searchRight_eq_countP _ hs, List.countP_map]
    rfl
  have htrain1 : ∀ x, x ∈ (((events.map closeEv).zipIdx.filter fun r =>
      oLt r.1.2 events[i].1).map Prod.snd) ↔ ∃ ev, events[x]? = some ev ∧ ev.2 < events[i].1 := by
    intro x
    rw [List.mem_map]
    constructor
    · rintro ⟨r, hr, rfl⟩
      obtain ⟨h1, h2⟩ := List.mem_filter.1 hr
      have h3 := List.mem_zipIdx_iff_getElem?.1 h1
      rw [List.getElem?_map, Option.map_eq_some_iff] at h3
      obtain ⟨ev, h4, h5⟩ := h3
      refine ⟨ev, h4, ?_⟩
      rw [← h5] at h2
      simpa [closeEv, oLt] using h2
    · rintro ⟨ev, h1, h2⟩
      refine ⟨(closeEv ev, x), List.mem_filter.2 ⟨?_, by simpa [closeEv, oLt] using h2⟩, rfl⟩
      rw [List.mem_zipIdx_iff_getElem?, List.getElem?_map, h1]
      rfl
  have hlt1 : (((events.map closeEv).zipIdx.filter fun r =>
      oLt r.1.2 events[i].1).map Prod.snd).Pairwise (· < ·) := by
    have hsub : (((events.map closeEv).zipIdx.filter fun r =>
        oLt r.1.2 events[i].1).map Prod.snd).Sublist ((events.map closeEv).zipIdx.map Prod.snd) :=
      List.Sublist.map _ List.filter_sublist
    refine List.Pairwise.sublist hsub ?_
    rw [List.zipIdx_map_snd]
    exact List.pairwise_lt_range'
  have hrank : ∀ x ev, events[x]? = some ev →
      (te < ev.1 ↔ events.countP (fun e => decide (e.1 ≤ te)) ≤ x) := by
    intro x ev hx
    have := lt_searchRight_iff (events.map Prod.fst) hs te x ev.1 (by
      rw [List.getElem?_map, hx]; rfl)
    rw [hcount] at this
    rw [← not_lt, this, not_le]
  refine ⟨if events.countP (fun e => decide (e.1 ≤ te)) + 1 < events.length then
      ((events.map closeEv).zipIdx.filter fun r => oLt r.1.2 events[i].1).map Prod.snd ++
        pyDrop (((events.countP (fun e => decide (e.1 ≤ te)) + 1 : ℕ) : ℤ) + emb)
          (List.range events.length)
    else ((events.map closeEv).zipIdx.filter fun r => oLt r.1.2 events[i].1).map Prod.snd,
    te, ?_, hgr, ?_, hrank, ?_⟩
  · unfold kfoldOne
    simp only
    have h1 : pyGet (events.map closeEv) i = .ok (closeEv events[i]) := by
      rw [pyGet_eq_ok_iff, List.getElem?_map, List.getElem?_eq_getElem (by omega)]
      rfl
    have h2 : ((List.range (events.map closeEv).length).take j).drop i = List.range' i (j - i) := by
      have := take_drop_range (events.map closeEv).length i (j - i) (by simp; omega)
      rwa [hij'] at this
    have h3 := mapM_pyGet_range' (events.map closeEv) i (j - i) (by simp; omega)
    rw [hij', hslot] at h3
    rw [h1, py_bind_ok, h2, h3, py_bind_ok, hte, py_bind_ok, py_pure, hfst, hcount, List.length_map]
    rfl
  · intro x
    have hbase := htrain1 x
    split
    · rename_i hlt
      rw [List.mem_append, hbase, pyDrop_range _ (by omega)]
      constructor
      · rintro (⟨ev, h1, h2⟩ | ⟨h1, h2⟩)
        · exact ⟨ev, h1, Or.inl h2⟩
        · refine ⟨events[x], List.getElem?_eq_getElem h2, Or.inr ?_⟩
          push_cast at h1
          omega
      · rintro ⟨ev, h1, h2 | h2⟩
        · exact Or.inl ⟨ev, h1, h2⟩
        · right
          have hx : x < events.length := by
            by_contra hc
            rw [List.getElem?_eq_none (not_lt.1 hc)] at h1
            cases h1
          refine ⟨?_, hx⟩
          push_cast
          omega
    · rename_i hlt
      rw [hbase]
      constructor
      · rintro ⟨ev, h1, h2⟩
        exact ⟨ev, h1, Or.inl h2⟩
      · rintro ⟨ev, h1, h2 | h2⟩
        · exact ⟨ev, h1, h2⟩
        · exfalso
          have hx : x < events.length := by
            by_contra hc
            rw [List.getElem?_eq_none (not_lt.1 hc)] at h1
            cases h1
          omega
  · intro hok
    split
    · rename_i hlt
      rw [List.pairwise_append]
      refine ⟨hlt1, ?_, ?_⟩
      · unfold pyDrop
        rw [if_pos (by omega), List.range_eq_range', List.drop_range']
        exact List.pairwise_lt_range'
      · intro x hx y hy
        rw [pyDrop_range _ (by omega)] at hy
        obtain ⟨ev, h1, h2⟩ := (htrain1 x).1 hx
        by_contra hxy
        have h3 : te < ev.1 := (hrank x ev h1).2 (by have := hy.1; push_cast at this; omega)
        have h4 := hok ev (List.mem_of_getElem? h1)
        have h5 : events[i].2 ≤ te := hgr.2 ⟨events[i], by
          unfold slot
          rw [List.mem_iff_getElem?]
          exact ⟨0, by rw [List.getElem?_drop, List.getElem?_take_of_lt (by omega),
            List.getElem?_eq_getElem (by omega)]; simp⟩, rfl⟩
        have h6 := hok events[i] (List.getElem_mem _)
        omega
    · exact hlt1

theorem mem_slot (events : List (ℤ × ℤ)) (i j : ℕ) (e : ℤ × ℤ) :
    e ∈ slot events i j ↔ ∃ y ∈ List.range' i (j - i), events[y]? = some e := by
  unfold slot
  rw [List.mem_iff_getElem?]
  constructor
  · rintro ⟨k, hk⟩
    rw [List.getElem?_drop] at hk
    have hlt : i + k < j := by
      by_contra hc
      rw [List.getElem?_take_eq_none (not_lt.1 hc)] at hk
      cases hk
    rw [List.getElem?_take_of_lt hlt] at hk
    exact ⟨i + k, by rw [List.mem_range'_1]; omega, hk⟩
  · rintro ⟨y, hy, hk⟩
    rw [List.mem_range'_1] at hy
    refine ⟨y - i, ?_⟩
    have : i + (y - i) = y := by omega
    rw [List.getElem?_drop, this, List.getElem?_take_of_lt (by omega)]
    exact hk

/-! ## C41 -/

/-- C41.  For `1 ≤ n_splits ≤ n` and known ends the call succeeds with `n_splits` folds whose test sets
are non-empty, differ in size by at most one, and listed one after the other are `0, …, n-1`. -/
theorem C41_partition (events : List (ℤ × ℤ)) (nSplits : ℤ) (pct : K) (h0 : 0 < nSplits)
    (hn : nSplits ≤ events.length) :
    ∃ folds, kfoldSplit nSplits pct (.series true (events.map closeEv)) = .ok folds ∧
      (folds.length : ℤ) = nSplits ∧
      (folds.map Prod.snd).flatten = List.range events.length ∧
      (∀ f ∈ folds, f.2 ≠ []) ∧
      (∀ f ∈ folds, ∀ g ∈ folds, f.2.length ≤ g.2.length + 1) := by
  obtain ⟨bounds, hb, hlen, hbd, hflat⟩ := kfold_bounds (events.map closeEv) nSplits pct h0
    (by simpa using hn)
  rw [List.length_map] at hbd hflat hb
  have hok : ∀ b ∈ bounds, ∃ r, kfoldOne (events.map closeEv)
      (pyInt ((events.length : K) * pct)) b = .ok r := by
    intro b hbm
    obtain ⟨h1, h2, _⟩ := hbd b hbm
    have hne : slot events b.1 b.2 ≠ [] := by
      unfold slot
      rw [ne_eq, List.drop_eq_nil_iff]
      simp
      omega
    obtain ⟨te, hte, _⟩ := maxEnd_closed _ hne
    have hslot : (((events.map closeEv).take b.2).drop b.1) = (slot events b.1 b.2).map closeEv := by
      unfold slot; rw [← List.map_take, ← List.map_drop]
    have hij' : b.1 + (b.2 - b.1) = b.2 := by omega
    have e1 : pyGet (events.map closeEv) b.1 = .ok (closeEv events[b.1]) := by
      rw [pyGet_eq_ok_iff, List.getElem?_map, List.getElem?_eq_getElem (by omega)]
      rfl
    have e2 : ((List.range (events.map closeEv).length).take b.2).drop b.1 =
        List.range' b.1 (b.2 - b.1) := by
      have := take_drop_range (events.map closeEv).length b.1 (b.2 - b.1) (by simp; omega)
      rwa [hij'] at this
    have e3 := mapM_pyGet_range' (events.map closeEv) b.1 (b.2 - b.1) (by simp; omega)
    rw [hij', hslot] at e3
    unfold kfoldOne
    simp only
    rw [e1, py_bind_ok, e2, e3, py_bind_ok, hte, py_bind_ok]
    exact ⟨_, rfl⟩
  have hmap : ∃ folds, bounds.mapM (kfoldOne (events.map closeEv)
      (pyInt ((events.length : K) * pct))) = .ok folds := by
    clear hflat hlen hb hbd
    induction bounds with
    | nil => exact ⟨[], rfl⟩
    | cons b bs ih =>
      obtain ⟨r, hr⟩ := hok b (by simp)
      obtain ⟨fs, hf⟩ := ih (fun b hb => hok b (by simp [hb]))
      exact ⟨r :: fs, by rw [mapM_cons_py, hr, hf]; rfl⟩
  obtain ⟨folds, hf⟩ := hmap
  have hfa := (mapM_eq_ok_iff _ _ _).1 hf
  have htests : folds.map Prod.snd = bounds.map fun b => List.range' b.1 (b.2 - b.1) := by
    have key : ∀ {bs : List (ℕ × ℕ)} {fs : List (List ℕ × List ℕ)}, (∀ b ∈ bs, b ∈ bounds) →
        List.Forall₂ (fun b r => kfoldOne (events.map closeEv)
          (pyInt ((events.length : K) * pct)) b = .ok r) bs fs →
        fs.map Prod.snd = bs.map fun b => List.range' b.1 (b.2 - b.1) := by
      intro bs fs hsub h
      induction h with
      | nil => rfl
      | @cons b r bs fs hbr _ ih =>
        rw [List.map_cons, List.map_cons, ih (fun b hb => hsub b (by simp [hb]))]
        congr 1
        obtain ⟨h1, h2, _⟩ := hbd b (hsub b (by simp))
        rw [fold_test _ _ _ _ hbr, List.length_map]
        have := take_drop_range events.length b.1 (b.2 - b.1) (by omega)
        rwa [show b.1 + (b.2 - b.1) = b.2 by omega] at this
    exact key (fun b hb => hb) hfa
  refine ⟨folds, ?_, ?_, ?_, ?_, ?_⟩
  · rw [kfoldSplit_series, hb, hf]
  · rw [← hfa.length_eq]
    exact hlen
  · rw [htests, ← hflat, List.flatMap_def]
  · intro f hfm
    have : f.2 ∈ folds.map Prod.snd := List.mem_map.2 ⟨f, hfm, rfl⟩
    rw [htests] at this
    obtain ⟨b, hbm, hbf⟩ := List.mem_map.1 this
    obtain ⟨h1, h2, _⟩ := hbd b hbm
    rw [← hbf]
    simp
    omega
  · have hl : ∀ f ∈ folds, f.2.length = events.length / nSplits.toNat ∨
        f.2.length = events.length / nSplits.toNat + 1 := by
      intro f hfm
      have : f.2 ∈ folds.map Prod.snd := List.mem_map.2 ⟨f, hfm, rfl⟩
      rw [htests] at this
      obtain ⟨b, hbm, hbf⟩ := List.mem_map.1 this
      rw [← hbf, List.length_range']
      exact (hbd b hbm).2.2
    intro f hfm g hgm
    have := hl f hfm
    have := hl g hgm
    omega

/-- C41.  More splits than events raises IndexError, no splits ValueError. -/
theorem C41_raises (events : List Event) (nSplits : ℤ) (pct : K) :
    ((events.length : ℤ) < nSplits →
      kfoldSplit nSplits pct (.series true events) = .error .indexError) ∧
    (nSplits ≤ 0 → kfoldSplit nSplits pct (.series true events) = .error .valueError) ∧
    kfoldSplit nSplits pct .notSeries = .error .valueError ∧
    kfoldSplit nSplits pct (.series false events) = .error .valueError := by
  refine ⟨?_, ?_, rfl, rfl⟩
  · intro h
    have hk : 0 < nSplits.toNat := by omega
    obtain ⟨c1, c2, -⟩ := cut_range' (splitSizes events.length nSplits.toNat) 0 events.length
      (splitSizes_sum _ _ hk)
    rw [← List.range_eq_range'] at c1 c2
    have hdiv : events.length / nSplits.toNat = 0 := Nat.div_eq_of_lt (by omega)
    have h0 : 0 ∈ splitSizes events.length nSplits.toNat := by
      unfold splitSizes
      rw [hdiv, Nat.mod_eq_of_lt (by omega)]
      apply List.mem_append_right
      rw [List.mem_replicate]
      exact ⟨by omega, rfl⟩
    rw [← c2] at h0
    obtain ⟨p, hp, hp0⟩ := List.mem_map.1 h0
    have hpn : p = [] := List.length_eq_zero_iff.1 hp0
    subst hpn
    rw [kfoldSplit_series]
    unfold kfoldEvents arraySplit
    rw [if_neg (by omega), py_bind_ok]
    rw [mapM_error_eq foldBounds _ .indexError [] hp rfl]
    · rfl
    · intro q _ e hq
      unfold foldBounds at hq
      cases q with
      | nil => cases hq; rfl
      | cons a l =>
        exfalso
        have h1 : pyGet (a :: l) 0 = .ok a := rfl
        rw [h1, py_bind_ok] at hq
        cases hlast : pyLast (a :: l) with
        | ok b => rw [hlast] at hq; cases hq
        | error e' =>
          unfold pyLast at hlast
          cases hg : (a :: l).getLast? with
          | none => simp at hg
          | some v => rw [hg] at hlast; cases hlast
  · intro h
    rw [kfoldSplit_series]
    unfold kfoldEvents arraySplit
    rw [if_pos h]
    rfl

example : kfoldSplit 2 (0 : ℚ) (.series true ([(0, 1), (2, 3), (4, 5), (6, 7), (8, 9)].map closeEv)) =
    .ok [([4], [0, 1, 2]), ([0, 1, 2], [3, 4])] := by decide +kernel

/-! ## C42, C43 -/

/-- Every fold of a successful split is `kfoldOne` on bounds inside the events. -/
theorem fold_exists (events : List (ℤ × ℤ)) (hs : (events.map Prod.fst).Pairwise (· ≤ ·))
    (nSplits : ℤ) (pct : K) (hp : 0 ≤ pct) (folds : List (List ℕ × List ℕ))
    (h : kfoldSplit nSplits pct (.series true (events.map closeEv)) = .ok folds)
    (f : List ℕ × List ℕ) (hf : f ∈ folds) :
    ∃ (i j : ℕ) (te : ℤ) (hij : i < j) (hj : j ≤ events.length), f.2 = List.range' i (j - i) ∧
      IsGreatest {y | ∃ e ∈ slot events i j, e.2 = y} te ∧
      (∀ x, x ∈ f.1 ↔ ∃ ev, events[x]? = some ev ∧
        (ev.2 < events[i].1 ∨ (((events.countP fun e => decide (e.1 ≤ te)) : ℕ) : ℤ) + 1 +
          ⌊(events.length : K) * pct⌋ ≤ x)) ∧
      (∀ x ev, events[x]? = some ev →
        (te < ev.1 ↔ events.countP (fun e => decide (e.1 ≤ te)) ≤ x)) ∧
      ((∀ e ∈ events, e.1 ≤ e.2) → f.1.Pairwise (· < ·)) := by
  have h0 : 0 ≤ (events.length : K) * pct := mul_nonneg (Nat.cast_nonneg _) hp
  have hn0 : 0 < nSplits := by
    by_contra hc
    rw [(C41_raises (events.map closeEv) nSplits pct).2.1 (not_lt.1 hc)] at h
    cases h
  have hnn : nSplits ≤ events.length := by
    by_contra hc
    rw [(C41_raises (events.map closeEv) nSplits pct).1 (by simpa using hc)] at h
    cases h
  obtain ⟨bounds, hb, -, hbd, -⟩ := kfold_bounds (events.map closeEv) nSplits pct hn0
    (by simpa using hnn)
  rw [kfoldSplit_series, hb, mapM_eq_ok_iff] at h
  obtain ⟨b, hbm, hbf⟩ : ∃ b ∈ bounds, kfoldOne (events.map closeEv)
      (pyInt (((events.map closeEv).length : K) * pct)) b = .ok f := by
    clear hb hbd
    induction h with
    | nil => cases hf
    | @cons b r bs rs hbr _ ih =>
      rcases List.mem_cons.1 hf with rfl | hf
      · exact ⟨b, by simp, hbr⟩
      · obtain ⟨b', h1, h2⟩ := ih hf
        exact ⟨b', by simp [h1], h2⟩
  obtain ⟨h1, h2, _⟩ := hbd b hbm
  rw [List.length_map] at h2 hbf
  have hint : pyInt ((events.length : K) * pct) = ⌊(events.length : K) * pct⌋ := by
    unfold pyInt; rw [if_pos h0]
  rw [hint] at hbf
  obtain ⟨train, te, e1, e2, e3, e4, e5⟩ := fold_char events hs ⌊(events.length : K) * pct⌋
    (Int.floor_nonneg.2 h0) b.1 b.2 h1 h2
  rw [show ((b.1, b.2) : ℕ × ℕ) = b from rfl, hbf] at e1
  cases e1
  exact ⟨b.1, b.2, te, h1, h2, rfl, e2, e3, e4, e5⟩

/-- C42.  Events ordered by start: every train event ends before every test start or starts after
every test end; in the second case at least `1 + int(n * embargo_pct)` positions after the first event
that starts past the test ends; train and test sets are disjoint, and the train set is listed in
order. -/
theorem C42_no_leak (events : List (ℤ × ℤ)) (hs : (events.map Prod.fst).Pairwise (· ≤ ·))
    (he : ∀ e ∈ events, e.1 ≤ e.2) (nSplits : ℤ) (pct : K) (hp : 0 ≤ pct)
    (folds : List (List ℕ × List ℕ))
    (h : kfoldSplit nSplits pct (.series true (events.map closeEv)) = .ok folds) :
    ∀ f ∈ folds,
      (∀ x ∈ f.1, ∃ ev, events[x]? = some ev ∧
        ((∀ y ∈ f.2, ∀ t, events[y]? = some t → ev.2 < t.1) ∨
          ((∀ y ∈ f.2, ∀ t, events[y]? = some t → t.2 < ev.1) ∧
            ∃ first : ℕ, (∀ y ev', events[y]? = some ev' →
                ((∀ z ∈ f.2, ∀ t, events[z]? = some t → t.2 < ev'.1) ↔ first ≤ y)) ∧
              (first : ℤ) + 1 + ⌊(events.length : K) * pct⌋ ≤ x))) ∧
      (∀ x ∈ f.1, x ∉ f.2) ∧ f.1.Pairwise (· < ·) := by
  intro f hf
  obtain ⟨i, j, te, hij, hj, htest, hgr, htr, hrank, hpw⟩ :=
    fold_exists events hs nSplits pct hp folds h f hf
  have h0 : 0 ≤ ⌊(events.length : K) * pct⌋ :=
    Int.floor_nonneg.2 (mul_nonneg (Nat.cast_nonneg _) hp)
  generalize events.countP (fun e => decide (e.1 ≤ te)) = c at htr hrank
  generalize hfl : ⌊(events.length : K) * pct⌋ = emb at htr h0 ⊢
  have hstart : ∀ y ∈ f.2, ∀ t, events[y]? = some t → events[i].1 ≤ t.1 := by
    intro y hy t ht
    rw [htest, List.mem_range'_1] at hy
    have hyl : y < events.length := by omega
    rw [List.getElem?_eq_getElem hyl] at ht
    cases ht
    rcases Nat.eq_or_lt_of_le hy.1 with h1 | h1
    · subst h1; exact le_refl _
    · have := List.pairwise_iff_getElem.1 hs i y (by simp; omega) (by simp; omega) h1
      simpa using this
  have hall : ∀ ev' : ℤ × ℤ, (∀ z ∈ f.2, ∀ t, events[z]? = some t → t.2 < ev'.1) ↔ te < ev'.1 := by
    intro ev'
    constructor
    · intro hz
      obtain ⟨e, he1, he2⟩ := hgr.1
      obtain ⟨y, hy, hye⟩ := (mem_slot events i j e).1 he1
      rw [← he2]
      exact hz y (by rw [htest]; exact hy) e hye
    · intro hlt z hz t ht
      refine lt_of_le_of_lt (hgr.2 ⟨t, ?_, rfl⟩) hlt
      exact (mem_slot events i j t).2 ⟨z, by rw [← htest]; exact hz, ht⟩
  refine ⟨?_, ?_, hpw he⟩
  · intro x hx
    obtain ⟨ev, h1, h2⟩ := (htr x).1 hx
    refine ⟨ev, h1, ?_⟩
    rcases h2 with h2 | h2
    · left
      intro y hy t ht
      exact lt_of_lt_of_le h2 (hstart y hy t ht)
    · right
      refine ⟨(hall ev).2 ((hrank x ev h1).2 (by omega)), c, ?_, h2⟩
      intro y ev' hy
      rw [hall ev', hrank y ev' hy]
  · intro x hx hxt
    obtain ⟨ev, h1, h2⟩ := (htr x).1 hx
    have h3 := hstart x hxt ev h1
    have h4 := he ev (List.mem_of_getElem? h1)
    rcases h2 with h2 | h2
    · omega
    · have h5 : te < ev.1 := (hrank x ev h1).2 (by omega)
      have := (hall ev).2 h5 x hxt ev h1
      omega

/-- C43, full claim: without embargo every event that ends before the test starts or starts after the
test ends is in the train set. -/
def KeepsAdmissible : Prop := ∀ (events : List (ℤ × ℤ)) (nSplits : ℤ)
  (folds : List (List ℕ × List ℕ)), (events.map Prod.fst).Pairwise (· ≤ ·) →
  (∀ e ∈ events, e.1 ≤ e.2) →
  kfoldSplit nSplits (0 : ℚ) (.series true (events.map closeEv)) = .ok folds →
  ∀ f ∈ folds, ∀ (x : ℕ) ev, events[x]? = some ev →
    ((∀ y ∈ f.2, ∀ t, events[y]? = some t → ev.2 < t.1) ∨
      (∀ y ∈ f.2, ∀ t, events[y]? = some t → t.2 < ev.1)) → x ∈ f.1

/-- C43, counterexample: three events on consecutive days; the second is lost when the first is
tested. -/
theorem C43_keeps_admissible_counterexample : ¬ KeepsAdmissible := by
  intro h
  have h1 : kfoldSplit 3 (0 : ℚ) (.series true ([(0, 0), (1, 1), (2, 2)].map closeEv)) =
      .ok [([2], [0]), ([0], [1]), ([0, 1], [2])] := by decide +kernel
  have h2 := h [(0, 0), (1, 1), (2, 2)] 3 _ (by decide) (by decide) h1 ([2], [0]) (by simp) 1 (1, 1) rfl
    (Or.inr (by simp))
  simp at h2

/-- C43, what holds: without embargo the train set is exactly the admissible events except the first
one that starts after the test ends (missing: that one). -/
theorem C43_keeps_admissible_partial (events : List (ℤ × ℤ))
    (hs : (events.map Prod.fst).Pairwise (· ≤ ·)) (nSplits : ℤ) (folds : List (List ℕ × List ℕ))
    (h : kfoldSplit nSplits (0 : K) (.series true (events.map closeEv)) = .ok folds) :
    ∀ f ∈ folds, ∃ lost : ℕ,
      (∀ x ev, events[x]? = some ev →
        ((∀ y ∈ f.2, ∀ t, events[y]? = some t → t.2 < ev.1) ↔ lost ≤ x)) ∧
      ∀ x ev, events[x]? = some ev →
        (x ∈ f.1 ↔ (∀ y ∈ f.2, ∀ t, events[y]? = some t → ev.2 < t.1) ∨
          (∀ y ∈ f.2, ∀ t, events[y]? = some t → t.2 < ev.1) ∧ x ≠ lost) := by
  intro f hf
  obtain ⟨i, j, te, hij, hj, htest, hgr, htr, hrank, -⟩ :=
    fold_exists events hs nSplits 0 (le_refl _) folds h f hf
  have hall : ∀ ev' : ℤ × ℤ, (∀ z ∈ f.2, ∀ t, events[z]? = some t → t.2 < ev'.1) ↔ te < ev'.1 := by
    intro ev'
    constructor
    · intro hz
      obtain ⟨e, he1, he2⟩ := hgr.1
      obtain ⟨y, hy, hye⟩ := (mem_slot events i j e).1 he1
      rw [← he2]
      exact hz y (by rw [htest]; exact hy) e hye
    · intro hlt z hz t ht
      refine lt_of_le_of_lt (hgr.2 ⟨t, ?_, rfl⟩) hlt
      exact (mem_slot events i j t).2 ⟨z, by rw [← htest]; exact hz, ht⟩
  have hbefore : ∀ ev' : ℤ × ℤ, (∀ z ∈ f.2, ∀ t, events[z]? = some t → ev'.2 < t.1) ↔
      ev'.2 < events[i].1 := by
    intro ev'
    constructor
    · intro hz
      exact hz i (by rw [htest, List.mem_range'_1]; omega) _ (List.getElem?_eq_getElem (by omega))
    · intro hlt y hy t ht
      refine lt_of_lt_of_le hlt ?_
      rw [htest, List.mem_range'_1] at hy
      have hyl : y < events.length := by omega
      rw [List.getElem?_eq_getElem hyl] at ht
      cases ht
      rcases Nat.eq_or_lt_of_le hy.1 with h1 | h1
      · subst h1; exact le_refl _
      · have := List.pairwise_iff_getElem.1 hs i y (by simp; omega) (by simp; omega) h1
        simpa using this
  refine ⟨events.countP (fun e => decide (e.1 ≤ te)), ?_, ?_⟩
  · intro x ev hx
    rw [hall ev, hrank x ev hx]
  · intro x ev hx
    rw [htr x, hall ev, hrank x ev hx, hbefore ev, mul_zero, Int.floor_zero]
    constructor
    · rintro ⟨ev', h1, h2⟩
      rw [hx] at h1
      cases h1
      rcases h2 with h2 | h2
      · exact Or.inl h2
      · right
        omega
    · rintro (h2 | ⟨h2, h3⟩)
      · exact ⟨ev, hx, Or.inl h2⟩
      · exact ⟨ev, hx, Or.inr (by omega)⟩

end FinML.CV
