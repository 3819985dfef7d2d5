import Verif.Alloc.HrpSpec
import Verif.Py.Lemmas
import Verif.Py.Rolling
import Mathlib.Data.List.Range
import Mathlib.Algebra.BigOperators.Group.List.Basic
import Mathlib.Data.List.Perm.Subperm

/-!
# Quasi-diagonalisation (C79)
-/

set_option linter.unusedSimpArgs false

namespace FinML.Alloc

/-- The children of a node, or the item itself. -/
def kids (n : ℕ) (L R : ℕ → ℕ) (c : ℕ) : List ℕ := if n ≤ c then [L c, R c] else [c]

/-- The labelled children of the entry at position `i`. -/
def labKids (n : ℕ) (L R : ℕ → ℕ) (p : ℕ × ℕ) : List (ℕ × ℕ) :=
  if n ≤ p.2 then [(p.1, L p.2), (p.1 + 1, R p.2)] else [p]

theorem labKids_perm (n : ℕ) (L R : ℕ → ℕ) (l : List (ℕ × ℕ)) :
    ((l.map fun p : ℕ × ℕ => if n ≤ p.2 then (p.1, L p.2) else p) ++
      (l.filter fun p : ℕ × ℕ => n ≤ p.2).map fun p : ℕ × ℕ => (p.1 + 1, R p.2)).Perm
      (l.flatMap (labKids n L R)) := by
  induction l with
  | nil => simp
  | cons p l ih =>
    by_cases h : n ≤ p.2
    · simp only [List.map_cons, h, if_true, List.filter_cons, decide_true, List.cons_append,
        List.flatMap_cons, labKids, List.nil_append]
      refine List.Perm.cons _ ?_
      exact List.perm_middle.trans (List.Perm.cons _ ih)
    · simp only [List.map_cons, h, if_false, List.filter_cons, decide_false, List.cons_append,
        List.flatMap_cons, labKids, List.nil_append, Bool.false_eq_true]
      exact List.Perm.cons _ ih

theorem labKids_sorted (n : ℕ) (L R : ℕ → ℕ) (s : List ℕ) (i : ℕ) :
    (((s.zipIdx i).map fun p => (2 * p.2, p.1)).flatMap (labKids n L R)).Pairwise
      (fun a b => a.1 < b.1) ∧
    ∀ q ∈ ((s.zipIdx i).map fun p => (2 * p.2, p.1)).flatMap (labKids n L R), 2 * i ≤ q.1 := by
  induction s generalizing i with
  | nil => simp
  | cons c s ih =>
    obtain ⟨h1, h2⟩ := ih (i + 1)
    simp only [List.zipIdx_cons, List.map_cons, List.flatMap_cons]
    generalize (((s.zipIdx (i + 1)).map fun p => (2 * p.2, p.1)).flatMap (labKids n L R)) = rest at *
    by_cases h : n ≤ c
    · simp only [labKids, h, if_true, List.cons_append, List.nil_append, List.pairwise_cons,
        List.mem_cons]
      refine ⟨⟨?_, ?_, h1⟩, ?_⟩
      · rintro q (rfl | hq)
        · simp
        · have := h2 q hq; omega
      · intro q hq
        have := h2 q hq; omega
      · rintro q (rfl | rfl | hq)
        · simp
        · simp
        · have := h2 q hq; omega
    · simp only [labKids, h, if_false, List.cons_append, List.nil_append, List.pairwise_cons,
        List.mem_cons]
      refine ⟨⟨?_, h1⟩, ?_⟩
      · intro q hq
        have := h2 q hq; omega
      · rintro q (rfl | hq)
        · simp
        · have := h2 q hq; omega

theorem labKids_snd (n : ℕ) (L R : ℕ → ℕ) (s : List ℕ) (i : ℕ) :
    (((s.zipIdx i).map fun p => (2 * p.2, p.1)).flatMap (labKids n L R)).map Prod.snd =
      s.flatMap (kids n L R) := by
  induction s generalizing i with
  | nil => simp
  | cons c s ih =>
    simp only [List.zipIdx_cons, List.map_cons, List.flatMap_cons, List.map_append, ih]
    congr 1
    by_cases h : n ≤ c <;> simp [labKids, kids, h]

theorem sortLabels_eq (s t : Labelled ℕ) (hp : s.Perm t) (ht : t.Pairwise fun a b => a.1 < b.1) :
    sortLabels s = t := by
  have : Std.Total (fun a b : ℕ × ℕ => a.1 ≤ b.1) := ⟨fun a b => le_total a.1 b.1⟩
  have : IsTrans (ℕ × ℕ) (fun a b => a.1 ≤ b.1) := ⟨fun a b c => le_trans⟩
  have hs : (sortLabels s).Pairwise (fun a b => a.1 ≤ b.1) := List.pairwise_insertionSort _ s
  have hp2 : (sortLabels s).Perm t := (List.perm_insertionSort _ s).trans hp
  refine List.Perm.eq_of_pairwise (le := fun a b : ℕ × ℕ => a.1 ≤ b.1) ?_ hs
    (ht.imp fun h => h.le) hp2
  intro a b ha hb h1 h2
  have ha' := hp2.mem_iff.1 ha
  by_contra hne
  have hne' : a.1 ≠ b.1 := by
    have hinj : ∀ x ∈ t, ∀ y ∈ t, x ≠ y → x.1 ≠ y.1 := by
      have hpw := (ht.imp (S := fun a b : ℕ × ℕ => a.1 ≠ b.1) fun h => h.ne)
      have : Std.Symm (fun a b : ℕ × ℕ => a.1 ≠ b.1) := ⟨fun _ _ h => h.symm⟩
      intro x hx y hy hxy
      exact hpw.forall hx hy hxy
    exact hinj a ha' b hb hne
  omega

/-- One pass replaces, in place, every cluster by its two children. -/
theorem expandOnce_eq (rows : List Row) (n : ℕ) (L R : ℕ → ℕ) (s : List ℕ)
    (h : ∀ c ∈ s, n ≤ c → ∃ r, rows[c - n]? = some r ∧ r.left = L c ∧ r.right = R c) :
    expandOnce rows n s = .ok (s.flatMap (kids n L R)) := by
  have hmem : ∀ p ∈ relabel2 s, p.2 ∈ s := by
    intro p hp
    simp only [relabel2, List.mem_map] at hp
    obtain ⟨q, hq, rfl⟩ := hp
    exact (List.mem_zipIdx' hq).2 ▸ List.getElem_mem _
  have h1 : (relabel2 s).mapM (replaceLeft rows n) =
      .ok ((relabel2 s).map fun p => if n ≤ p.2 then (p.1, L p.2) else p) := by
    refine mapM_ok_of_forall _ _ _ ?_
    intro p hp
    by_cases hc : n ≤ p.2
    · obtain ⟨r, hr, hl, -⟩ := h _ (hmem p hp) hc
      have := (pyGet_eq_ok_iff rows (p.2 - n) r).2 hr
      simp [replaceLeft, childRow, hc, this, hl]
    · simp [replaceLeft, hc]
  have h2 : ((relabel2 s).filter fun p => n ≤ p.2).mapM (appendRight rows n) =
      .ok (((relabel2 s).filter fun p => n ≤ p.2).map fun p => (p.1 + 1, R p.2)) := by
    refine mapM_ok_of_forall _ _ _ ?_
    intro p hp
    rw [List.mem_filter] at hp
    obtain ⟨r, hr, -, hrr⟩ := h _ (hmem p hp.1) (by simpa using hp.2)
    have := (pyGet_eq_ok_iff rows (p.2 - n) r).2 hr
    simp [appendRight, childRow, this, hrr]
  unfold expandOnce
  simp only [h1, h2, py_bind_ok, py_pure]
  rw [sortLabels_eq _ _ (labKids_perm n L R (relabel2 s)) (labKids_sorted n L R s 0).1]
  rw [show relabel2 s = (s.zipIdx 0).map fun p => (2 * p.2, p.1) from rfl, labKids_snd]

/-- Every node has a list of leaves. -/
theorem leaves_exists (n : ℕ) (rows : List Row) (hv : ValidLinkage n rows) (c : ℕ)
    (hc : c < n + rows.length) : ∃ l, Leaves n rows c l := by
  induction c using Nat.strong_induction_on with
  | _ c ih =>
    by_cases h : c < n
    · exact ⟨_, .item c h⟩
    · obtain ⟨k, rfl⟩ := Nat.exists_eq_add_of_le (not_lt.1 h)
      have hk : k < rows.length := by omega
      obtain ⟨h1, h2⟩ := hv.earlier k _ (List.getElem?_eq_getElem hk)
      obtain ⟨a, ha⟩ := ih _ h1 (by omega)
      obtain ⟨b, hb⟩ := ih _ h2 (by omega)
      exact ⟨_, .merge k _ a b (List.getElem?_eq_getElem hk) ha hb⟩

theorem leaves_unique (n : ℕ) (rows : List Row) (c : ℕ) (l l' : List ℕ)
    (h : Leaves n rows c l) (h' : Leaves n rows c l') : l = l' := by
  induction h generalizing l' with
  | item c hc =>
    cases h' with
    | item => rfl
    | merge k => omega
  | merge k r a b hr ha hb iha ihb =>
    generalize hm : n + k = m at h'
    cases h' with
    | item _ hc => omega
    | merge k' r' a' b' hr' ha' hb' =>
      obtain rfl : k = k' := by omega
      obtain rfl : r = r' := by rw [hr] at hr'; exact Option.some.inj hr'
      rw [iha _ ha', ihb _ hb']

theorem leaves_lt (n : ℕ) (rows : List Row) (c : ℕ) (l : List ℕ)
    (h : Leaves n rows c l) : ∀ x ∈ l, x < n := by
  induction h with
  | item c hc => simpa using hc
  | merge k r a b hr ha hb iha ihb =>
    intro x hx
    rcases List.mem_append.1 hx with h | h
    · exact iha x h
    · exact ihb x h

theorem leaves_items (n : ℕ) (rows : List Row) (hv : ValidLinkage n rows) (c : ℕ) (l : List ℕ)
    (h : Leaves n rows c l) : itemsOf n rows c = l.length := by
  induction h with
  | item c hc => simp [itemsOf, hc]
  | merge k r a b hr ha hb iha ihb =>
    simp only [itemsOf, Nat.add_sub_cancel_left, hr, Option.map_some, Option.getD_some,
      not_lt.2 (Nat.le_add_right n k), if_false, List.length_append]
    rw [hv.counts k r hr, iha, ihb]

/-- The children of all rows are exactly the nodes other than the root. -/
theorem children_perm (n : ℕ) (rows : List Row) (hv : ValidLinkage n rows) :
    (rows.flatMap fun r => [r.left, r.right]).Perm (List.range (2 * (n - 1))) := by
  have hlen : (rows.flatMap fun r => [r.left, r.right]).length = 2 * rows.length := by
    simp [List.length_flatMap, mul_comm]
  have hsub : (rows.flatMap fun r => [r.left, r.right]) ⊆ List.range (2 * (n - 1)) := by
    intro x hx
    rw [List.mem_flatMap] at hx
    obtain ⟨r, hr, hx⟩ := hx
    obtain ⟨k, hk, rfl⟩ := List.mem_iff_getElem.1 hr
    have h := hv.earlier k _ (List.getElem?_eq_getElem hk)
    have := hv.length
    have := hv.two_le
    simp only [List.mem_cons, List.not_mem_nil, or_false] at hx
    rw [List.mem_range]
    rcases hx with rfl | rfl <;> omega
  have hsp := hv.once.subperm hsub
  refine hsp.perm_of_length_le ?_
  rw [hlen, List.length_range]
  have := hv.length
  omega

/-- The leaves of the root are the items, each once. -/
theorem root_leaves_perm (n : ℕ) (rows : List Row) (hv : ValidLinkage n rows) (l : List ℕ)
    (h : Leaves n rows (2 * n - 2) l) : l.Perm (List.range n) := by
  classical
  have hn := hv.two_le
  have hlen := hv.length
  have hex : ∀ c, ∃ l, c < n + rows.length → Leaves n rows c l := by
    intro c
    by_cases hc : c < n + rows.length
    · obtain ⟨l, hl⟩ := leaves_exists n rows hv c hc
      exact ⟨l, fun _ => hl⟩
    · exact ⟨[], fun h => absurd h hc⟩
  choose f hf using hex
  have hroot : f (2 * n - 2) = l :=
    leaves_unique n rows _ _ _ (hf _ (by omega)) h
  have hcount : ∀ x < n, (f (2 * n - 2)).countP (fun y => decide (y = x)) = 1 := by
    intro x hx
    let g : ℕ → ℕ := fun c => (f c).countP fun y => decide (y = x)
    have hitems : ((List.range n).map g).sum = 1 := by
      have : ∀ c ∈ List.range n, g c = if c = x then 1 else 0 := by
        intro c hc
        rw [List.mem_range] at hc
        have : f c = [c] := leaves_unique n rows _ _ _ (hf c (by omega)) (.item c hc)
        simp [g, this, List.countP_cons]
      rw [List.map_congr_left this]
      rw [list_range_map_sum n fun c : ℕ => if c = x then 1 else 0]
      simp [hx]
    have hmerge : ∀ (k : ℕ) (hk : k < rows.length), g (n + k) = g rows[k].left + g rows[k].right := by
      intro k hk
      have hr := List.getElem?_eq_getElem hk
      obtain ⟨h1, h2⟩ := hv.earlier k _ hr
      have : f (n + k) = f rows[k].left ++ f rows[k].right :=
        leaves_unique n rows _ _ _ (hf _ (by omega))
          (.merge k _ _ _ hr (hf _ (by omega)) (hf _ (by omega)))
      simp only [g, this, List.countP_append]
    have hmerges : ((List.range rows.length).map fun k : ℕ => g (n + k)).sum =
        ((rows.flatMap fun r => [r.left, r.right]).map g).sum := by
      have h1 : (List.range rows.length).map (fun k : ℕ => g (n + k)) =
          rows.map fun r => g r.left + g r.right := by
        apply List.ext_getElem
        · simp
        · intro i h1 h2
          simp only [List.getElem_map, List.getElem_range]
          exact hmerge i (by simpa using h1)
      rw [h1]
      clear * -
      induction rows with
      | nil => simp
      | cons r rows ih => simp [ih, add_assoc]
    rw [((children_perm n rows hv).map g).sum_eq] at hmerges
    -- sum over all nodes
    have hall : ((List.range (n + rows.length)).map g).sum =
        ((List.range n).map g).sum + ((List.range rows.length).map fun k : ℕ => g (n + k)).sum := by
      rw [List.range_add, List.map_append, List.sum_append, List.map_map]
      rfl
    have hall2 : ((List.range (n + rows.length)).map g).sum =
        ((List.range (2 * (n - 1))).map g).sum + g (2 * n - 2) := by
      have : n + rows.length = 2 * (n - 1) + 1 := by omega
      rw [this, List.range_succ, List.map_append, List.sum_append]
      simp only [List.map_cons, List.map_nil, List.sum_cons, List.sum_nil, add_zero]
      congr 2; omega
    have : g (2 * n - 2) = 1 := by omega
    exact this
  rw [hroot] at hcount
  rw [List.perm_iff_count]
  intro x
  have hce : ∀ m : List ℕ, m.count x = m.countP (fun y => decide (y = x)) := by
    intro m
    unfold List.count
    congr 1
  by_cases hx : x < n
  · rw [hce, hcount x hx, List.count_eq_one_of_mem List.nodup_range (List.mem_range.2 hx)]
  · rw [List.count_eq_zero_of_not_mem, List.count_eq_zero_of_not_mem]
    · rw [List.mem_range]; exact hx
    · exact fun hm => hx (leaves_lt n rows _ _ h x hm)

/-- The loop ends with the leaves of the listed nodes, in order. -/
theorem expandLoop_eq (n : ℕ) (rows : List Row) (hv : ValidLinkage n rows) (f : ℕ → List ℕ)
    (hf : ∀ c < n + rows.length, Leaves n rows c (f c)) (fuel : ℕ) (s : List ℕ)
    (hs : ∀ c ∈ s, c < n + rows.length) (hfuel : ∀ c ∈ s, c < n + fuel) :
    expandLoop rows n fuel s = .ok (s.flatMap f) := by
  have hleaf : ∀ s : List ℕ, (∀ c ∈ s, c < n) → s.flatMap f = s := by
    intro s hs
    induction s with
    | nil => rfl
    | cons c s ih =>
      have hc := hs c (by simp)
      rw [List.flatMap_cons, ih fun c hc => hs c (by simp [hc]),
        leaves_unique n rows _ _ _ (hf c (by omega)) (.item c hc)]
      rfl
  induction fuel generalizing s with
  | zero =>
    have hany : (s.any fun c => decide (n ≤ c)) = false := by
      rw [List.any_eq_false]
      intro c hc
      have := hfuel c hc
      simp; omega
    simp only [expandLoop, hany, Bool.false_eq_true, if_false]
    rw [hleaf s (by simpa using hfuel)]
  | succ fuel ih =>
    unfold expandLoop
    by_cases hany : (s.any fun c => decide (n ≤ c)) = true
    · rw [if_pos hany]
      have hrow : ∀ c, n ≤ c → c < n + rows.length → c - n < rows.length := by intros; omega
      rw [expandOnce_eq rows n (fun c => ((rows[c - n]?).map Row.left).getD 0)
        (fun c => ((rows[c - n]?).map Row.right).getD 0) s ?_, py_bind_ok, ih]
      · congr 1
        rw [List.flatMap_assoc]
        apply List.flatMap_congr
        intro c hc
        by_cases hnc : n ≤ c
        · obtain ⟨k, rfl⟩ := Nat.exists_eq_add_of_le hnc
          have hk : k < rows.length := by have := hs _ hc; omega
          have hr := List.getElem?_eq_getElem hk
          obtain ⟨h1, h2⟩ := hv.earlier k _ hr
          have := leaves_unique n rows _ _ _ (hf (n + k) (by omega))
            (.merge k _ _ _ hr (hf _ (by omega)) (hf _ (by omega)))
          simp [kids, hr, this]
        · simp [kids, hnc]
      · intro x hx
        rw [List.mem_flatMap] at hx
        obtain ⟨c, hc, hx⟩ := hx
        by_cases hnc : n ≤ c
        · obtain ⟨k, rfl⟩ := Nat.exists_eq_add_of_le hnc
          have hk : k < rows.length := by have := hs _ hc; omega
          have hr := List.getElem?_eq_getElem hk
          obtain ⟨h1, h2⟩ := hv.earlier k _ hr
          simp [kids, hr] at hx
          rcases hx with rfl | rfl <;> omega
        · simp [kids, hnc] at hx
          subst hx; exact hs _ hc
      · intro x hx
        rw [List.mem_flatMap] at hx
        obtain ⟨c, hc, hx⟩ := hx
        by_cases hnc : n ≤ c
        · obtain ⟨k, rfl⟩ := Nat.exists_eq_add_of_le hnc
          have hk : k < rows.length := by have := hs _ hc; omega
          have hr := List.getElem?_eq_getElem hk
          obtain ⟨h1, h2⟩ := hv.earlier k _ hr
          have := hfuel _ hc
          simp [kids, hr] at hx
          rcases hx with rfl | rfl <;> omega
        · simp [kids, hnc] at hx
          subst hx; omega
      · intro c hc hnc
        have := hs c hc
        have hk : c - n < rows.length := by omega
        exact ⟨_, List.getElem?_eq_getElem hk, by simp [List.getElem?_eq_getElem hk],
          by simp [List.getElem?_eq_getElem hk]⟩
    · rw [if_neg hany]
      rw [hleaf s]
      intro c hc
      simp only [Bool.not_eq_true, List.any_eq_false] at hany
      have := hany c hc
      simpa using this

/-- C79: for every valid linkage matrix of `n ≥ 2` items the reordering terminates and is the list of
the leaves of the dendrogram from left to right; it lists every asset exactly once. -/
theorem C79_quasi_diagonalize (n : ℕ) (rows : List Row) (hv : ValidLinkage n rows) :
    ∃ order, quasiDiagonalize rows = .ok order ∧ Leaves n rows (2 * n - 2) order ∧
      order.Perm (List.range n) := by
  have hn := hv.two_le
  have hlen := hv.length
  have hex : ∀ c, ∃ l, c < n + rows.length → Leaves n rows c l := by
    intro c
    by_cases hc : c < n + rows.length
    · obtain ⟨l, hl⟩ := leaves_exists n rows hv c hc
      exact ⟨l, fun _ => hl⟩
    · exact ⟨[], fun h => absurd h hc⟩
  choose f hf using hex
  have hk : rows.length - 1 < rows.length := by omega
  have hr := List.getElem?_eq_getElem hk
  obtain ⟨h1, h2⟩ := hv.earlier _ _ hr
  generalize hrow : rows[rows.length - 1] = r at *
  have hlast : pyLast rows = .ok r := by
    rw [pyLast_eq_ok_iff, List.getLast?_eq_getElem?]
    exact hr
  have hleaf : Leaves n rows (2 * n - 2) (f r.left ++ f r.right) := by
    have := Leaves.merge (rows.length - 1) r _ _ hr (hf r.left (by omega)) (hf r.right (by omega))
    rwa [show n + (rows.length - 1) = 2 * n - 2 by omega] at this
  have hperm := root_leaves_perm n rows hv _ hleaf
  have hitems : r.items = n := by
    have := leaves_items n rows hv _ _ hleaf
    rw [hperm.length_eq, List.length_range] at this
    rw [← this, itemsOf, if_neg (by omega), show 2 * n - 2 - n = rows.length - 1 by omega, hr]
    rfl
  refine ⟨f r.left ++ f r.right, ?_, hleaf, hperm⟩
  unfold quasiDiagonalize
  rw [hlast, py_bind_ok, hitems, expandLoop_eq n rows hv f hf]
  · simp
  · intro c hc
    simp only [List.mem_cons, List.not_mem_nil, or_false] at hc
    rcases hc with rfl | rfl <;> omega
  · intro c hc
    simp only [List.mem_cons, List.not_mem_nil, or_false] at hc
    rcases hc with rfl | rfl <;> omega

/-- The linkage of five items used as an example. -/
def exRows : List Row := [⟨1, 3, 2⟩, ⟨0, 5, 3⟩, ⟨4, 2, 2⟩, ⟨6, 7, 5⟩]

theorem exRows_valid : ValidLinkage 5 exRows where
  two_le := by decide
  length := rfl
  earlier := by
    intro k r h
    match k with
    | 0 | 1 | 2 | 3 => simp [exRows] at h; subst h; simp
    | k + 4 => simp [exRows] at h
  once := by decide
  counts := by
    intro k r h
    match k with
    | 0 | 1 | 2 | 3 => simp [exRows] at h; subst h; decide
    | k + 4 => simp [exRows] at h

example : (quasiDiagonalize exRows).toOption = some [0, 1, 3, 4, 2] := by decide

end FinML.Alloc
