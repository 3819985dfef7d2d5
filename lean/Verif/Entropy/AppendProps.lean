import Verif.Entropy.LzProps

/-! # The Lempel-Ziv dictionary of a longer message (C227) -/

namespace FinML.Entropy

set_option linter.unusedSectionVars false

variable {α : Type} [DecidableEq α]

theorem parse_prefix {a b : List (List α)} (ha : Parse a) (hb : Parse b) (rest tail : List α)
    (h : b.flatten ++ tail = a.flatten ++ rest) (htail : tail = [] ∨ tail ∈ b) : a <+: b := by
  have key : ∀ k, k ≤ a.length → k ≤ b.length ∧ a.take k = b.take k := by
    intro k
    induction k with
    | zero => simp
    | succ k ih =>
      intro hk
      obtain ⟨h1, h2⟩ := ih (by omega)
      have hak : k < a.length := by omega
      have ea : a.flatten = (a.take k).flatten ++ (a[k] ++ (a.drop (k + 1)).flatten) := by
        conv_lhs => rw [← List.take_append_drop k a, List.drop_eq_getElem_cons hak]
        rw [List.flatten_append, List.flatten_cons]
      have hnew : a[k] ∉ a.take k := by
        intro hm
        obtain ⟨i, hi, e⟩ := List.mem_take_iff_getElem.1 hm
        have := (List.Nodup.getElem_inj_iff ha.nodup).1 e
        omega
      have hne : a[k] ≠ [] := ha.ne_nil _ (List.getElem_mem _)
      by_cases hbk : k < b.length
      · refine ⟨hbk, ?_⟩
        have eb : b.flatten = (b.take k).flatten ++ (b[k] ++ (b.drop (k + 1)).flatten) := by
          conv_lhs => rw [← List.take_append_drop k b, List.drop_eq_getElem_cons hbk]
          rw [List.flatten_append, List.flatten_cons]
        rw [ea, eb, h2] at h
        simp only [List.append_assoc, List.append_cancel_left_eq] at h
        have heq : a[k] = b[k] := by
          have p1 : a[k] <+: b[k] ++ ((b.drop (k + 1)).flatten ++ tail) := by rw [h]; exact List.prefix_append _ _
          have p2 : b[k] <+: b[k] ++ ((b.drop (k + 1)).flatten ++ tail) := List.prefix_append _ _
          have hneb : b[k] ≠ [] := hb.ne_nil _ (List.getElem_mem _)
          have hnewb : b[k] ∉ b.take k := by
            intro hm
            obtain ⟨i, hi, e⟩ := List.mem_take_iff_getElem.1 hm
            have := (List.Nodup.getElem_inj_iff hb.nodup).1 e
            omega
          rcases Nat.lt_trichotomy a[k].length b[k].length with hl | hl | hl
          · exfalso
            have := hb.prefixes k b[k] (List.getElem?_eq_getElem hbk) a[k].length (List.length_pos_iff.2 hne) hl
            rw [← List.prefix_iff_eq_take.1 (List.prefix_of_prefix_length_le p1 p2 hl.le), ← h2] at this
            exact hnew this
          · exact (List.prefix_of_prefix_length_le p1 p2 hl.le).eq_of_length hl
          · exfalso
            have := ha.prefixes k a[k] (List.getElem?_eq_getElem hak) b[k].length (List.length_pos_iff.2 hneb) hl
            rw [← List.prefix_iff_eq_take.1 (List.prefix_of_prefix_length_le p2 p1 hl.le), h2] at this
            exact hnewb this
        rw [List.take_succ_eq_append_getElem hak, List.take_succ_eq_append_getElem hbk, h2, heq]
      · exfalso
        have hbe : b.take k = b := List.take_of_length_le (by omega)
        rw [ea, h2, hbe, List.append_assoc, List.append_cancel_left_eq, List.append_assoc] at h
        have p1 : a[k] <+: tail := by rw [h]; exact List.prefix_append _ _
        rcases htail with rfl | ht
        · exact hne (List.prefix_nil.1 p1)
        · apply hnew
          rw [h2, hbe]
          obtain ⟨i, hi, rfl⟩ := List.mem_iff_getElem.1 ht
          rcases p1.length_le.eq_or_lt with he | hl
          · rw [p1.eq_of_length he]; exact ht
          · have := hb.prefixes i b[i] (List.getElem?_eq_getElem hi) a[k].length (List.length_pos_iff.2 hne) hl
            rw [← List.prefix_iff_eq_take.1 p1] at this
            exact List.mem_of_mem_take this
  obtain ⟨h1, h2⟩ := key a.length le_rfl
  rw [List.take_length] at h2
  rw [h2]
  exact List.take_prefix _ _

/-- C227.  When symbols are appended to a message, its dictionary stays, in the same order, and grows by at
most one word per symbol. -/
theorem C227_append (msg more : List α) (lib lib' : List (List α)) (h : lempelzivLib msg = .ok lib)
    (h' : lempelzivLib (msg ++ more) = .ok lib') :
    lib <+: lib' ∧ lib'.length ≤ lib.length + more.length := by
  cases msg with
  | nil => cases h
  | cons c msg =>
    obtain ⟨l1, t1, a1, -, a2, a3, a4, a5, a6⟩ := C72_dictionary c msg
    obtain ⟨l2, t2, b1, -, b2, b3, b4, b5, b6⟩ := C72_dictionary c (msg ++ more)
    rw [h] at a1
    rw [List.cons_append, b1] at h'
    cases a1
    cases h'
    have pa : Parse lib := ⟨a2, a3, a6⟩
    have pb : Parse lib' := ⟨b2, b3, b6⟩
    have hcat : lib'.flatten ++ t2 = lib.flatten ++ (t1 ++ more) := by
      rw [b4, ← List.append_assoc, a4, List.cons_append]
    have hp := parse_prefix pa pb (t1 ++ more) t2 hcat b5
    refine ⟨hp, ?_⟩
    obtain ⟨cs, rfl⟩ := hp
    rw [List.flatten_append, List.append_assoc, List.append_cancel_left_eq] at hcat
    rw [List.length_append]
    cases cs with
    | nil => simp
    | cons w ws =>
      have hw : t1.length < w.length := by
        by_contra hle
        have hle := not_lt.1 hle
        have p1 : w <+: t1 ++ more := by
          rw [← hcat, List.flatten_cons, List.append_assoc]
          exact List.prefix_append _ _
        have p2 : w <+: t1 := List.prefix_of_prefix_length_le p1 (List.prefix_append _ _) hle
        have hwne : w ≠ [] := b3 w (by simp)
        have hnew : w ∉ lib := by
          intro hm
          exact (List.nodup_append.1 b2).2.2 w hm w (by simp) rfl
        rcases a5 with rfl | ht
        · exact hwne (List.prefix_nil.1 p2)
        · obtain ⟨i, hi, rfl⟩ := List.mem_iff_getElem.1 ht
          rcases p2.length_le.eq_or_lt with he | hl
          · rw [p2.eq_of_length he] at hnew; exact hnew ht
          · have := a6 i lib[i] (List.getElem?_eq_getElem hi) w.length (List.length_pos_iff.2 hwne) hl
            rw [← List.prefix_iff_eq_take.1 p2] at this
            exact hnew (List.mem_of_mem_take this)
      have hws : ∀ l : List (List α), (∀ x ∈ l, x ≠ []) → l.length ≤ l.flatten.length := by
        intro l
        induction l with
        | nil => simp
        | cons y l ih =>
          intro hl
          have h1 := ih fun x hx => hl x (by simp [hx])
          have h2 := List.length_pos_iff.2 (hl y (by simp))
          rw [List.flatten_cons, List.length_append, List.length_cons]
          omega
      have h1 := hws ws fun x hx => b3 x (by simp [hx])
      have h2 := congrArg List.length hcat
      rw [List.flatten_cons, List.length_append, List.length_append, List.length_append] at h2
      rw [List.length_cons]
      omega

/-- One appended symbol may add no word or one. -/
example : lempelzivLib ['a', 'b', 'a'] = .ok [['a'], ['b']] ∧
    lempelzivLib ['a', 'b', 'a', 'b'] = .ok [['a'], ['b'], ['a', 'b']] := by
  decide +kernel

end FinML.Entropy
