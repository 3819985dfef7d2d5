import Verif.Metrics.RetProps

/-! # Property C251: moving return to a larger return raises the concentration -/

namespace FinML.Metrics

variable {K : Type} [Field K] [LinearOrder K] [IsStrictOrderedRing K]

omit [IsStrictOrderedRing K] in
theorem hhi_perm {l l' : List K} (h : l.Perm l') : hhi l = hhi l' := by
  unfold hhi
  simp only
  rw [h.length_eq, h.sum_eq, (((h.map fun r => fdiv r l'.sum).filterMap id).map fun w => w ^ 2).sum_eq]

/-- Moving `ε` between two returns of a list whose sum is not 0. -/
theorem hhi_shift {l : List K} {x y ε : K} (hs : (x :: y :: l).sum ≠ 0) (h : 0 < ε * (y - x + ε)) :
    ∃ h h' : K, hhi (x :: y :: l) = some h ∧ hhi ((x - ε) :: (y + ε) :: l) = some h' ∧ h < h' := by
  have hsum : ((x - ε) :: (y + ε) :: l).sum = (x :: y :: l).sum := by
    simp only [List.sum_cons]; ring
  have hlen : ((x - ε) :: (y + ε) :: l).length = (x :: y :: l).length := rfl
  refine ⟨_, _, hhi_eq _ hs (by simp), hhi_eq _ (hsum ▸ hs) (by simp), ?_⟩
  rw [hsum, hlen]
  have hn : (2 : K) ≤ ((x :: y :: l).length : K) := by
    have : 2 ≤ (x :: y :: l).length := by simp
    exact_mod_cast this
  have hd : (0 : K) < 1 - 1 / ((x :: y :: l).length : K) := by
    have : (1 : K) / ((x :: y :: l).length : K) ≤ 1 / 2 := one_div_le_one_div_of_le (by norm_num) hn
    have h2 : (1 : K) / 2 < 1 := by norm_num
    linarith
  have hS : 0 < (x :: y :: l).sum ^ 2 := by positivity
  refine div_lt_div_of_pos_right (sub_lt_sub_right (div_lt_div_of_pos_right ?_ hS) _) hd
  simp only [List.map_cons, List.sum_cons]
  nlinarith

/-- C251, gains: taking a gain `ε` from a return and adding it to one that is at least as large raises the
concentration of the gains and leaves that of the losses. -/
theorem C251_gains {rets rets' rest : List K} {x y ε : K} (h3 : 3 ≤ rets.length)
    (hr : rets.Perm (x :: y :: rest)) (hr' : rets'.Perm ((x - ε) :: (y + ε) :: rest)) (hε : 0 < ε) (hx : ε ≤ x)
    (hxy : x ≤ y) :
    (∃ h h' : K, (hhiConcentration rets).1 = some h ∧ (hhiConcentration rets').1 = some h' ∧ h < h') ∧
      (hhiConcentration rets').2 = (hhiConcentration rets).2 := by
  have hl : rets'.length = rets.length := by rw [hr.length_eq, hr'.length_eq]; rfl
  have p1 : (rets.filter fun r => 0 ≤ r).Perm (x :: y :: rest.filter fun r => 0 ≤ r) := by
    have := hr.filter fun r => 0 ≤ r
    rwa [List.filter_cons_of_pos (by simpa using hε.le.trans hx),
      List.filter_cons_of_pos (by simpa using (hε.le.trans hx).trans hxy)] at this
  have p2 : (rets'.filter fun r => 0 ≤ r).Perm ((x - ε) :: (y + ε) :: rest.filter fun r => 0 ≤ r) := by
    have := hr'.filter fun r => 0 ≤ r
    rwa [List.filter_cons_of_pos (by simpa using hx),
      List.filter_cons_of_pos (by simp only [decide_eq_true_eq]; linarith)] at this
  have n1 : (rets.filter fun r => r < 0).Perm (rest.filter fun r => r < 0) := by
    have := hr.filter fun r => r < 0
    rwa [List.filter_cons_of_neg (by simpa using hε.le.trans hx),
      List.filter_cons_of_neg (by simpa using (hε.le.trans hx).trans hxy)] at this
  have n2 : (rets'.filter fun r => r < 0).Perm (rest.filter fun r => r < 0) := by
    have := hr'.filter fun r => r < 0
    rwa [List.filter_cons_of_neg (by simpa using hx),
      List.filter_cons_of_neg (by simp only [decide_eq_true_eq, not_lt]; linarith)] at this
  have hpos : 0 < (x :: y :: rest.filter fun r => 0 ≤ r).sum := by
    have : 0 ≤ (rest.filter fun r => 0 ≤ r).sum :=
      List.sum_nonneg fun z hz => by simpa using (List.mem_filter.1 hz).2
    simp only [List.sum_cons]
    linarith
  have hsum : ((x - ε) :: (y + ε) :: rest.filter fun r => 0 ≤ r).sum =
      (x :: y :: rest.filter fun r => 0 ≤ r).sum := by simp only [List.sum_cons]; ring
  obtain ⟨a, b, e1, e2, e3⟩ := hhi_shift hpos.ne' (mul_pos hε (by linarith : 0 < y - x + ε))
  have q1 := hhi_perm p1
  have q2 := hhi_perm p2
  have l1 : (rets.filter fun r => 0 ≤ r).length ≠ 0 := by rw [p1.length_eq]; simp
  have l2 : (rets'.filter fun r => 0 ≤ r).length ≠ 0 := by rw [p2.length_eq]; simp
  unfold hhiConcentration
  rw [if_neg (by omega), if_neg (by omega)]
  refine ⟨⟨a, b, ?_, ?_, e3⟩, ?_⟩
  · simp only; rw [if_neg l1, q1, e1]
  · simp only; rw [if_neg l2, q2, e2]
  · have hnn := n2.trans n1.symm
    simp only
    rw [hnn.length_eq]
    rw [hhi_perm hnn]

/-- C251, losses: taking a loss `ε` from a return and adding it to one that is at least as bad raises the
concentration of the losses and leaves that of the gains. -/
theorem C251_losses {rets rets' rest : List K} {x y ε : K} (h3 : 3 ≤ rets.length)
    (hr : rets.Perm (x :: y :: rest)) (hr' : rets'.Perm ((x + ε) :: (y - ε) :: rest)) (hε : 0 < ε)
    (hx : x + ε < 0) (hxy : y ≤ x) :
    (∃ h h' : K, (hhiConcentration rets).2 = some h ∧ (hhiConcentration rets').2 = some h' ∧ h < h') ∧
      (hhiConcentration rets').1 = (hhiConcentration rets).1 := by
  have hl : rets'.length = rets.length := by rw [hr.length_eq, hr'.length_eq]; rfl
  have n1 : (rets.filter fun r => r < 0).Perm (x :: y :: rest.filter fun r => r < 0) := by
    have := hr.filter fun r => r < 0
    rwa [List.filter_cons_of_pos (by simp only [decide_eq_true_eq]; linarith),
      List.filter_cons_of_pos (by simp only [decide_eq_true_eq]; linarith)] at this
  have n2 : (rets'.filter fun r => r < 0).Perm ((x + ε) :: (y - ε) :: rest.filter fun r => r < 0) := by
    have := hr'.filter fun r => r < 0
    rwa [List.filter_cons_of_pos (by simpa using hx),
      List.filter_cons_of_pos (by simp only [decide_eq_true_eq]; linarith)] at this
  have p1 : (rets.filter fun r => 0 ≤ r).Perm (rest.filter fun r => 0 ≤ r) := by
    have := hr.filter fun r => 0 ≤ r
    rwa [List.filter_cons_of_neg (by simp only [decide_eq_true_eq, not_le]; linarith),
      List.filter_cons_of_neg (by simp only [decide_eq_true_eq, not_le]; linarith)] at this
  have p2 : (rets'.filter fun r => 0 ≤ r).Perm (rest.filter fun r => 0 ≤ r) := by
    have := hr'.filter fun r => 0 ≤ r
    rwa [List.filter_cons_of_neg (by simpa using hx),
      List.filter_cons_of_neg (by simp only [decide_eq_true_eq, not_le]; linarith)] at this
  have hneg : (x :: y :: rest.filter fun r => r < 0).sum < 0 := by
    have : 0 ≤ ((rest.filter fun r => r < 0).map fun z => -z).sum := by
      apply List.sum_nonneg
      intro w hw
      obtain ⟨z, hz, rfl⟩ := List.mem_map.1 hw
      have := (List.mem_filter.1 hz).2
      simp only [decide_eq_true_eq] at this
      linarith
    rw [sum_map_neg'] at this
    simp only [List.sum_cons]
    linarith
  have hsum : ((x + ε) :: (y - ε) :: rest.filter fun r => r < 0).sum =
      (x :: y :: rest.filter fun r => r < 0).sum := by simp only [List.sum_cons]; ring
  obtain ⟨a, b, e1, e2, e3⟩ := hhi_shift (ε := -ε) hneg.ne (by nlinarith : 0 < -ε * (y - x + -ε))
  rw [sub_neg_eq_add, ← sub_eq_add_neg] at e2
  have q1 := hhi_perm n1
  have q2 := hhi_perm n2
  have l1 : (rets.filter fun r => r < 0).length ≠ 0 := by rw [n1.length_eq]; simp
  have l2 : (rets'.filter fun r => r < 0).length ≠ 0 := by rw [n2.length_eq]; simp
  unfold hhiConcentration
  rw [if_neg (by omega), if_neg (by omega)]
  refine ⟨⟨a, b, ?_, ?_, e3⟩, ?_⟩
  · simp only; rw [if_neg l1, q1, e1]
  · simp only; rw [if_neg l2, q2, e2]
  · have hpp := p2.trans p1.symm
    simp only
    rw [hpp.length_eq, hhi_perm hpp]

/-- The returns 1, 3, -1, 2, -4 with 1 moved from the 2 to the 3, and from the loss of 1 half to the loss of 4. -/
example : hhiConcentration ([1, 3, -1, 2, -4] : List ℚ) = (some (1 / 12), some (9 / 25)) ∧
    hhiConcentration ([1, 4, -1, 1, -4] : List ℚ) = (some (1 / 4), some (9 / 25)) ∧
    hhiConcentration ([1, 3, -1 / 2, 2, -9 / 2] : List ℚ) = (some (1 / 12), some (16 / 25)) := by
  decide +kernel

end FinML.Metrics
