import Verif.Weights.UniqDoubleModel
import Verif.Weights.Props
import Verif.Bars.VwapDoubleProps

/-!
# Average uniqueness in doubles (C293)
-/

namespace FinML.Weights

open FinML.Alloc FinML.Filters FinML.Bars

theorem rsum_le_len {l : List ℚ} {s : ℚ} (h : RSum signedDouble l s) (h1 : ∀ x ∈ l, x ≤ 1) (hn : l.length < 2 ^ 53) :
    s ≤ l.length := by
  induction h with
  | one x => simpa using h1 x (by simp)
  | perm hp _ ih =>
    rw [← hp.length_eq]
    exact ih (fun x hx => h1 x (hp.mem_iff.1 hx)) (by rw [hp.length_eq]; exact hn)
  | @add l r s t _ _ ihl ihr =>
    rw [List.length_append] at hn ⊢
    have a := ihl (fun x hx => h1 x (by simp [hx])) (by omega)
    have b := ihr (fun x hx => h1 x (by simp [hx])) (by omega)
    have := signedDouble_mono (show s + t ≤ ((l.length + r.length : ℕ) : ℚ) by push_cast; linarith)
    rwa [signedDouble_nat _ hn] at this

theorem rsum_ones {l : List ℚ} {s : ℚ} (h : RSum signedDouble l s) (h1 : ∀ x ∈ l, x = 1) (hn : l.length < 2 ^ 53) :
    s = l.length := by
  induction h with
  | one x => simpa using h1 x (by simp)
  | perm hp _ ih =>
    rw [← hp.length_eq]
    exact ih (fun x hx => h1 x (hp.mem_iff.1 hx)) (by rw [hp.length_eq]; exact hn)
  | @add l r s t _ _ ihl ihr =>
    rw [List.length_append] at hn ⊢
    have a := ihl (fun x hx => h1 x (by simp [hx])) (by omega)
    have b := ihr (fun x hx => h1 x (by simp [hx])) (by omega)
    rw [a, b, show ((l.length : ℚ) + r.length) = ((l.length + r.length : ℕ) : ℚ) by push_cast; rfl, signedDouble_nat _ hn]

theorem sd_half_int (n : ℕ) (hn : n < 2 ^ 53) : signedDouble ((n : ℚ) / 2) = n / 2 := by
  have := signedDouble_int n (-1) (by rw [abs_of_nonneg (by positivity)]; exact_mod_cast hn)
  simpa [div_eq_mul_inv] using this

theorem rsum_half {l : List ℚ} {s : ℚ} (h : RSum signedDouble l s) (h1 : ∀ x ∈ l, x ≤ 1) (hx : ∃ x ∈ l, x ≤ 1 / 2)
    (hn : l.length < 2 ^ 52) : s ≤ ((2 * l.length - 1 : ℕ) : ℚ) / 2 := by
  induction h with
  | one x =>
    obtain ⟨y, hy, hy2⟩ := hx
    rw [List.mem_singleton] at hy
    subst hy
    simpa using hy2
  | perm hp _ ih =>
    rw [← hp.length_eq]
    exact ih (fun x hx => h1 x (hp.mem_iff.1 hx)) (by
      obtain ⟨x, hx, hx2⟩ := hx
      exact ⟨x, hp.mem_iff.2 hx, hx2⟩) (by rw [hp.length_eq]; exact hn)
  | @add l r s t hl hr ihl ihr =>
    rw [List.length_append] at hn ⊢
    have hl1 : ∀ x ∈ l, x ≤ 1 := fun x hx => h1 x (by simp [hx])
    have hr1 : ∀ x ∈ r, x ≤ 1 := fun x hx => h1 x (by simp [hx])
    have hll := (rsum_len hl)
    have hrl := (rsum_len hr)
    obtain ⟨x, hx, hx2⟩ := hx
    have key : s + t ≤ ((2 * (l.length + r.length) - 1 : ℕ) : ℚ) / 2 := by
      have e1 : ((2 * (l.length + r.length) - 1 : ℕ) : ℚ) = 2 * (l.length + r.length) - 1 := by
        rw [Nat.cast_sub (by omega)]; push_cast; ring
      have e2 : ((2 * l.length - 1 : ℕ) : ℚ) = 2 * l.length - 1 := by rw [Nat.cast_sub (by omega)]; push_cast; ring
      have e3 : ((2 * r.length - 1 : ℕ) : ℚ) = 2 * r.length - 1 := by rw [Nat.cast_sub (by omega)]; push_cast; ring
      rw [e1]
      rcases List.mem_append.1 hx with hx | hx
      · have a := ihl hl1 ⟨x, hx, hx2⟩ (by omega)
        have b := rsum_le_len hr hr1 (by omega)
        rw [e2] at a
        linarith
      · have a := ihr hr1 ⟨x, hx, hx2⟩ (by omega)
        have b := rsum_le_len hl hl1 (by omega)
        rw [e3] at a
        linarith
    have := signedDouble_mono key
    rwa [sd_half_int _ (by omega)] at this
where
  rsum_len {l : List ℚ} {s : ℚ} (h : RSum signedDouble l s) : 1 ≤ l.length := by
    induction h with
    | one x => simp
    | perm hp _ ih => rw [← hp.length_eq]; exact ih
    | add _ _ ihl _ => rw [List.length_append]; omega

/-- The average uniqueness of an event computed in doubles. -/
def avgUniqR (sm : List ℚ → ℚ) (bars : List ℤ) (events : List (ℤ × ℤ)) (e : ℤ × ℤ) : ℚ :=
  signedDouble (sm ((barsOf bars e).map fun t => signedDouble (1 / (running events t : ℚ))) / ((barsOf bars e).length : ℚ))

theorem meanOptR_map_some {α : Type} (rd : ℚ → ℚ) (sm : List ℚ → ℚ) (l : List α) (f : α → ℚ) :
    meanOptR rd sm (l.map fun a => some (f a)) =
      if l = [] then none else some (rd (sm (l.map f) / (l.length : ℚ))) := by
  have : (l.map fun a => some (f a)).mapM id = some (l.map f) := by
    induction l with
    | nil => rfl
    | cons a l ih => simp [ih]
  unfold meanOptR
  rw [this]
  cases l with
  | nil => rfl
  | cons a l => simp

theorem sliceUniquenessR_eq (sm : List ℚ → ℚ) (bars : List ℤ) (events : List (ℤ × ℤ)) (e : ℤ × ℤ) (he : e ∈ events) :
    sliceUniquenessR signedDouble sm (bars.map fun t => (t, running events t)) e =
      if barsOf bars e = [] then none else some (avgUniqR sm bars events e) := by
  unfold sliceUniquenessR slice avgUniqR
  rw [List.filter_map, List.map_map]
  have h1 : (bars.filter ((fun p : ℤ × ℕ => decide (e.1 ≤ p.1 ∧ p.1 ≤ e.2)) ∘
      fun t => (t, running events t))) = barsOf bars e := rfl
  rw [h1]
  have h2 : (barsOf bars e).map ((fun p : ℤ × ℕ => (fdiv (1 : ℚ) (p.2 : ℚ)).map signedDouble) ∘
      fun t => (t, running events t)) = (barsOf bars e).map fun t =>
        some (signedDouble (1 / (running events t : ℚ))) := by
    apply List.map_congr_left
    intro t ht
    unfold barsOf at ht
    rw [List.mem_filter] at ht
    have hpos := running_pos events t e he (by simpa using ht.2)
    simp only [Function.comp, fdiv]
    rw [if_neg (by exact_mod_cast hpos.ne')]
    rfl
  rw [h2, meanOptR_map_some]

theorem labelAvgUniquenessR_eq (sm : List ℚ → ℚ) (bars : List ℤ) (hs : bars.Pairwise (· < ·)) (hne : bars ≠ [])
    (events : List (ℤ × ℤ)) (hev : events ≠ []) (hord : (events.map Prod.fst).Pairwise (· < ·)) :
    labelAvgUniquenessR signedDouble sm bars (closedTimes events) = .ok (events.map fun e =>
      (e.1, if barsOf bars e = [] then none else some (avgUniqR sm bars events e))) := by
  obtain ⟨counts, hc, hre⟩ := reindex_counts bars hs hne events hev hord
  unfold labelAvgUniquenessR
  rw [hc, py_bind_ok, closedEvents_closedTimes]
  simp only [py_bind_ok, py_pure]
  congr 1
  rw [hre]
  rw [setLabel_fold (fun e : ℤ × ℤ => e.1)
    (fun e => sliceUniquenessR signedDouble sm (bars.map fun t => (t, running events t)) e) events (fun _ => none)
    (hord.imp ne_of_lt)]
  apply List.map_congr_left
  intro e he
  rw [sliceUniquenessR_eq sm bars events e he]

/-- C293.  C33 holds in doubles: with events ordered by distinct starts and fewer than 2^52 bars, the uniqueness
computed in doubles, in whatever order the mean adds, is in (0,1], is exactly 1 if and only if no other event runs on
one of the event's bars, and differs from the exact one by at most a fraction `(b + 1) * 2^-52` of it, `b` the number of
bars of the event. -/
theorem C293_uniqueness (sm : List ℚ → ℚ) (hsm : Adds sm) (bars : List ℤ) (hs : bars.Pairwise (· < ·)) (hne : bars ≠ [])
    (hlen : bars.length < 2 ^ 52)
    (events : List (ℤ × ℤ)) (hev : events ≠ []) (hord : (events.map Prod.fst).Pairwise (· < ·)) :
    ∃ res : Series (Option ℚ), labelAvgUniquenessR signedDouble sm bars (closedTimes events) = .ok res ∧
      List.Forall₂ (fun (e : ℤ × ℤ) r => r.1 = e.1 ∧
        ((∀ t ∈ bars, ¬ (e.1 ≤ t ∧ t ≤ e.2)) → r.2 = none) ∧
        ((∃ t ∈ bars, e.1 ≤ t ∧ t ≤ e.2) → ∃ u, r.2 = some u ∧ 0 < u ∧ u ≤ 1 ∧
          (u = 1 ↔ ∀ e' ∈ events, e' ≠ e → ∀ t ∈ bars, e.1 ≤ t → t ≤ e.2 → ¬ (e'.1 ≤ t ∧ t ≤ e'.2)) ∧
          |u - avgUniq ℚ bars events e| ≤
            (((barsOf bars e).length + 1 : ℕ) : ℚ) / 2 ^ 52 * avgUniq ℚ bars events e)) events res := by
  refine ⟨_, labelAvgUniquenessR_eq sm bars hs hne events hev hord, ?_⟩
  rw [List.forall₂_map_right_iff, List.forall₂_same]
  intro e he
  have hnd : events.Nodup := (List.Nodup.of_map Prod.fst (hord.imp ne_of_lt))
  refine ⟨rfl, ?_, ?_⟩
  · intro h
    have : barsOf bars e = [] := by
      unfold barsOf
      rw [List.filter_eq_nil_iff]
      intro t ht
      simpa using h t ht
    rw [if_pos this]
  rintro ⟨t0, ht0, h0⟩
  have hb : barsOf bars e ≠ [] :=
    List.ne_nil_of_mem (List.mem_filter.2 ⟨ht0, by simpa using h0⟩ : t0 ∈ barsOf bars e)
  simp only
  rw [if_neg hb]
  have hmem : ∀ t ∈ barsOf bars e, t ∈ bars ∧ e.1 ≤ t ∧ t ≤ e.2 := by
    intro t ht
    unfold barsOf at ht
    rw [List.mem_filter] at ht
    exact ⟨ht.1, by simpa using ht.2⟩
  have hrun : ∀ t ∈ barsOf bars e, 1 ≤ running events t := fun t ht => running_pos events t e he (hmem t ht).2
  have hle : (barsOf bars e).length ≤ bars.length := List.length_filter_le _ _
  have hlen0 : 0 < (barsOf bars e).length := List.length_pos_iff.2 hb
  set n := (barsOf bars e).length with hnn
  have hn0 : (0 : ℚ) < n := by exact_mod_cast hlen0
  set l := (barsOf bars e).map fun t => signedDouble (1 / (running events t : ℚ)) with hl
  have hln : l.length = n := by rw [hl, List.length_map]
  have hlne : l ≠ [] := by rw [hl]; simpa using hb
  have hld : ∀ x ∈ l, signedDouble x = x := by
    intro x hx
    obtain ⟨t, -, rfl⟩ := List.mem_map.1 hx
    exact signedDouble_idem _
  have hs := hsm.sum l hlne hld
  have hone : ∀ t ∈ barsOf bars e, running events t = 1 → signedDouble (1 / (running events t : ℚ)) = 1 := by
    intro t _ h
    rw [h]
    simpa using signedDouble_one
  have hhalf : ∀ t ∈ barsOf bars e, running events t ≠ 1 → signedDouble (1 / (running events t : ℚ)) ≤ 1 / 2 := by
    intro t ht h
    have h2 : 2 ≤ running events t := by have := hrun t ht; omega
    have h2' : (2 : ℚ) ≤ running events t := by exact_mod_cast h2
    have := signedDouble_mono (show 1 / (running events t : ℚ) ≤ ((1 : ℕ) : ℚ) / 2 by
      rw [div_le_div_iff₀ (by linarith) (by norm_num)]; push_cast; linarith)
    rw [sd_half_int 1 (by norm_num)] at this
    simpa using this
  have hl1 : ∀ x ∈ l, x ≤ 1 := by
    intro x hx
    obtain ⟨t, ht, rfl⟩ := List.mem_map.1 hx
    by_cases h : running events t = 1
    · exact (hone t ht h).le
    · linarith [hhalf t ht h]
  -- accuracy
  have hpos : ∀ t ∈ barsOf bars e, (0 : ℚ) ≤ 1 / (running events t : ℚ) := fun t _ => by positivity
  obtain ⟨f, hf, nf⟩ := sum_near (barsOf bars e) (fun t => 1 / (running events t : ℚ))
    (fun t => signedDouble (1 / (running events t : ℚ))) 1 hpos (fun t _ => sd_factor _)
  obtain ⟨g, hg, ng, -⟩ := rsum_near hs (by
    intro x hx
    obtain ⟨t, ht, rfl⟩ := List.mem_map.1 hx
    have := signedDouble_mono (hpos t ht)
    rwa [show signedDouble 0 = 0 from Filters.sd_zero'] at this)
  rw [hln] at ng
  obtain ⟨c, hc, nc⟩ := sd_factor (sm l / n)
  have hu : avgUniqR sm bars events e = avgUniq ℚ bars events e * (f * g * c) := by
    unfold avgUniqR avgUniq
    rw [← hl, ← hnn, hc, hg, hl, hf]
    ring
  have hnear : Near (n + 1) (f * g * c) := near_mono (near_mul (near_mul nf ng) nc) (by omega)
  have hspos : 0 < ((barsOf bars e).map fun t => 1 / (running events t : ℚ)).sum := by
    refine List.sum_pos _ ?_ (by simpa using hb)
    intro x hx
    obtain ⟨t, ht, rfl⟩ := List.mem_map.1 hx
    have : (0 : ℚ) < running events t := by exact_mod_cast hrun t ht
    positivity
  have hex : 0 < avgUniq ℚ bars events e := by
    unfold avgUniq
    exact div_pos hspos hn0
  have hall : (∀ t ∈ barsOf bars e, running events t = 1) → avgUniqR sm bars events e = 1 := by
    intro h
    unfold avgUniqR
    rw [← hl, ← hnn, rsum_ones hs (by
      intro x hx
      obtain ⟨t, ht, rfl⟩ := List.mem_map.1 hx
      exact hone t ht (h t ht)) (by omega), hln, div_self hn0.ne', signedDouble_one]
  have hsome : (∃ t ∈ barsOf bars e, running events t ≠ 1) → avgUniqR sm bars events e < 1 := by
    rintro ⟨t, ht, h⟩
    have h1 := rsum_half hs hl1 ⟨_, List.mem_map_of_mem ht, hhalf t ht h⟩ (by omega)
    rw [hln] at h1
    have e1 : ((2 * n - 1 : ℕ) : ℚ) = 2 * n - 1 := by rw [Nat.cast_sub (by omega)]; push_cast; ring
    rw [e1] at h1
    have hnb : (n : ℚ) ≤ 2 ^ 52 := by
      have : n ≤ 2 ^ 52 := by omega
      exact_mod_cast this
    have h2 : sm l / n ≤ ((2 ^ 53 - 1 : ℤ) : ℚ) * (2 : ℚ) ^ (-53 : ℤ) := by
      rw [div_le_iff₀ hn0]
      have : ((2 ^ 53 - 1 : ℤ) : ℚ) * (2 : ℚ) ^ (-53 : ℤ) = 1 - 1 / 2 ^ 53 := by norm_num
      rw [this]
      have h3 : (1 - 1 / 2 ^ 53 : ℚ) * n = n - n / 2 ^ 53 := by ring
      rw [h3]
      have h4 : (n : ℚ) / 2 ^ 53 ≤ 1 / 2 := by rw [div_le_iff₀ (by norm_num)]; linarith
      linarith
    have h3 := signedDouble_mono h2
    rw [signedDouble_int _ _ (by norm_num)] at h3
    unfold avgUniqR
    rw [← hl, ← hnn]
    refine lt_of_le_of_lt h3 (by norm_num)
  refine ⟨_, rfl, ?_, ?_, ?_, near_close (by omega) hex.le hu hnear⟩
  · rw [hu]
    exact mul_pos hex (near_pos hnear)
  · by_cases h : ∀ t ∈ barsOf bars e, running events t = 1
    · exact (hall h).le
    · push Not at h
      exact (hsome h).le
  · constructor
    · intro h e' he' hne' t ht h4 h5
      have htm : t ∈ barsOf bars e := List.mem_filter.2 ⟨ht, by simp [h4, h5]⟩
      have h8 : running events t = 1 := by
        by_contra hcon
        exact absurd h (hsome ⟨t, htm, hcon⟩).ne
      exact (running_eq_one_iff events hnd t e he ⟨h4, h5⟩).1 h8 e' he' hne'
    · intro h
      refine hall fun t ht => ?_
      obtain ⟨h4, h5⟩ := hmem t ht
      exact (running_eq_one_iff events hnd t e he h5).2 (fun e' he' hne' => h e' he' hne' t h4 h5.1 h5.2)

/-- The hypotheses can be met: two events that share one of their bars. -/
example : Adds (leftSum signedDouble) ∧ ([1, 2, 3] : List ℤ).Pairwise (· < ·) ∧
    (([(1, 2), (2, 3)] : List (ℤ × ℤ)).map Prod.fst).Pairwise (· < ·) ∧
    labelAvgUniquenessR signedDouble (leftSum signedDouble) [1, 2, 3] (closedTimes [(1, 2), (2, 3)]) =
      .ok [(1, some (3 / 4)), (2, some (3 / 4))] :=
  ⟨C286_sum, by decide, by decide, by decide +kernel⟩

end FinML.Weights
