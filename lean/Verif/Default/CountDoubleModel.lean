import Verif.Default.Model

/-!
# The number of defaults in doubles, systematic_default.py:218-239, 262-263

`Verif/Default/Model.lean` adds and multiplies exactly; here every operation goes through a rounding `rd`.  The outer
product of two vectors has one product per entry.
-/

namespace FinML.Default

variable {K : Type} [Field K]

/-- `default_vec[i] += x`, systematic_default.py:230, rounded. -/
def addAtR (rd : K → K) (vec : List K) (i : ℕ) (x : K) : List K := vec.modify i fun y => rd (y + x)

/-- The two nested loops over the outer product of two vectors, systematic_default.py:224-232, rounded. -/
def convolveR (rd : K → K) (a b : List K) : List K :=
  (List.range a.length).foldl
    (fun vec j => (List.range b.length).foldl
      (fun vec k => addAtR rd vec (j + k) (rd (a.getD j 0 * b.getD k 0))) vec)
    (List.replicate (a.length + b.length - 1) 0)

/-- systematic_default.py:224-233, rounded. -/
def convolvePyR (rd : K → K) (a b : List K) : Py (List K) :=
  if a.length + b.length = 0 then .error .valueError else .ok (convolveR rd a b)

/-- One pass over the vectors, systematic_default.py:223-237, rounded. -/
def pairUpR (rd : K → K) : List (List K) → Py (List (List K))
  | a :: b :: rest => do
    let c ← convolvePyR rd a b
    let cs ← pairUpR rd rest
    return c :: cs
  | rest => .ok rest

theorem pairUpR_length (rd : K → K) : ∀ {l l' : List (List K)}, pairUpR rd l = .ok l' → l'.length = (l.length + 1) / 2
  | [], l', h => by
    simp only [pairUpR, Except.ok.injEq] at h
    subst h; simp
  | [_], l', h => by
    simp only [pairUpR, Except.ok.injEq] at h
    subst h; simp
  | a :: b :: rest, l', h => by
    unfold pairUpR at h
    cases hc : convolvePyR rd a b with
    | error e => rw [hc] at h; cases h
    | ok c =>
      rw [hc] at h
      cases hr : pairUpR rd rest with
      | error e => rw [hr] at h; cases h
      | ok cs =>
        rw [hr] at h
        have hl := pairUpR_length rd hr
        cases h
        simp only [List.length_cons, hl]
        omega

/-- The `while` loop, systematic_default.py:221-237, rounded. -/
def mergeAllR (rd : K → K) (l : List (List K)) : Py (List (List K)) :=
  if 1 < l.length then
    match _h : pairUpR rd l with
    | .ok l' => mergeAllR rd l'
    | .error e => .error e
  else .ok l
termination_by l.length
decreasing_by
  have := pairUpR_length rd _h
  omega

/-- `get_default_count_probs`, systematic_default.py:218-239, rounded. -/
def getDefaultCountProbsR (rd : K → K) (vectors : List (List K)) : Py (List K) := do
  let l ← mergeAllR rd vectors
  pyGet l 0

/-- The vectors `np.array([1 - p, p])`, systematic_default.py:262-263, rounded. -/
def systematicDefaultProbsR (rd : K → K) (probs : List K) : Py (List K) :=
  getDefaultCountProbsR rd (probs.map fun p => [rd (1 - p), p])

end FinML.Default
