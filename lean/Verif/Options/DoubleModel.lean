import Verif.Options.Model

/-!
# Binomial trees with rounding, option.py:188-242

The same computation as in `Verif/Options/Model.lean` with a rounding `rd` after every operation.  `exp`, `sqrt` and
`pow` are those of the library.  With `rd = id` and the real functions it is the exact model (`C292_without_rounding`).
-/

namespace FinML.Options

variable {K : Type} [Field K] [LinearOrder K]

/-- What the library computes, rounding included; option.py:210-218. -/
structure Lib (K : Type) where
  /-- rounding of a result -/
  rd : K → K
  /-- `np.exp` -/
  exp : K → K
  /-- `np.sqrt` -/
  sqrt : K → K
  /-- `x**j` -/
  pow : K → ℕ → K

/-- The numbers a tree is built from, option.py:209-213. -/
structure TreeR (K : Type) where
  u : K
  d : K
  p : K
  /-- `np.exp(-r*delta_t)` -/
  disc : K

/-- option.py:209-213; `none` where `p` is not finite, as in `mkTree`. -/
def mkTreeR (L : Lib K) (t r sigma q : K) (n : ℕ) : Option (TreeR K) :=
  let dt := L.rd (t / (n : K))
  let u := L.exp (L.rd (sigma * L.sqrt dt))
  let d := L.rd (1 / u)
  let a := L.exp (L.rd (L.rd (r - q) * dt))
  if dt < 0 ∨ L.rd (u - d) = 0 then none
  else some { u := u, d := d, p := L.rd (L.rd (a - d) / L.rd (u - d)), disc := L.exp (L.rd (-r * dt)) }

/-- The underlying after `j` ups and `i - j` downs, option.py:219, 221, 228. -/
def spotR (L : Lib K) (tr : TreeR K) (s0 : K) (i j : ℕ) : K :=
  L.rd (L.rd (s0 * L.pow tr.u j) * L.pow tr.d (i - j))

/-- The value of exercising, option.py:219-221 and 230-233.  `none` for other types. -/
def exerciseR (L : Lib K) (ot : OptionType) (s k : K) : Option K :=
  match ot with
  | .call => some (max (L.rd (s - k)) 0)
  | .put => some (max (L.rd (k - s)) 0)
  | _ => none

/-- `v_hold`, option.py:227. -/
def holdR (L : Lib K) (tr : TreeR K) (up down : K) : K :=
  L.rd (tr.disc * L.rd (L.rd (tr.p * up) + L.rd (L.rd (1 - tr.p) * down)))

/-- The payoffs of the last row, option.py:217-223. -/
def lastRowR (L : Lib K) (tr : TreeR K) (ex : K → K) (s0 : K) (n : ℕ) : List K :=
  (List.range (n + 1)).map fun j : ℕ => ex (spotR L tr s0 n j)

/-- One row from the next one, option.py:226-240; `early s` is `v_ex`. -/
def prevRowR (L : Lib K) (tr : TreeR K) (early : K → K) (s0 : K) (i : ℕ) (next : List K) : List K :=
  (List.range (i + 1)).map fun j : ℕ =>
    max (holdR L tr (next.getD (j + 1) 0) (next.getD j 0)) (early (spotR L tr s0 i j))

/-- The loop over rows, option.py:225: from row `i` down to row 0. -/
def backwardR (L : Lib K) (tr : TreeR K) (early : K → K) (s0 : K) : ℕ → List K → List K
  | 0, row => row
  | i + 1, row => backwardR L tr early s0 i (prevRowR L tr early s0 i row)

/-- `exerciseR` as a number, used where the type is a call or a put; option.py:229-233. -/
def payoffR (L : Lib K) (ot : OptionType) (k s : K) : K := (exerciseR L ot s k).getD 0

/-- `v_ex`, option.py:229-239; `none` for other exercise styles. -/
def earlyValueR (L : Lib K) (ot style : OptionType) (k : K) : Option (K → K) :=
  match style with
  | .american => some (payoffR L ot k)
  | .european => some fun _ => 0
  | _ => none

/-- `binom_option_price`, option.py:188-242. -/
def binomOptionPriceR (L : Lib K) (ot style : OptionType) (s0 k t r sigma q : K) (isFutures : Bool) (n : ℤ) :
    Py (Option K) :=
  if n = 0 then .error .zeroDivision
  else if n < 0 then .error .indexError
  else if (exerciseR L ot s0 k).isNone then .error .notImplemented
  else match earlyValueR L ot style k with
    | none => .error .notImplemented
    | some early => .ok ((mkTreeR L t r sigma (if isFutures then r else q) n.toNat).map fun tr =>
        (backwardR L tr early s0 n.toNat (lastRowR L tr (payoffR L ot k) s0 n.toNat)).getD 0 0)

end FinML.Options
