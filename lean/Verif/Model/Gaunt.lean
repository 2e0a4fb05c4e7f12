import Verif.Model.Py
import Mathlib.Analysis.SpecialFunctions.Gamma.Basic
import Mathlib.Analysis.SpecialFunctions.Log.Basic
import Mathlib.Analysis.SpecialFunctions.Sqrt
import Mathlib.Analysis.Real.Pi.Bounds

/-!
# Model of CasimirRio/cython_gaunt.pyx

The C `int` arguments `l, lp` are natural numbers and `m` an integer (no overflow); doubles are reals.
`M_PI` (line 31) is written as 3.14159265358979328462, which rounds to the same double as π; it is
modelled as π.  A division by zero (which under `cdivision(True)` would silently produce inf/nan) is the
error value `zeroDivisionError`, and an access outside an array (undefined behaviour under
`boundscheck(False)`) is `indexError`.
-/

namespace CasSph

open Classical

/-- C division of doubles; a vanishing divisor is an error. -/
noncomputable def cdiv (a b : ℝ) : Res ℝ := if b = 0 then .error .zeroDivisionError else .ok (a / b)

/-- Array access; outside the bounds an error. -/
def cget (v : List ℝ) (i : ℕ) : Res ℝ :=
  match v[i]? with
  | none => .error .indexError
  | some x => .ok x

/-- C `lgamma`. -/
noncomputable def lgam (x : ℝ) : ℝ := Real.log |Real.Gamma x|

/-- cython_gaunt.pyx:36-41, the array `alphas`. -/
noncomputable def gauntAlphas (l lp : ℕ) : Res (List ℝ) :=
  let lppmin := ((l : ℤ) - lp).natAbs
  let a2 : ℝ := (l + lp + 1) ^ 2
  let b2 : ℝ := ((l : ℝ) - lp) ^ 2
  (List.range (l + lp - lppmin)).mapM fun idx : ℕ =>
    let p : ℝ := idx + lppmin + 1
    cdiv ((p * p - a2) * (p * p - b2)) (4 * p * p - 1)

/-- cython_gaunt.pyx:42-49, the logarithm of `amax`. -/
noncomputable def gauntLnMax (l lp : ℕ) (m : ℤ) : ℝ :=
  lgam (2 * l + 1) + lgam (2 * lp + 1) + 2 * lgam ((l + lp) + 1) -
    lgam (l + 1) - lgam (lp + 1) - lgam (2 * (l + lp) + 1) -
    lgam (l - m + 1) - lgam (lp + m + 1) +
    0.5 * (lgam (l - m + 1) + lgam (lp + m + 1) - lgam (l + m + 1) - lgam (lp - m + 1)) +
    0.5 * (Real.log (2 * l + 1) + Real.log (2 * lp + 1) - Real.log (4 * Real.pi))

/-- cython_gaunt.pyx:57-61, one step of the downward recursion.  `acc` holds `gaunts[idx+1:]`. -/
noncomputable def gauntStep (alphas : List ℝ) (m : ℤ) (acc : List ℝ) (idx : ℕ) : Res (List ℝ) := do
  let g1 ← cget acc 0
  let g2 ← cget acc 1
  let x1 ← cget alphas (2 * idx + 1)
  let x2 ← cget alphas (2 * idx + 2)
  let x3 ← cget alphas (2 * idx + 3)
  let x0 ← cget alphas (2 * idx)
  let g ← cdiv ((4 * (m : ℝ) * m + x1 + x2) * g1 - x3 * g2) x0
  .ok (g :: acc)

/-- cython_gaunt.pyx:52-56: the top element and, if there is more than one, the next lower one. -/
noncomputable def gauntStart (l lp : ℕ) (m : ℤ) (gauntdim : ℕ) : Res (List ℝ) :=
  let amax := Real.exp (gauntLnMax l lp m)
  if gauntdim > 1 then do
    let q ← cdiv ((2 * ((l + lp : ℕ) : ℝ) - 3) * ((l : ℝ) * lp - (m : ℝ) ^ 2 * (2 * ((l + lp : ℕ) : ℝ) - 1)))
      ((2 * (l : ℝ) - 1) * (2 * lp - 1) * ((l + lp : ℕ) : ℝ))
    .ok [amax * q, amax]
  else .ok [amax]

/-- cython_gaunt.pyx:64-65, the final normalisation of element `idx`. -/
noncomputable def gauntNorm (lppmin : ℕ) (g : ℝ) (idx : ℕ) : Res ℝ :=
  cdiv g (Real.sqrt (2 * ((lppmin : ℝ) + 2 * idx) + 1))

/-- cython_gaunt.pyx:19-67 `gaunt(l, lp, m)`. -/
noncomputable def gaunt (l lp : ℕ) (m : ℤ) : Res (List ℝ) :=
  let lppmax := l + lp
  let lppmin := ((l : ℤ) - lp).natAbs
  let gauntdim := (lppmax - lppmin) / 2 + 1
  if m.natAbs > min l lp then .ok (List.replicate gauntdim 0)
  else do
    let alphas ← gauntAlphas l lp
    let top ← gauntStart l lp m gauntdim
    let g ← (List.range (gauntdim - 2)).reverse.foldlM (gauntStep alphas m) top
    (List.zip g (List.range gauntdim)).mapM fun q => gauntNorm lppmin q.1 q.2

end CasSph
