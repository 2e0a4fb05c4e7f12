import Verif.Model.Gaunt

/-!
# Model of CasimirRio/helper_functions.py

Doubles are reals; `gammaln` is `log |Γ|`.
-/

namespace CasSph

open Classical

/-- helper_functions.py:10-15 `ln_2dbl` -/
noncomputable def ln2dbl (x : ℝ) : ℝ := lgam (2 * x + 1) - x * Real.log 2 - lgam (x + 1)

/-- helper_functions.py:17-21 `lfac` -/
noncomputable def lfac (x : ℝ) : ℝ := lgam (x + 1)

/-- helper_functions.py:44-51, the difference formulas for step `h`.  For fewer than three values line 50 reads `f[2]`, an
IndexError; the assignments of lines 50 and 51 are executed left to right, after the loop -/
noncomputable def differences (f : List ℝ) (h : ℝ) : Res (List ℝ) :=
  if f.length < 3 then .error .indexError
  else
    let g : ℕ → ℝ := fun i => f.getD i 0
    let imax := f.length - 1
    let d5 : ℕ → ℝ := fun i => (-g (i + 2) + 8 * g (i + 1) - 8 * g (i - 1) + g (i - 2)) / (12 * h)
    let d2 : ℕ → ℝ := fun i => (g (i + 1) - g (i - 1)) / (2 * h)
    .ok ((List.range f.length).map fun i : ℕ =>
      if i = imax then (g imax - g (imax - 1)) / h
      else if i = 0 then (g 1 - g 0) / h
      else if i = imax - 1 then d2 (imax - 1)
      else if i = 1 then d2 1
      else d5 i)

/-- helper_functions.py:24-54 `num_derivative(f, x)` with `interpolate = False` -/
noncomputable def numDerivative (f x : List ℝ) : Res (List ℝ) := do
  let x1 ← cget x 1
  let x0 ← cget x 0
  let h := x1 - x0
  if ¬ h > 0 then .error .valueError
  else differences f h

end CasSph
