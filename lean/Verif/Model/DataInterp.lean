import Verif.Model.Helpers

/-!
# Model of CasimirRio/data_inter_extrapolation.py and of num_derivative with interpolation

Doubles are reals.  `scipy.optimize.curve_fit` is a parameter.
-/

namespace CasSph

open scoped Classical

/-- the first element of a numpy array -/
def first {α : Type} (l : List α) : Res α := match l.head? with
  | some x => .ok x
  | none => .error .indexError

/-- the last element of a numpy array, `a[-1]` -/
def last {α : Type} (l : List α) : Res α := match l.getLast? with
  | some x => .ok x
  | none => .error .indexError

/-- `scipy.interpolate.interp1d(x, y)` at a point: linear interpolation between the neighbours, for data (pairs of `x`
and `y`) in increasing order of `x`. -/
noncomputable def linInterp : List (ℝ × ℝ) → ℝ → ℝ
  | [], _ => 0
  | [(_, y)], _ => y
  | (x0, y0) :: (x1, y1) :: rest, p =>
    if p ≤ x1 ∨ rest = [] then y0 + (p - x0) * ((y1 - y0) / (x1 - x0)) else linInterp ((x1, y1) :: rest) p

/-- the interpolator applied to an array: points outside the data are a ValueError -/
noncomputable def interpCall (data : List (ℝ × ℝ)) (pts : List ℝ) : Res (List ℝ) := do
  let a ← first data
  let b ← last data
  if ∃ p ∈ pts, p < a.1 ∨ b.1 < p then .error .valueError else .ok (pts.map (linInterp data))

/-- data_inter_extrapolation.py:12-15, an instance of `data_interp_extrap`, with the outcome of
`curve_fit(epsilon_drude, xdata, ydata)` -/
structure DataIE where
  data : List (ℝ × ℝ)
  fit : Res (ℝ × ℝ)

/-- data_inter_extrapolation.py:29-30 `epsilon_drude` (numpy division: for `omega = 0` the code gives `inf`, the model
does not) -/
noncomputable def epsDrude (wp g w : ℝ) : ℝ := 1 + wp ^ 2 / (w * g + w ^ 2)

/-- data_inter_extrapolation.py:17-27 `interpolate` -/
noncomputable def DataIE.interpolate (D : DataIE) (xs : List ℝ) : Res (List ℝ × ℝ × ℝ) := do
  let x0 ← first D.data
  let xl ← first (xs.filter fun x => x > x0.1)
  let xN ← last D.data
  let xu ← last (xs.filter fun x => x < xN.1)
  let v ← interpCall D.data (xs.filter fun x => x ≥ xl ∧ x ≤ xu)
  .ok (v, xl, xu)

/-- data_inter_extrapolation.py:32-38 `fit`, with the fitted parameters -/
noncomputable def DataIE.fitted (D : DataIE) (xs : List ℝ) : Res (List ℝ) := do
  let p ← D.fit
  .ok (xs.map (epsDrude p.1 p.2))

/-- data_inter_extrapolation.py:40-54 `get_drude_data` for an array of frequencies (a Python float is an array with one
entry, lines 41-42) -/
noncomputable def DataIE.getDrudeData (D : DataIE) (w : List ℝ) : Res (List ℝ) :=
  if w.length = 1 then .ok (w.map (epsDrude (1.4e16 / 3e14) (5.3e13 / 3e14)))
  else do
    let (d2, xl, xu) ← D.interpolate w
    let d1 ← D.fitted (w.filter fun x => x < xl)
    let d3 ← D.fitted (w.filter fun x => x > xu)
    .ok (d1 ++ d2 ++ d3)

/-- `np.linspace(a, b, n+1)` -/
noncomputable def linspace (a b : ℝ) (n : ℕ) : List ℝ := (List.range (n + 1)).map fun j : ℕ => a + j * ((b - a) / n)

/-- `a[::m]` for `m ≥ 1` -/
def everyNth (l : List ℝ) (m : ℕ) : List ℝ := (List.range ((l.length + m - 1) / m)).map fun i => l.getD (i * m) 0

/-- helper_functions.py:24-54 `num_derivative(f, x, interpolate=True, multiplier=m)` for positive `x` in increasing
order, `f` of the same length and without zeros if it has one sign (logarithms of other numbers are `nan` or `-inf`),
`m ≥ 1`.  The plot of line 42 is left out. -/
noncomputable def numDerivativeInterp (f x : List ℝ) (m : ℕ) : Res (List ℝ) := do
  let x1 ← cget x 1
  let x0 ← cget x 0
  let xN ← last x
  let h := x1 - x0
  if ¬ h > 0 then .error .valueError
  else
    let xnew := linspace x0 xN ((x.length - 1) * m)
    let h := h / m
    let f0 ← cget f 0
    let fnew ← if ∀ v ∈ f, SignType.sign f0 = SignType.sign v then do
        let v ← interpCall ((x.map Real.log).zip (f.map fun v => Real.log |v|)) (xnew.map Real.log)
        .ok (v.map fun v => (SignType.sign f0 : ℝ) * Real.exp v)
      else do
        let mn := f.foldr min f0
        let v ← interpCall ((x.map Real.log).zip (f.map fun v => Real.log (v + |mn| + 1))) (xnew.map Real.log)
        .ok (v.map Real.exp)
    let d ← differences fnew h
    .ok (everyNth d m)

end CasSph
