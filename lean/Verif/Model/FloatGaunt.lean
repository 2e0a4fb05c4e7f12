import Verif.Model.Gaunt
import Verif.Model.FloatZero

/-!
# `gaunt` (cython_gaunt.pyx:19-67) in rounded arithmetic

`lgam` is C's `lgamma`.  Simplification: integers and the integer expressions `p*p-a2`, `p*p-b2`, `4*p*p-1`, `4*m*m`,
`l*lp-m**2*(2*lppmax-1)` are exact; every other operation is rounded.
-/

namespace CasSph.FlZero

variable (A : FlZero)

/-- cython_gaunt.pyx:36-41, the array `alphas`. -/
noncomputable def gauntAlphas (l lp : ℕ) : Res (List ℝ) :=
  let lppmin := ((l : ℤ) - lp).natAbs
  let a2 : ℝ := (l + lp + 1) ^ 2
  let b2 : ℝ := ((l : ℝ) - lp) ^ 2
  (List.range (l + lp - lppmin)).mapM fun idx : ℕ =>
    let p : ℝ := idx + lppmin + 1
    A.quot (A.mul (p * p - a2) (p * p - b2)) (4 * p * p - 1)

/-- cython_gaunt.pyx:43-48, the argument of `exp`, from left to right. -/
noncomputable def gauntLnMax (l lp : ℕ) (m : ℤ) : ℝ :=
  let s := A.sub (A.sub (A.sub (A.sub (A.sub (A.add (A.add (A.lgam (2 * l + 1)) (A.lgam (2 * lp + 1))) (A.mul 2 (A.lgam ((l + lp) + 1))))
    (A.lgam (l + 1))) (A.lgam (lp + 1))) (A.lgam (2 * (l + lp) + 1))) (A.lgam (l - m + 1))) (A.lgam (lp + m + 1))
  let h := A.mul 0.5 (A.sub (A.sub (A.add (A.lgam (l - m + 1)) (A.lgam (lp + m + 1))) (A.lgam (l + m + 1))) (A.lgam (lp - m + 1)))
  let q := A.mul 0.5 (A.sub (A.add (A.log (2 * l + 1)) (A.log (2 * lp + 1))) (A.log (A.mul 4 A.pi)))
  A.add (A.add s h) q

/-- cython_gaunt.pyx:58-61, one step of the downward recursion.  `acc` holds `gaunts[idx+1:]`. -/
noncomputable def gauntStep (alphas : List ℝ) (m : ℤ) (acc : List ℝ) (idx : ℕ) : Res (List ℝ) := do
  let g1 ← cget acc 0
  let g2 ← cget acc 1
  let x1 ← cget alphas (2 * idx + 1)
  let x2 ← cget alphas (2 * idx + 2)
  let x3 ← cget alphas (2 * idx + 3)
  let x0 ← cget alphas (2 * idx)
  let g ← A.quot (A.sub (A.mul (A.add (A.add (4 * (m : ℝ) * m) x1) x2) g1) (A.mul x3 g2)) x0
  .ok (g :: acc)

/-- cython_gaunt.pyx:52-56: the top element and, if there is more than one, the next lower one. -/
noncomputable def gauntStart (l lp : ℕ) (m : ℤ) (gauntdim : ℕ) : Res (List ℝ) :=
  let amax := A.exp (A.gauntLnMax l lp m)
  if gauntdim > 1 then do
    let q ← A.quot (A.mul (2 * ((l + lp : ℕ) : ℝ) - 3) ((l : ℝ) * lp - (m : ℝ) ^ 2 * (2 * ((l + lp : ℕ) : ℝ) - 1)))
      (A.mul (A.mul (2 * (l : ℝ) - 1) (2 * lp - 1)) ((l + lp : ℕ) : ℝ))
    .ok [A.mul amax q, amax]
  else .ok [amax]

/-- cython_gaunt.pyx:65, the final normalisation of element `idx`. -/
noncomputable def gauntNorm (lppmin : ℕ) (g : ℝ) (idx : ℕ) : Res ℝ :=
  A.quot g (A.sqrt (2 * ((lppmin : ℝ) + 2 * idx) + 1))

/-- cython_gaunt.pyx:19-67 `gaunt(l, lp, m)`. -/
noncomputable def gaunt (l lp : ℕ) (m : ℤ) : Res (List ℝ) :=
  let lppmax := l + lp
  let lppmin := ((l : ℤ) - lp).natAbs
  let gauntdim := (lppmax - lppmin) / 2 + 1
  if m.natAbs > min l lp then .ok (List.replicate gauntdim 0)
  else do
    let alphas ← A.gauntAlphas l lp
    let top ← A.gauntStart l lp m gauntdim
    let g ← (List.range (gauntdim - 2)).reverse.foldlM (A.gauntStep alphas m) top
    (List.zip g (List.range gauntdim)).mapM fun q => A.gauntNorm lppmin q.1 q.2

end CasSph.FlZero
