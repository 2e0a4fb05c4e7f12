import Verif.Model.Translation
import Verif.Model.FloatMie

/-!
# `get_vl1l2` (translation.py:172-200) in rounded arithmetic

One wavenumber at a time, as in `Model/Translation`.  `bes` is the computed row of `trans_bessels`, `g` the computed array of `gaunt`.
Simplification: small integers, their products and signs are exact.
-/

namespace CasSph.FlMie

variable (A : FlMie)

/-- translation.py:188-194, the entry `lpp` of `common_ab`; `s` is the entry of `sphB_gnt`. -/
noncomputable def common (ext : Bool) (m : ℤ) (l1 l2 lpp : ℕ) (s : ℝ) : ℝ :=
  let e : ℤ := if ext then 1 else 0
  A.mul (A.mul (A.mul (A.mul ((-1) ^ ((lpp : ℤ) - ((lpp : ℤ) - 1) * e) * (-1) ^ m) (A.sqrt A.pi)) s)
    (A.sqrt (A.div (2 * lpp + 1) (l1 * (l1 + 1) * (l2 * (l2 + 1)))))) (A.pow (A.div 2 A.pi) (if ext then 1 else 0))

/-- translation.py:172-200 `get_vl1l2(l1, l2)`; `sum` is numpy's sum. -/
noncomputable def getVl1l2 (sum : (p : ℕ) → (Fin p → ℝ) → ℝ) (ext : Bool) (m : ℤ) (nL : ℝ) (bes g : List ℝ) (l1 l2 : ℕ) : Res VCoef := do
  let lpp := lppArr l1 l2
  let sphB ← lpp.mapM (cget bes)
  let norm ← cget sphB (if ext then sphB.length - 1 else 0)
  if g.length ≠ lpp.length then .error .valueError
  else
    let q : ℕ → ℝ := fun i => A.common ext m l1 l2 (lpp.getD i 0) (A.mul (A.exp (A.sub (sphB.getD i 0) norm)) (g.getD i 0))
    let l1p : ℝ := l1 * (l1 + 1)
    let l2p : ℝ := l2 * (l2 + 1)
    let vEE : ℕ → ℝ := fun i => A.mul (l1p + l2p - lpp.getD i 0 * (lpp.getD i 0 + 1)) (q i)
    let vEM : ℕ → ℝ := fun i => A.mul (A.mul (2 * m) nL) (q i)
    .ok { EEab := sum lpp.length fun i => vEE i
          EEba := sum lpp.length fun i => A.mul (vEE i) ((-1) ^ lpp.getD i 0)
          EMab := sum lpp.length fun i => vEM i
          EMba := sum lpp.length fun i => A.mul (-vEM i) ((-1) ^ lpp.getD i 0)
          sk := norm }

end CasSph.FlMie
