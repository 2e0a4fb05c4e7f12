import Verif.Model.FloatTrans
import Verif.Model.FloatGaunt
import Verif.Model.Pair

/-!
# `trans_ab` (translation.py:134-169) in rounded arithmetic

Two separate spheres, one non-zero wavenumber, everything that the translation coefficients are computed from: argument, Bessel functions,
Gaunt coefficients.  Simplification: the permittivity is the exact number that Model/Materials returns.
-/

namespace CasSph.FlZero

variable (A : FlZero)

/-- translation.py:52-53, 185, the argument `k*L*np.sqrt(epsilon(k))`. -/
noncomputable def transArg (k L e : ℝ) : ℝ := A.mul (A.mul k L) (A.sqrt e)

/-- translation.py:134-169 `trans_ab`: rows `l1 = lmin..lmax`, columns `l2 = lmin..lssmax`; translation.py:184, 172-200 for each entry. -/
noncomputable def transAb (sum : (p : ℕ) → (Fin p → ℝ) → ℝ) (lmax lssmax : ℕ) (m : ℤ) (nL : ℝ) (bes : List ℝ) :
    Res (Fin (lmax + 1 - transLmin m) → Fin (lssmax + 1 - transLmin m) → VCoef) :=
  finM fun i => finM fun j => do
    let g ← A.gaunt (transLmin m + i.1) (transLmin m + j.1) m
    A.getVl1l2 sum true m nL bes g (transLmin m + i.1) (transLmin m + j.1)

/-- geometry.py:154-155: `translation(lmax, lssmax, m, mat3, L, k, 1).trans_ab()` for two separate spheres. -/
noncomputable def transPair (sum : (p : ℕ) → (Fin p → ℝ) → ℝ) (P : PairIn) (k : ℝ) (m : ℕ) :
    Res (Fin (P.lmax + 1 - transLmin m) → Fin (P.lssmax + 1 - transLmin m) → VCoef) := do
  let e ← P.mat3.epsilon k
  let x := A.transArg k P.L e
  A.transAb sum P.lmax P.lssmax m x ((A.lnknu [x] (P.lmax + P.lssmax + 1)).headD [])

end CasSph.FlZero
