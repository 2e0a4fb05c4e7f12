import Verif.Model.Pair
import Verif.Model.PFA

/-! # Model of the energy at zero temperature, `CasimirRio/thermodynamics.py` lines 105-115

`scipy.integrate.quad` is the parameter `Quad` of `Model/PFA`; only its first result (the value) is modelled, the error estimate
returned beside it is not.  `quad` takes the array with one element returned by the integrand as a number. -/

namespace CasSph

open scoped Classical

/-- geometry.py:491-516 `mSumme(np.array([x]))`: zero is passed on to `mSumme_k0`.  (Negative wavenumbers are outside the model.) -/
noncomputable def pairAt (T : BesTable) (frac : ℝ → ℝ → ℝ) (P : PairIn) (x : ℝ) : Res ℝ :=
  if x = 0 then pairK0 frac P else do
    let vs ← pairVals T P [x]
    .ok (vs.headD 0)

/-- The argument `b` of `e0`: a number, `np.inf` (the default) or `None`. -/
inductive Upper where
  | num (b : ℝ)
  | inf
  | none

/-- thermodynamics.py:105-115 `e0(a, b)`: `self.geometry.mSumme` integrated from `a` to `b`, where `None` stands for
`self.nmax*self.deltaT`.  (`evaluation` and `analytic_n0` are not looked at.) -/
noncomputable def e0 (q : Quad) (f : ℝ → Res ℝ) (deltaT : ℝ) (nmax : ℤ) (a : ℝ) : Upper → Res ℝ
  | .num b => q.fin f a b
  | .inf => q.inf f a
  | .none => q.fin f a (nmax * deltaT)

end CasSph
