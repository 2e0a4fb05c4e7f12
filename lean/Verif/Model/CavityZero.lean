import Verif.Model.Cavity
import Verif.Model.ZeroTemp

/-! # Model of `mSumme` as the integrand of `e0`, for separate spheres and for a sphere inside a spherical cavity -/

namespace CasSph

open scoped Classical

/-- geometry.py:491-516 `mSumme(np.array([x]))`: zero is passed on to `mSumme_k0`; see `pairAt`. -/
noncomputable def geoAt (T : BesTable) (frac : ℝ → ℝ → ℝ) (lnK : ℝ → ℕ → ℝ) (P : PairIn) (x : ℝ) : Res ℝ :=
  if x = 0 then geoK0 frac lnK P else do
    let vs ← geoVals T P [x]
    .ok (vs.headD 0)

end CasSph
