import Verif.Model.StratPair
import Verif.Model.ZeroTemp

/-! # Model of `mSumme` as the integrand of `e0`, for spheres made of several layers -/

namespace CasSph

open scoped Classical

/-- geometry.py:491-516 `mSumme(np.array([x]))`: zero is passed on to `mSumme_k0`, which raises NotImplementedError if one of the
materials is a list; see `pairAt`. -/
noncomputable def ballAt (T : BesTable) (frac : ℝ → ℝ → ℝ) (P : BallPair) (x : ℝ) : Res ℝ :=
  if x = 0 then ballK0 frac P else do
    let vs ← ballVals T P [x]
    .ok (vs.headD 0)

end CasSph
