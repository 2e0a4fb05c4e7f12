import Verif.Model.Translation
import Verif.Model.LinAlg
import Verif.Model.MSum

/-! # Model of the zero-frequency contribution of one `m`, `CasimirRio/geometry.py` lines 458-461 -/

namespace CasSph

/-- geometry.py:458-461 `single_m_k0(m)`, also the body of the loop of `mSumme_k0` (lines 463-469), for two separate
spheres: `blockmatrices_k0` followed by `sln_det_blockdiagonal`, whose `conv` keeps its default 0.9 (line 761).  Outer
`Option`: loop fuel of `balance`.  Inner `Option`: NaN.  The coefficients are those of a cache that was filled by a call with `m ≤ 1`, as in the
loop (C22). -/
noncomputable def singleMK0 (fuel lmax lssmax : ℕ) (m : ℤ) (r1 r2 L : ℝ) (a b : MieCoef) : Option (Res (Option EReal)) :=
  match blockmatricesK0At lmax lssmax m r1 r2 L a b with
  | .error e => some (.error e)
  | .ok (TE, TM) => slnDetBlockdiagonal fuel 0.9 TE TM

end CasSph
