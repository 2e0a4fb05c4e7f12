import Verif.Model.FloatZero
import Verif.Spec.FlMie

/-! # What is assumed of `gammaln`, and the size of the zero-frequency logarithms -/

namespace CasSph.Spec

/-- Every operation, square root and `gammaln` at positive integers included, has a relative error of at most `u`. -/
structure RelErrZ (A : FlZero) (u : ℝ) : Prop extends RelErrM A.toFlMie u where
  lgam : ∀ n : ℕ, |A.lgam (n + 1) - Real.log n.factorial| ≤ u * Real.log n.factorial

/-- Size of the logarithms at zero frequency, for multipoles with `l + l'' ≤ N`. -/
noncomputable def zeroSize (N : ℕ) (r1 r2 L : ℝ) : ℝ :=
  (2 * N + 2) * (Real.log (2 * N + 2) + 1 + Real.log (L / r1) + Real.log (L / r2))

/-- Bound of the relative errors of the zero-frequency matrices. -/
noncomputable def zeroErr (u : ℝ) (N : ℕ) (r1 r2 L : ℝ) : ℝ := Real.exp (900 * u * zeroSize N r1 r2 L) - 1

end CasSph.Spec
