import Mathlib.Analysis.SpecialFunctions.Trigonometric.DerivHyp

/-! # Specification of the large-distance (dipole) limit, independent of the model -/

namespace CasSph.Spec

/-- Retarded interaction of two point dipoles at imaginary frequency, at the product `y` of wavenumber in the medium and distance: `s` is the sum of the products
of polarisabilities of equal kind, `x` that of different kind.  The round-trip trace of two dipoles, from the dyadic Green's function. -/
noncomputable def dipolePhi (s x y : ℝ) : ℝ :=
  Real.exp (-(2 * y)) * (s * (4 * (1 + y) ^ 2 + 2 * (1 + y + y ^ 2) ^ 2) - x * (2 * (y * (1 + y)) ^ 2))

/-- The functions of tests/test_functional.py:49-51, `g = ν/sinh ν` and `c = cosh ν`. -/
noncomputable def ftmtm0 (g c : ℝ) : ℝ := 2 * g * c + 2 * g ^ 2 + g ^ 3 * c
noncomputable def ftmtm1 (g c : ℝ) : ℝ := g * c + g ^ 2 + 1.5 * g ^ 3 * c + 0.5 * g ^ 4 * (2 * c ^ 2 + 1) + 0.5 * g ^ 5 * c * (c ^ 2 + 2)
noncomputable def ftmte1 (g c : ℝ) : ℝ := 0.25 * (g ^ 3 * c + g ^ 4 * (2 * c ^ 2 + 1) + g ^ 5 * c * (c ^ 2 + 2))

/-- Free energy of two dipoles in units of `(r1 r2)³/L⁷`, at the product `ν` of temperature, index of refraction and distance. -/
noncomputable def dipoleFree (s x ν : ℝ) : ℝ :=
  s * (ftmtm0 (ν / Real.sinh ν) (Real.cosh ν) + ftmtm1 (ν / Real.sinh ν) (Real.cosh ν)) - 2 * x * ftmte1 (ν / Real.sinh ν) (Real.cosh ν)

/-- `expected` of tests/test_functional.py:52-54. -/
noncomputable def dipoleExpected (r1 r2 L ν : ℝ) : ℝ :=
  -(r1 * r2 / L ^ 2) ^ 3 * (1.25 * ftmtm0 (ν / Real.sinh ν) (Real.cosh ν) + 1.25 * ftmtm1 (ν / Real.sinh ν) (Real.cosh ν) +
    2 * ftmte1 (ν / Real.sinh ν) (Real.cosh ν)) / L

end CasSph.Spec
