import Verif.Spec.Dipole

/-! # The entropy expected by tests/test_functional.py -/

namespace CasSph.Spec

/-- The functions of tests/test_functional.py:67-71, `g = ν/sinh ν` and `c = cosh ν`. -/
noncomputable def stmtm0 (g c ν : ℝ) : ℝ := (2 * g * c + 2 * g ^ 2 - g ^ 3 * c - g ^ 4 * (2 * c ^ 2 + 1)) / ν
noncomputable def stmtm1 (g c ν : ℝ) : ℝ :=
  (g * c + g ^ 2 + 2.5 * g ^ 3 * c + 0.5 * g ^ 4 * (2 * c ^ 2 + 1) + 0.5 * g ^ 5 * c * (c ^ 2 + 2) - 0.5 * g ^ 6 * (2 * c ^ 4 + 11 * c ^ 2 + 2)) / ν
noncomputable def stmte1 (g c ν : ℝ) : ℝ :=
  0.25 * (3 * g ^ 3 * c + 3 * g ^ 4 * (2 * c ^ 2 + 1) + g ^ 5 * c * (c ^ 2 + 2) - g ^ 6 * (2 * c ^ 4 + 11 * c ^ 2 + 2)) / ν

/-- `expected` of tests/test_functional.py:72-73. -/
noncomputable def dipoleEntropyExpected (r1 r2 L ν : ℝ) : ℝ :=
  (r1 * r2 / L ^ 2) ^ 3 * (1.25 * stmtm0 (ν / Real.sinh ν) (Real.cosh ν) ν + 1.25 * stmtm1 (ν / Real.sinh ν) (Real.cosh ν) ν +
    2 * stmte1 (ν / Real.sinh ν) (Real.cosh ν) ν)

end CasSph.Spec
