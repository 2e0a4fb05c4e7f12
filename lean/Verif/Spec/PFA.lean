import Mathlib.MeasureTheory.Integral.Bochner.Set
import Mathlib.MeasureTheory.Measure.Lebesgue.Basic
import Mathlib.Analysis.SpecialFunctions.Exp

/-!
# Reference values for perfect mirrors

Nothing here refers to the model of the code.
-/

namespace CasSph.Spec

/-- The polylogarithm `Li_s(z)`, the sum of `z^n / n^s` over `n ≥ 1`. -/
noncomputable def li (s : ℕ) (z : ℝ) : ℝ := ∑' n : ℕ, z ^ (n + 1) / (n + 1 : ℝ) ^ s

/-- Free energy per area contributed by one imaginary wavenumber `κ` (in the medium) for two perfect mirrors at
distance `L`, both polarizations, without the factor `T`: `-(κ/(2L) Li_2(e^{-2κL}) + Li_3(e^{-2κL})/(4L²)) / π`. -/
noncomputable def mirrorTerm (κ L : ℝ) : ℝ :=
  -(κ / (2 * L) * li 2 (Real.exp (-2 * κ * L)) + li 3 (Real.exp (-2 * κ * L)) / (4 * L ^ 2)) / Real.pi

/-- Minus half of the derivative of `mirrorTerm` by the distance:
`-(κ²/(2L) Li_1(e^{-2κL}) + κ/(2L²) Li_2(e^{-2κL}) + Li_3(e^{-2κL})/(4L³)) / π`. -/
noncomputable def mirrorPressure (κ L : ℝ) : ℝ :=
  -(κ ^ 2 / (2 * L) * li 1 (Real.exp (-2 * κ * L)) + κ / (2 * L ^ 2) * li 2 (Real.exp (-2 * κ * L)) +
    li 3 (Real.exp (-2 * κ * L)) / (4 * L ^ 3)) / Real.pi

end CasSph.Spec
