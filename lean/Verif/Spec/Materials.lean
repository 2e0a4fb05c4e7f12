import Mathlib.Data.Real.Basic
import Mathlib.Analysis.SpecialFunctions.Sqrt

/-! # Specification of material response functions, independent of the model -/

namespace CasSph.Spec

/-- Permittivity at imaginary wavenumber `k` of a sum of Lorentz oscillators `(wP, wR, γ)`, all frequencies
in the unit `c/µm`. -/
noncomputable def lorentzEps (k : ℝ) (osc : List (ℝ × ℝ × ℝ)) : ℝ :=
  1 + (osc.map fun p : ℝ × ℝ × ℝ => p.1 ^ 2 / (p.2.1 ^ 2 + k ^ 2 + p.2.2 * k)).sum

/-- Smith's modification of the Drude permittivity with `c = -0.49`. -/
noncomputable def smithEps (k wP g : ℝ) : ℝ := 1 + wP ^ 2 / (k * (k + g)) * (1 - 0.49 * g / (k + g))

/-- Permeability `1 + (µ₀ - 1)/(1 + k/w)`. -/
noncomputable def debyeMu (k mu0 w : ℝ) : ℝ := 1 + (mu0 - 1) / (1 + k / w)

end CasSph.Spec
