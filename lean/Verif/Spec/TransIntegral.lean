import Verif.Spec.Legendre
import Mathlib.MeasureTheory.Integral.Bochner.Set
import Mathlib.MeasureTheory.Measure.Lebesgue.Basic
import Mathlib.Analysis.Calculus.Deriv.Basic

/-! # Translation along the z axis in the angular spectrum representation

At imaginary frequency the waves going from one sphere to the other are superpositions of evanescent plane waves, whose
"angle" has a cosine `t ≥ 1`. -/

namespace CasSph.Spec

open Polynomial

/-- Associated Legendre function of an argument `t > 1` with the normalisation of vector spherical harmonics. -/
noncomputable def legHyp (l m : ℕ) (t : ℝ) : ℝ :=
  Real.sqrt ((2 * l + 1) / (l * (l + 1)) * ((l - m).factorial / (l + m).factorial)) * Real.sqrt (t ^ 2 - 1) ^ m *
    (derivative^[m] (legendre l)).eval t

/-- derivative with respect to the hyperbolic angle -/
noncomputable def tauHyp (l : ℕ) (m : ℤ) (t : ℝ) : ℝ := Real.sqrt (t ^ 2 - 1) * deriv (legHyp l m.natAbs) t

/-- derivative with respect to the azimuth divided by the hyperbolic sine -/
noncomputable def piHyp (l : ℕ) (m : ℤ) (t : ℝ) : ℝ := m * legHyp l m.natAbs t / Real.sqrt (t ^ 2 - 1)

/-- Coefficient of the translation by a distance `x` (times wavenumber) that conserves the polarisation. -/
noncomputable def transEE (x : ℝ) (l1 l2 : ℕ) (m : ℤ) : ℝ :=
  (-1) ^ m * ∫ t in Set.Ioi (1 : ℝ), Real.exp (-(x * t)) * (tauHyp l1 m t * tauHyp l2 m t + piHyp l1 m t * piHyp l2 m t)

/-- Coefficient of the translation by a distance `x` (times wavenumber) that changes the polarisation. -/
noncomputable def transEM (x : ℝ) (l1 l2 : ℕ) (m : ℤ) : ℝ :=
  -((-1) ^ m * ∫ t in Set.Ioi (1 : ℝ), Real.exp (-(x * t)) * (tauHyp l1 m t * piHyp l2 m t + piHyp l1 m t * tauHyp l2 m t))

end CasSph.Spec
