import Mathlib.Algebra.Polynomial.Derivative
import Mathlib.MeasureTheory.Integral.IntervalIntegral.Basic
import Mathlib.Analysis.SpecialFunctions.Sqrt
import Mathlib.Analysis.Real.Pi.Bounds

/-!
# Legendre polynomials and spherical harmonics, for the specification of the Gaunt coefficients

Only textbook definitions; nothing of the model is used.
-/

namespace CasSph.Spec

open Polynomial

/-- Legendre polynomials, by Bonnet's recursion `(n+2) P_{n+2} = (2n+3) x P_{n+1} - (n+1) P_n`.  (`legendre_rodrigues`
in `Lemmas/GauntIntegral` shows Rodrigues' formula.) -/
noncomputable def legendre : ℕ → ℝ[X]
  | 0 => 1
  | 1 => X
  | n + 2 => C (1 / ((n : ℝ) + 2)) * (C (2 * (n : ℝ) + 3) * X * legendre (n + 1) - C ((n : ℝ) + 1) * legendre n)

/-- Associated Legendre function of order `m ≥ 0` on `[-1, 1]`, with the Condon-Shortley phase. -/
noncomputable def assocPos (l m : ℕ) (x : ℝ) : ℝ :=
  (-1) ^ m * Real.sqrt (1 - x ^ 2) ^ m * (derivative^[m] (legendre l)).eval x

/-- Associated Legendre function of any integer order. -/
noncomputable def assocLegendre (l : ℕ) (m : ℤ) (x : ℝ) : ℝ :=
  if 0 ≤ m then assocPos l m.natAbs x
  else (-1) ^ m.natAbs * ((l - m.natAbs).factorial / (l + m.natAbs).factorial) * assocPos l m.natAbs x

/-- The spherical harmonic `Y_l^m` at `cos θ = x`, `φ = 0` (the factor `exp(i m φ)` is left out). -/
noncomputable def ylm (l : ℕ) (m : ℤ) (x : ℝ) : ℝ :=
  Real.sqrt ((2 * l + 1) / (4 * Real.pi) * (((l : ℤ) - m).toNat.factorial / ((l : ℤ) + m).toNat.factorial)) *
    assocLegendre l m x

/-- The integral of `Y_l^m Y_l'^{-m} Y_p^0` over the sphere (the factors depending on `φ` cancel, and the
integration over `φ` gives `2π`). -/
noncomputable def gauntIntegral (l lp : ℕ) (m : ℤ) (p : ℕ) : ℝ :=
  2 * Real.pi * ∫ x in (-1 : ℝ)..1, ylm l m x * ylm lp (-m) x * ylm p 0 x

end CasSph.Spec
