import Verif.Model.FloatTrans

/-! # Size of the terms of a translation coefficient -/

namespace CasSph.Spec

/-- Sum of the moduli of the terms, `G i` in place of the Gaunt coefficients, with weights `c p`. -/
noncomputable def transSize (ext : Bool) (m : ℤ) (bes : List ℝ) (G : ℕ → ℝ) (l1 l2 : ℕ) (c : ℕ → ℝ) : ℝ :=
  ∑ i ∈ Finset.range (min l1 l2 + 1), |c (((l1 : ℤ) - l2).natAbs + 2 * i)| *
    (Real.exp (bes.getD (((l1 : ℤ) - l2).natAbs + 2 * i) 0) * G i * |commonFac ext m l1 l2 (((l1 : ℤ) - l2).natAbs + 2 * i)|)

/-- Weight of the polarisation-conserving coefficients. -/
noncomputable def weightEE (l1 l2 p : ℕ) : ℝ := l1 * (l1 + 1) + l2 * (l2 + 1) - p * (p + 1)

/-- Weight of the mixing coefficients. -/
noncomputable def weightEM (m : ℤ) (nL : ℝ) (_ : ℕ) : ℝ := 2 * m * nL

/-- Growth of the errors: Bessel functions `δ` (logarithm), Gaunt coefficients `γ`, argument `ν`, logarithms of the scaled Bessel functions up to `W`. -/
noncomputable def transErr (u δ γ ν W : ℝ) (n : ℕ) : ℝ := (1 + γ) * (1 + ν) * Real.exp (δ + u * W) * (1 + u) ^ (n + 18) - 1

end CasSph.Spec
