import Verif.Spec.FlTrans
import Verif.Spec.FlGaunt

/-! # Conditioning of the translation coefficients -/

namespace CasSph.Spec

/-- Bound of the errors of `ln k_p(x)`, `p ≤ N`, computed for a rounded argument. -/
noncomputable def besErr (u x : ℝ) (N : ℕ) : ℝ := 8 * (N + 1) * u * (5 + 2 * |Real.log x| + 2 * x + N * Real.log (1 + 2 * N / x))

/-- Bound of the errors relative to the sum of the moduli of the terms. -/
noncomputable def transErrAt (u x : ℝ) (l1 l2 : ℕ) (m : ℤ) : ℝ :=
  transErr u (besErr u x (l1 + l2)) (gauntErr u l1 l2 m) (5 * u) (2 * besErr u x (l1 + l2) + (l1 + l2 : ℕ) * Real.log (1 + 2 * (l1 + l2 : ℕ) / x)) (min l1 l2)

/-- Sum of the moduli of the terms divided by the modulus of their sum, polarisation-conserving coefficients; `g`, `bes`: Gaunt coefficients and
logarithms of the Bessel functions. -/
noncomputable def condEE (m : ℤ) (g bes : List ℝ) (l1 l2 : ℕ) (v : VCoef) : ℝ :=
  transSize true m bes (gauntSize l1 l2 m (g.getD (min l1 l2) 0)) l1 l2 (weightEE l1 l2) / |v.EEab * Real.exp v.sk|

/-- The same for the mixing coefficients. -/
noncomputable def condEM (m : ℤ) (x : ℝ) (g bes : List ℝ) (l1 l2 : ℕ) (v : VCoef) : ℝ :=
  transSize true m bes (gauntSize l1 l2 m (g.getD (min l1 l2) 0)) l1 l2 (weightEM m x) / |v.EMab * Real.exp v.sk|

/-- Weights of all terms but the last. -/
noncomputable def lowerSum (m : ℤ) (l1 l2 : ℕ) (c : ℕ → ℝ) : ℝ :=
  ∑ i ∈ Finset.range (min l1 l2), |c (((l1 : ℤ) - l2).natAbs + 2 * i)| * gauntMajor l1 l2 m (min l1 l2 - i)

end CasSph.Spec
