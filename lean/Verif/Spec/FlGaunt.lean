import Verif.Spec.FlZero

/-! # Size of the numbers met in the recursion of the Gaunt coefficients -/

namespace CasSph.Spec

/-- `α_p` of Xu's recursion. -/
noncomputable def xuAlpha (l lp : ℕ) (p : ℝ) : ℝ :=
  (p ^ 2 - ((l : ℝ) + lp + 1) ^ 2) * (p ^ 2 - ((l : ℝ) - lp) ^ 2) / (4 * p ^ 2 - 1)

/-- The recursion counted from the top, starting with 1, all terms taken with their moduli. -/
noncomputable def gauntMajor (l lp : ℕ) (m : ℤ) : ℕ → ℝ
  | 0 => 1
  | 1 => |(2 * ((l : ℝ) + lp) - 3) * (l * lp - (m : ℝ) ^ 2 * (2 * ((l : ℝ) + lp) - 1)) / ((2 * l - 1) * (2 * lp - 1) * (l + lp))|
  | j + 2 => ((4 * (m : ℝ) ^ 2 + |xuAlpha l lp (l + lp - (2 * j + 2))| + |xuAlpha l lp (l + lp - (2 * j + 1))|) * gauntMajor l lp m (j + 1) +
      |xuAlpha l lp (l + lp - 2 * j)| * gauntMajor l lp m j) / |xuAlpha l lp (l + lp - (2 * j + 3))|

/-- Bound of the coefficient with index `i` (`p = |l-l'| + 2 i`), `top` being the coefficient with `p = l + l'`. -/
noncomputable def gauntSize (l lp : ℕ) (m : ℤ) (top : ℝ) (i : ℕ) : ℝ :=
  |top| * Real.sqrt (2 * (l + lp) + 1) * gauntMajor l lp m (min l lp - i) / Real.sqrt (2 * ((((l : ℤ) - lp).natAbs : ℝ) + 2 * i) + 1)

/-- Sum of the moduli of the logarithms that make up the top coefficient. -/
noncomputable def gauntLogSize (l lp : ℕ) (m : ℤ) : ℝ :=
  Real.log (2 * l).factorial + Real.log (2 * lp).factorial + 2 * Real.log (l + lp).factorial + Real.log l.factorial + Real.log lp.factorial +
    Real.log (2 * (l + lp)).factorial + Real.log ((l : ℤ) - m).toNat.factorial + Real.log ((lp : ℤ) + m).toNat.factorial +
    1 / 2 * (Real.log ((l : ℤ) - m).toNat.factorial + Real.log ((lp : ℤ) + m).toNat.factorial + Real.log ((l : ℤ) + m).toNat.factorial +
      Real.log ((lp : ℤ) - m).toNat.factorial) + 1 / 2 * (Real.log (2 * l + 1) + Real.log (2 * lp + 1) + Real.log (4 * Real.pi))

/-- Bound of the errors. -/
noncomputable def gauntErr (u : ℝ) (l lp : ℕ) (m : ℤ) : ℝ :=
  Real.exp (((1 + u) ^ 10 - 1) * gauntLogSize l lp m) * (1 + u) ^ (10 * min l lp + 5) - 1

end CasSph.Spec
