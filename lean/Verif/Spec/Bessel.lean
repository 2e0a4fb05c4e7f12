import Mathlib.Analysis.SpecialFunctions.Exp
import Mathlib.Analysis.Real.Pi.Bounds
import Mathlib.Data.Nat.Factorial.DoubleFactorial
import Mathlib.Topology.Algebra.InfiniteSum.Basic

/-!
# Modified spherical Bessel functions, as closed form and power series

Reference definitions, independent of the code (DLMF 10.49.12 and 10.53.4).  `Lemmas/BesselSpec` shows
that both satisfy the modified spherical Bessel equation.
-/

namespace CasSph.Spec

open Nat

/-- `k_l(x) = (π/2) e^{-x}/x Σ_{j ≤ l} (l+j)! / (j! (l-j)! (2x)^j)`. -/
noncomputable def sphK (l : ℕ) (x : ℝ) : ℝ :=
  Real.pi / 2 * Real.exp (-x) / x *
    ∑ j ∈ Finset.range (l + 1), ((l + j)! : ℝ) / ((j ! : ℝ) * ((l - j)! : ℝ) * (2 * x) ^ j)

/-- `i_l(x) = Σ_n x^{l+2n} / (2^n n! (2l+2n+1)!!)`. -/
noncomputable def sphI (l : ℕ) (x : ℝ) : ℝ :=
  ∑' n : ℕ, x ^ (l + 2 * n) / (2 ^ n * (n ! : ℝ) * ((2 * (l + n) + 1)‼ : ℝ))

end CasSph.Spec

namespace CasSph.Spec

/-- Entry `(i, l)` of an array given as a list of rows. -/
def at2 (rows : List (List ℝ)) (i l : ℕ) : Option ℝ := rows[i]?.bind (·[l]?)

/-- The array consists of `a` rows of length `b`. -/
def Shape (rows : List (List ℝ)) (a b : ℕ) : Prop := rows.length = a ∧ ∀ r ∈ rows, r.length = b

/-- Arguments below 1e-3 precede the others. -/
def SmallFirst (xs : List ℝ) : Prop :=
  ∃ s g : List ℝ, xs = s ++ g ∧ (∀ x ∈ s, x < 1e-3) ∧ ∀ x ∈ g, 1e-3 ≤ x

end CasSph.Spec
