import Mathlib.Algebra.BigOperators.Intervals
import Mathlib.Algebra.Order.Floor.Semiring
import Mathlib.Algebra.Order.Archimedean.Real.Basic

/-!
# Specification of the thermodynamic sums

Nothing here refers to the model of the code.
-/

namespace CasSph.Spec

/-- The Matsubara sum at scaled temperature `T` with cut-off wavenumber `Λ`: `T` times the (already halved)
zero-frequency term plus the contributions `φ` of all wavenumbers `n T ≤ Λ`, `n ≥ 1`. -/
noncomputable def matsubaraSum (f0 : ℝ) (φ : ℝ → ℝ) (T Λ : ℝ) : ℝ :=
  T * (f0 + ∑ n ∈ Finset.Icc 1 ⌊Λ / T⌋₊, φ (n * T))

/-- `S` is minus the derivative of the array `F` on a grid of spacing `h`: centred differences inside,
one-sided differences at both ends. -/
structure IsNegGradient (F S : List ℝ) (h : ℝ) : Prop where
  length : S.length = F.length
  first : ∀ s f0 f1, S[0]? = some s → F[0]? = some f0 → F[1]? = some f1 → s = -((f1 - f0) / h)
  inner : ∀ i s f0 f1, S[i + 1]? = some s → F[i]? = some f0 → F[i + 2]? = some f1 →
    s = -((f1 - f0) / (2 * h))
  last : ∀ i s f0 f1, i + 2 = F.length → S[i + 1]? = some s → F[i]? = some f0 → F[i + 1]? = some f1 →
    s = -((f1 - f0) / h)

end CasSph.Spec
