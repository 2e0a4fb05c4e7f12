import Mathlib.Algebra.BigOperators.Fin
import Mathlib.Analysis.SpecialFunctions.Log.Basic
import Mathlib.LinearAlgebra.Matrix.Trace

/-! # Reference notions for sums over `m` and round-trip expansions (independent of the model) -/

namespace CasSph.Spec

/-- `L_0 + 2 (L_1 + … + L_M)`. -/
def mSum {n : ℕ} (L : ℕ → Fin n → ℝ) (M : ℕ) (i : Fin n) : ℝ :=
  L 0 i + 2 * ∑ m ∈ Finset.Icc 1 M, L m i

/-- `r` is the first element of largest magnitude. -/
def IsRef {n : ℕ} (v : Fin n → ℝ) (r : Fin n) : Prop :=
  (∀ i, |v i| ≤ |v r|) ∧ ∀ i < r, |v i| < |v r|

/-- `M` is the first number in `0..lmax` with property `P`, or `lmax` if there is none. -/
def FirstOr (P : ℕ → Prop) (lmax M : ℕ) : Prop :=
  M ≤ lmax ∧ (P M ∨ M = lmax) ∧ ∀ m < M, ¬ P m

/-- `tr A + tr A²/2 + … + tr A^N/N`. -/
noncomputable def traceSum {N : ℕ} (A : Matrix (Fin N) (Fin N) ℝ) (k : ℕ) : ℝ :=
  ∑ j ∈ Finset.Icc 1 k, (A ^ j).trace / j

end CasSph.Spec
