import Mathlib.Analysis.SpecialFunctions.Exp
import Mathlib.LinearAlgebra.Matrix.Trace
import Mathlib.LinearAlgebra.Matrix.Determinant.Basic

/-! # Reference notions for the round-trip operator (independent of the model) -/

namespace CasSph.Spec

open Matrix

/-- Two matrices are indistinguishable for the scattering formula: same `det(1-M)` and same traces of
all powers. -/
structure SameRoundTrip {ι : Type*} [Fintype ι] [DecidableEq ι] (M N : Matrix ι ι ℝ) : Prop where
  det : (1 - M).det = (1 - N).det
  tr : ∀ j : ℕ, (M ^ j).trace = (N ^ j).trace

/-- Round-trip operator `R₁ T₁₂ R₂ T₂₁` of two spheres with reflection coefficients `aE, aM`
(sphere 1) and `bE, bM` (sphere 2), and translation coefficients: `fE`/`fX` forward
polarisation conserving/mixing, `gE`/`gX` backward, indexed (l₁, l''). -/
def roundTrip {n p : ℕ} (aE aM : Fin n → ℝ) (bE bM : Fin p → ℝ)
    (fE fX gE gX : Matrix (Fin n) (Fin p) ℝ) :
    Matrix (Fin n ⊕ Fin n) (Fin n ⊕ Fin n) ℝ :=
  fromBlocks (diagonal aE) 0 0 (diagonal aM) * fromBlocks fE fX fX fE *
    fromBlocks (diagonal bE) 0 0 (diagonal bM) * fromBlocks gEᵀ gXᵀ gXᵀ gEᵀ

/-- Static (zero-frequency) round-trip operator of one polarisation for two separate spheres of radii
`r1, r2` at centre distance `L`: multipoles `l = lmin + i`; the amplitudes `a, b` are those of unit
spheres, `v` is the translation coefficient at unit distance, and the backward translation carries the
parity `(-1)^(s+l)`:
`a(l₁) r1^(2 l₁+1) · v(l₁,s)/L^(l₁+s+1) · b(s) r2^(2s+1) · (-1)^(s+l₂) v(l₂,s)/L^(s+l₂+1)`. -/
noncomputable def staticRoundTrip {n p : ℕ} (lmin : ℕ) (r1 r2 L : ℝ) (a : Fin n → ℝ) (b : Fin p → ℝ)
    (v : Matrix (Fin n) (Fin p) ℝ) : Matrix (Fin n) (Fin n) ℝ :=
  diagonal (fun i => a i * r1 ^ (2 * (lmin + i.1) + 1)) *
    of (fun i s => v i s / L ^ ((lmin + i.1) + (lmin + s.1) + 1)) *
    diagonal (fun s => b s * r2 ^ (2 * (lmin + s.1) + 1)) *
    (of fun i s => (-1) ^ ((lmin + s.1) + (lmin + i.1)) * v i s /
      L ^ ((lmin + s.1) + (lmin + i.1) + 1))ᵀ

end CasSph.Spec
