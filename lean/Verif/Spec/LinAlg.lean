import Mathlib.Analysis.SpecialFunctions.Log.Basic
import Mathlib.LinearAlgebra.Matrix.NonsingularInverse
import Mathlib.Data.EReal.Basic

/-! # Reference notions for the linear algebra properties (independent of the model) -/

namespace CasSph.Spec

/-- `ln|x|` with the value `-∞` at zero. -/
noncomputable def lnAbs (x : ℝ) : EReal := if x = 0 then ⊥ else ((Real.log |x| : ℝ) : EReal)

/-- Squared Euclidean norm of row `i` without its diagonal entry. -/
noncomputable def offRow {n : ℕ} (M : Matrix (Fin n) (Fin n) ℝ) (i : Fin n) : ℝ :=
  ∑ j ∈ Finset.univ.erase i, M i j ^ 2

/-- Squared Euclidean norm of column `i` without its diagonal entry. -/
noncomputable def offCol {n : ℕ} (M : Matrix (Fin n) (Fin n) ℝ) (i : Fin n) : ℝ :=
  ∑ j ∈ Finset.univ.erase i, M j i ^ 2

/-- Upper left, upper right, lower left, lower right `n × n` blocks of a `2n × 2n` matrix. -/
def ul {n : ℕ} (M : Matrix (Fin (n + n)) (Fin (n + n)) ℝ) : Matrix (Fin n) (Fin n) ℝ :=
  M.submatrix (Fin.castAdd n) (Fin.castAdd n)
@[inherit_doc ul] def ur {n : ℕ} (M : Matrix (Fin (n + n)) (Fin (n + n)) ℝ) :
    Matrix (Fin n) (Fin n) ℝ := M.submatrix (Fin.castAdd n) (Fin.natAdd n)
@[inherit_doc ul] def ll {n : ℕ} (M : Matrix (Fin (n + n)) (Fin (n + n)) ℝ) :
    Matrix (Fin n) (Fin n) ℝ := M.submatrix (Fin.natAdd n) (Fin.castAdd n)
@[inherit_doc ul] def lr {n : ℕ} (M : Matrix (Fin (n + n)) (Fin (n + n)) ℝ) :
    Matrix (Fin n) (Fin n) ℝ := M.submatrix (Fin.natAdd n) (Fin.natAdd n)

/-- Schur complement of the upper left block. -/
noncomputable def schur {n : ℕ} (M : Matrix (Fin (n + n)) (Fin (n + n)) ℝ) :
    Matrix (Fin n) (Fin n) ℝ := lr M - ll M * (ul M)⁻¹ * ur M

end CasSph.Spec
