import Verif.Model.Py
import Mathlib.Analysis.Real.Sqrt
import Mathlib.LinearAlgebra.Matrix.Defs
import Mathlib.Algebra.BigOperators.Fin

/-!
# Model of `CasimirRio/matrix_balancing.pyx`

Doubles are idealised as reals.  The in-place updates of the argument array are modelled by
returning the updated matrix.
-/

namespace CasSph

open scoped Classical

/-- The underflow guard `1e-320` of matrix_balancing.pyx:25 (as an exact rational). -/
noncomputable def balanceTiny : ℝ := 1 / 10 ^ 320

/-- matrix_balancing.pyx:21-23, the accumulated `c`: squared norm of column `i` without the diagonal. -/
noncomputable def colSq {n : ℕ} (M : Matrix (Fin n) (Fin n) ℝ) (i : Fin n) : ℝ :=
  ∑ j, if j = i then 0 else |M j i| ^ 2

/-- matrix_balancing.pyx:21-24, the accumulated `r`: squared norm of row `i` without the diagonal. -/
noncomputable def rowSq {n : ℕ} (M : Matrix (Fin n) (Fin n) ℝ) (i : Fin n) : ℝ :=
  ∑ j, if j = i then 0 else |M i j| ^ 2

/-- Local variables `(f, c, r)` of the two inner loops. -/
structure FCR where
  f : ℝ
  c : ℝ
  r : ℝ

/-- matrix_balancing.pyx:30-33: `while c < r/beta: f *= beta; c *= beta; r /= beta`, `beta = 2`. -/
noncomputable def growLoop (fuel : ℕ) (s : FCR) : Option FCR :=
  whileLoop (fun s => s.c < s.r / 2) (fun s => some ⟨s.f * 2, s.c * 2, s.r / 2⟩) fuel s

/-- matrix_balancing.pyx:34-37: `while c >= r*beta: f /= beta; c /= beta; r *= beta`. -/
noncomputable def shrinkLoop (fuel : ℕ) (s : FCR) : Option FCR :=
  whileLoop (fun s => s.c ≥ s.r * 2) (fun s => some ⟨s.f / 2, s.c / 2, s.r * 2⟩) fuel s

/-- matrix_balancing.pyx:40-41: `matrix[:, i] *= f` followed by `matrix[i, :] /= f`. -/
noncomputable def scaleIndex {n : ℕ} (M : Matrix (Fin n) (Fin n) ℝ) (i : Fin n) (f : ℝ) :
    Matrix (Fin n) (Fin n) ℝ :=
  let M₁ : Matrix (Fin n) (Fin n) ℝ := fun j k => if k = i then M j k * f else M j k
  fun j k => if j = i then M₁ j k / f else M₁ j k

/-- matrix_balancing.pyx:20-41, the body of the `for i` loop acting on
`(matrix, converged)`.  The same `fuel` bounds both inner loops. -/
noncomputable def balanceIndex {n : ℕ} (fuel : ℕ) (conv : ℝ)
    (s : Matrix (Fin n) (Fin n) ℝ × Bool) (i : Fin n) :
    Option (Matrix (Fin n) (Fin n) ℝ × Bool) :=
  let M := s.1
  let c := colSq M i
  let r := rowSq M i
  if |r| ≤ balanceTiny ∨ |c| ≤ balanceTiny then some s
  else
    (growLoop fuel ⟨1, Real.sqrt c, Real.sqrt r⟩).bind fun s₁ =>
    (shrinkLoop fuel s₁).bind fun s₂ =>
      if s₂.c ^ 2 + s₂.r ^ 2 < conv * (c + r) then some (scaleIndex M i s₂.f, false)
      else some s

/-- matrix_balancing.pyx:18-41: one pass of the outer loop (`converged = 1; for i in range(n)`). -/
noncomputable def balanceSweep {n : ℕ} (fuel : ℕ) (conv : ℝ) (M : Matrix (Fin n) (Fin n) ℝ) :
    Option (Matrix (Fin n) (Fin n) ℝ × Bool) :=
  (List.finRange n).foldlM (balanceIndex fuel conv) (M, true)

/-- matrix_balancing.pyx:7-42 `balance(matrix, conv)`, run with `fuel` bounding every loop. -/
noncomputable def balance {n : ℕ} (fuel : ℕ) (conv : ℝ) (M : Matrix (Fin n) (Fin n) ℝ) :
    Option (Matrix (Fin n) (Fin n) ℝ) :=
  (whileLoop (fun s : Matrix (Fin n) (Fin n) ℝ × Bool => s.2 = false)
    (fun s => balanceSweep fuel conv s.1) fuel (M, false)).map Prod.fst

end CasSph
