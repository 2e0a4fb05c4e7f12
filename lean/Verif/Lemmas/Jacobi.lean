import Mathlib.LinearAlgebra.Matrix.NonsingularInverse
import Mathlib.LinearAlgebra.Matrix.Trace
import Mathlib.Analysis.Calculus.Deriv.Mul
import Mathlib.Analysis.Calculus.Deriv.Add
import Mathlib.Analysis.SpecialFunctions.Log.Deriv
import Mathlib.Tactic.Ring
import Mathlib.Tactic.FieldSimp

/-! Jacobi's formula for the derivative of a determinant. -/

namespace CasSph

open Matrix

variable {n : Type*} [Fintype n] [DecidableEq n]

theorem hasDerivAt_det {M : ℝ → Matrix n n ℝ} {M' : Matrix n n ℝ} {t : ℝ}
    (h : ∀ i j, HasDerivAt (fun s => M s i j) (M' i j) t) :
    HasDerivAt (fun s => (M s).det) ((M t).adjugate * M').trace t := by
  have hd : HasDerivAt (fun s => ∑ σ : Equiv.Perm n, ((Equiv.Perm.sign σ : ℤ) : ℝ) * ∏ i, M s (σ i) i)
      (∑ σ : Equiv.Perm n, ((Equiv.Perm.sign σ : ℤ) : ℝ) *
        ∑ i, (∏ j ∈ Finset.univ.erase i, M t (σ j) j) • M' (σ i) i) t := by
    refine HasDerivAt.fun_sum fun σ _ => ?_
    refine HasDerivAt.const_mul _ ?_
    exact HasDerivAt.fun_finsetProd fun i _ => h (σ i) i
  have e1 : (fun s => (M s).det) =
      fun s => ∑ σ : Equiv.Perm n, ((Equiv.Perm.sign σ : ℤ) : ℝ) * ∏ i, M s (σ i) i := by
    funext s; rw [Matrix.det_apply']
  have e2 : ((M t).adjugate * M').trace = ∑ σ : Equiv.Perm n, ((Equiv.Perm.sign σ : ℤ) : ℝ) *
        ∑ i, (∏ j ∈ Finset.univ.erase i, M t (σ j) j) • M' (σ i) i := by
    have : ((M t).adjugate * M').trace = ∑ i, ((M t).updateCol i (fun j => M' j i)).det := by
      rw [Matrix.trace]
      refine Finset.sum_congr rfl fun i _ => ?_
      rw [Matrix.diag_apply, Matrix.mul_apply, ← Matrix.cramer_apply, Matrix.cramer_eq_adjugate_mulVec]
      rfl
    rw [this]
    simp_rw [Matrix.det_apply', Finset.mul_sum]
    rw [Finset.sum_comm]
    refine Finset.sum_congr rfl fun σ _ => Finset.sum_congr rfl fun i _ => ?_
    congr 1
    rw [← Finset.mul_prod_erase Finset.univ _ (Finset.mem_univ i), smul_eq_mul, mul_comm]
    congr 1
    · refine Finset.prod_congr rfl fun j hj => ?_
      rw [Matrix.updateCol_ne (Finset.ne_of_mem_erase hj)]
    · rw [Matrix.updateCol_self]
  rw [e1, e2]
  exact hd

/-- Logarithmic version: `d/dt ln|det(1 - M)| = - tr((1-M)⁻¹ M')`. -/
theorem hasDerivAt_log_det_one_sub {M : ℝ → Matrix n n ℝ} {M' : Matrix n n ℝ} {t : ℝ}
    (h : ∀ i j, HasDerivAt (fun s => M s i j) (M' i j) t) (hdet : (1 - M t).det ≠ 0) :
    HasDerivAt (fun s => Real.log |(1 - M s).det|) (-((1 - M t)⁻¹ * M').trace) t := by
  have hM : ∀ i j, HasDerivAt (fun s => (1 - M s) i j) ((-M') i j) t := by
    intro i j
    have := (h i j).const_sub ((1 : Matrix n n ℝ) i j)
    simpa using this
  have := (hasDerivAt_det hM).log hdet
  simp_rw [Real.log_abs]
  convert this using 1
  rw [Matrix.inv_def, Matrix.smul_mul, Matrix.trace_smul, Matrix.mul_neg, Matrix.trace_neg,
    Ring.inverse_eq_inv', smul_eq_mul]
  field_simp

end CasSph
