import Mathlib.LinearAlgebra.Matrix.Gershgorin
import Mathlib.LinearAlgebra.Matrix.NonsingularInverse
import Mathlib.Analysis.SpecialFunctions.Log.Basic

/-! # Determinants and inverses by sums over rows -/

namespace CasSph

open Matrix Finset

variable {n : ℕ}

/-- The modulus of a determinant is at most the product of the sums of the moduli in the rows. -/
theorem abs_det_le_rows (a : Matrix (Fin n) (Fin n) ℝ) : |a.det| ≤ ∏ i, ∑ j, |a i j| := by
  rw [← det_transpose, det_apply]
  refine (abs_sum_le_sum_abs _ _).trans ?_
  rw [Finset.prod_univ_sum]
  have : ∀ σ : Equiv.Perm (Fin n), |Equiv.Perm.sign σ • ∏ i, aᵀ (σ i) i| = ∏ i, |a i (σ i)| := by
    intro σ
    rw [Units.smul_def, zsmul_eq_mul, abs_mul, Finset.abs_prod]
    rcases Int.units_eq_one_or (Equiv.Perm.sign σ) with h | h <;> simp [h, transpose_apply]
  rw [Finset.sum_congr rfl fun σ _ => this σ]
  rw [← Finset.sum_image (f := fun g : Fin n → Fin n => ∏ i, |a i (g i)|) (s := univ) (g := fun σ : Equiv.Perm (Fin n) => (σ : Fin n → Fin n))
    (fun σ _ τ _ h => Equiv.coe_fn_injective h)]
  exact Finset.sum_le_sum_of_subset_of_nonneg (fun g _ => by simp) fun g _ _ => Finset.prod_nonneg fun i _ => abs_nonneg _

/-- Row sums of a product. -/
theorem rowSum_mul {a b : Matrix (Fin n) (Fin n) ℝ} {x y : ℝ} (ha : ∀ i, ∑ j, |a i j| ≤ x) (hb : ∀ i, ∑ j, |b i j| ≤ y) (hy : 0 ≤ y) (i : Fin n) :
    ∑ j, |(a * b) i j| ≤ x * y := by
  calc ∑ j, |(a * b) i j| ≤ ∑ j, ∑ k, |a i k| * |b k j| := Finset.sum_le_sum fun j _ => by
        rw [mul_apply]
        refine (abs_sum_le_sum_abs _ _).trans (le_of_eq (Finset.sum_congr rfl fun k _ => abs_mul _ _))
    _ = ∑ k, |a i k| * ∑ j, |b k j| := by rw [Finset.sum_comm]; simp only [Finset.mul_sum]
    _ ≤ ∑ k, |a i k| * y := Finset.sum_le_sum fun k _ => mul_le_mul_of_nonneg_left (hb k) (abs_nonneg _)
    _ = (∑ k, |a i k|) * y := by rw [Finset.sum_mul]
    _ ≤ x * y := mul_le_mul_of_nonneg_right (ha i) hy

/-- A matrix close to the identity is invertible. -/
theorem near_one_det_ne {X : Matrix (Fin n) (Fin n) ℝ} {ε : ℝ} (hX : ∀ i, ∑ j, |X i j| ≤ ε) (h1 : ε < 1) : (1 + X).det ≠ 0 := by
  refine det_ne_zero_of_sum_row_lt_diag fun k => ?_
  have h := hX k
  rw [← Finset.add_sum_erase _ _ (Finset.mem_univ k)] at h
  have e : ∑ j ∈ univ.erase k, ‖(1 + X) k j‖ = ∑ j ∈ univ.erase k, |X k j| := Finset.sum_congr rfl fun j hj => by
    rw [Matrix.add_apply, one_apply_ne (Finset.ne_of_mem_erase hj).symm, zero_add, Real.norm_eq_abs]
  rw [e, Matrix.add_apply, one_apply_eq, Real.norm_eq_abs]
  have := abs_sub_abs_le_abs_sub 1 (-X k k)
  rw [abs_one, abs_neg, sub_neg_eq_add] at this
  linarith

/-- The rows of the inverse of a matrix close to the identity. -/
theorem near_one_inv {X W : Matrix (Fin n) (Fin n) ℝ} {ε : ℝ} (hX : ∀ i, ∑ j, |X i j| ≤ ε) (h0 : 0 ≤ ε) (h1 : ε < 1) (hW : (1 + X) * W = 1) (i : Fin n) :
    ∑ j, |W i j| ≤ 1 / (1 - ε) := by
  obtain ⟨k, -, hk⟩ := Finset.exists_max_image univ (fun i => ∑ j, |W i j|) ⟨i, Finset.mem_univ i⟩
  have hs : W = 1 - X * W := by rw [← hW, add_mul, one_mul]; abel
  have hb := rowSum_mul hX (fun r => hk r (Finset.mem_univ r)) (Finset.sum_nonneg fun j _ => abs_nonneg _) k
  have : ∑ j, |W k j| ≤ 1 + ε * ∑ j, |W k j| := by
    calc ∑ j, |W k j| = ∑ j, |(1 : Matrix (Fin n) (Fin n) ℝ) k j - (X * W) k j| := by
          conv_lhs => rw [hs]
          rfl
      _ ≤ ∑ j, (|(1 : Matrix (Fin n) (Fin n) ℝ) k j| + |(X * W) k j|) := Finset.sum_le_sum fun j _ => abs_sub _ _
      _ = 1 + ∑ j, |(X * W) k j| := by
          rw [Finset.sum_add_distrib, Finset.sum_eq_single k (fun j _ hj => by rw [one_apply_ne hj.symm, abs_zero]) (by simp), one_apply_eq, abs_one]
      _ ≤ _ := by linarith
  refine (hk i (Finset.mem_univ i)).trans ?_
  rw [le_div_iff₀ (by linarith)]
  linarith

/-- The logarithm of the determinant of a matrix close to the identity. -/
theorem near_one_logdet {X : Matrix (Fin n) (Fin n) ℝ} {ε : ℝ} (hX : ∀ i, ∑ j, |X i j| ≤ ε) (h0 : 0 ≤ ε) (h1 : ε ≤ 1 / 2) :
    |Real.log (1 + X).det| ≤ 2 * n * ε := by
  have hd := near_one_det_ne hX (by linarith)
  have u1 : |(1 + X).det| ≤ (1 + ε) ^ n := by
    refine (abs_det_le_rows _).trans ?_
    calc ∏ i, ∑ j, |(1 + X) i j| ≤ ∏ _i : Fin n, (1 + ε) := Finset.prod_le_prod (fun i _ => Finset.sum_nonneg fun j _ => abs_nonneg _) fun i _ => by
          calc ∑ j, |(1 + X) i j| ≤ ∑ j, (|(1 : Matrix (Fin n) (Fin n) ℝ) i j| + |X i j|) := Finset.sum_le_sum fun j _ => abs_add_le _ _
            _ = 1 + ∑ j, |X i j| := by
                rw [Finset.sum_add_distrib, Finset.sum_eq_single i (fun j _ hj => by rw [one_apply_ne hj.symm, abs_zero]) (by simp), one_apply_eq, abs_one]
            _ ≤ 1 + ε := by linarith [hX i]
      _ = _ := by simp
  have hW : (1 + X) * (1 + X)⁻¹ = 1 := mul_nonsing_inv _ (Ne.isUnit hd)
  have u2 : |(1 + X)⁻¹.det| ≤ (1 / (1 - ε)) ^ n := by
    refine (abs_det_le_rows _).trans ?_
    calc ∏ i, ∑ j, |(1 + X)⁻¹ i j| ≤ ∏ _i : Fin n, (1 / (1 - ε)) := Finset.prod_le_prod (fun i _ => Finset.sum_nonneg fun j _ => abs_nonneg _) fun i _ =>
          near_one_inv hX h0 (by linarith) hW i
      _ = _ := by simp
  have hdd : (1 + X).det * (1 + X)⁻¹.det = 1 := by rw [← det_mul, hW, det_one]
  have hp : 0 < |(1 + X).det| := abs_pos.mpr hd
  have hpi : |(1 + X)⁻¹.det| = |(1 + X).det|⁻¹ := by
    rw [← abs_inv]; congr 1; field_simp; linarith
  rw [hpi] at u2
  rw [← Real.log_abs, abs_le]
  constructor
  · have := Real.log_le_log (by positivity) u2
    rw [Real.log_inv, Real.log_pow, Real.log_div one_ne_zero (by linarith), Real.log_one, zero_sub] at this
    have l := Real.one_sub_inv_le_log_of_pos (show 0 < 1 - ε by linarith)
    have l2 : (1 - ε)⁻¹ ≤ 1 + 2 * ε := by
      rw [inv_le_comm₀ (by linarith) (by linarith), inv_eq_one_div, div_le_iff₀ (by linarith)]
      nlinarith
    nlinarith [Nat.cast_nonneg (α := ℝ) n]
  · have := Real.log_le_log hp u1
    rw [Real.log_pow] at this
    have l := Real.log_le_sub_one_of_pos (show 0 < 1 + ε by linarith)
    nlinarith [Nat.cast_nonneg (α := ℝ) n]

end CasSph
