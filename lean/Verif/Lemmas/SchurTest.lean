import Mathlib.Analysis.Matrix.PosDef
import Mathlib.Analysis.SpecialFunctions.Log.Basic
import Mathlib.LinearAlgebra.Matrix.SchurComplement
import Mathlib.Algebra.Order.BigOperators.Ring.Finset
import Mathlib.Topology.Order.MonotoneConvergence

/-! # Determinants of `1 ∓ K Kᵀ` (independent of the model)

Schur's test, bounds, monotonicity in the number of rows and columns and convergence. -/

namespace CasSph

open Matrix Filter Topology

section
variable {ι κ : Type*} [Fintype ι] [Fintype κ]

/-- Schur's test. -/
theorem schur_test {K H : Matrix ι κ ℝ} {u : ι → ℝ} {w : κ → ℝ} {c1 c2 : ℝ} (hKH : ∀ i s, |K i s| ≤ H i s)
    (hu : ∀ i, 0 < u i) (hc2 : 0 ≤ c2) (hrow : ∀ i, ∑ s, H i s * w s ≤ c1 * u i)
    (hcol : ∀ s, ∑ i, H i s * u i ≤ c2 * w s) (z : ι → ℝ) :
    ∑ s, (∑ i, z i * K i s) ^ 2 ≤ c1 * c2 * ∑ i, z i ^ 2 := by
  have hH : ∀ i s, 0 ≤ H i s := fun i s => (abs_nonneg _).trans (hKH i s)
  have step : ∀ s, (∑ i, z i * K i s) ^ 2 ≤ (∑ i, z i ^ 2 * H i s / u i) * (c2 * w s) := by
    intro s
    have h1 : (∑ i, z i * K i s) ^ 2 ≤ (∑ i, |z i| * H i s) ^ 2 := by
      rw [← sq_abs]
      refine pow_le_pow_left₀ (abs_nonneg _) ((Finset.abs_sum_le_sum_abs _ _).trans (Finset.sum_le_sum fun i _ => ?_)) 2
      rw [abs_mul]
      exact mul_le_mul_of_nonneg_left (hKH i s) (abs_nonneg _)
    have h2 : (∑ i, |z i| * H i s) ^ 2 ≤ (∑ i, z i ^ 2 * H i s / u i) * (∑ i, H i s * u i) := by
      refine Finset.sum_sq_le_sum_mul_sum_of_sq_le_mul _ (fun i _ => ?_) (fun i _ => ?_) (fun i _ => ?_)
      · exact div_nonneg (mul_nonneg (sq_nonneg _) (hH i s)) (hu i).le
      · exact mul_nonneg (hH i s) (hu i).le
      · have := (hu i).ne'
        rw [mul_pow, sq_abs]
        refine le_of_eq ?_
        field_simp
    refine h1.trans (h2.trans (mul_le_mul_of_nonneg_left (hcol s) (Finset.sum_nonneg fun i _ => ?_)))
    exact div_nonneg (mul_nonneg (sq_nonneg _) (hH i s)) (hu i).le
  refine (Finset.sum_le_sum fun s _ => step s).trans ?_
  simp only [Finset.sum_mul]
  rw [Finset.sum_comm, Finset.mul_sum]
  refine Finset.sum_le_sum fun i _ => ?_
  have h3 := mul_le_mul_of_nonneg_left (hrow i) (mul_nonneg (div_nonneg (sq_nonneg (z i)) (hu i).le) hc2)
  have e1 : ∑ s, z i ^ 2 * H i s / u i * (c2 * w s) = z i ^ 2 / u i * c2 * ∑ s, H i s * w s := by
    rw [Finset.mul_sum]
    refine Finset.sum_congr rfl fun s _ => ?_
    ring
  have e2 : z i ^ 2 / u i * c2 * (c1 * u i) = c1 * c2 * z i ^ 2 := by
    have := (hu i).ne'
    field_simp
  rw [e1]
  rw [e2] at h3
  exact h3

/-- The quadratic form of `K Kᵀ`. -/
theorem quad_mul_transpose (K : Matrix ι κ ℝ) (z : ι → ℝ) :
    z ⬝ᵥ ((K * Kᵀ) *ᵥ z) = ∑ s, (∑ i, z i * K i s) ^ 2 := by
  rw [← Matrix.mulVec_mulVec, Matrix.dotProduct_mulVec]
  simp only [dotProduct, Matrix.vecMul, Matrix.mulVec, Matrix.transpose_apply]
  refine Finset.sum_congr rfl fun s _ => ?_
  rw [sq]
  congr 1
  exact Finset.sum_congr rfl fun i _ => mul_comm _ _

omit [Fintype ι] in
theorem symm_mul_transpose (K : Matrix ι κ ℝ) : (K * Kᵀ).IsHermitian := by
  rw [Matrix.IsHermitian, Matrix.conjTranspose_eq_transpose_of_trivial, Matrix.transpose_mul, Matrix.transpose_transpose]

theorem trace_mul_transpose (K : Matrix ι κ ℝ) : (K * Kᵀ).trace = ∑ i, ∑ s, K i s ^ 2 := by
  simp only [Matrix.trace, Matrix.diag_apply, Matrix.mul_apply, Matrix.transpose_apply, sq]

variable [DecidableEq ι]

/-- eigenvalues of `1 + c K Kᵀ` are `1 + c q` with `q` a value of the quadratic form at a unit vector -/
theorem eigen_form (K : Matrix ι κ ℝ) (c : ℝ) (h : (1 + c • (K * Kᵀ)).IsHermitian) (i : ι) :
    ∃ z : ι → ℝ, ∑ j, z j ^ 2 = 1 ∧ h.eigenvalues i = 1 + c * ∑ s, (∑ j, z j * K j s) ^ 2 := by
  have hn : ∑ j, (h.eigenvectorBasis i : EuclideanSpace ℝ ι) j ^ 2 = 1 := by
    have := (h.eigenvectorBasis).orthonormal.1 i
    rw [EuclideanSpace.norm_eq, Real.sqrt_eq_one] at this
    simpa using this
  refine ⟨fun j => (h.eigenvectorBasis i : EuclideanSpace ℝ ι) j, hn, ?_⟩
  rw [h.eigenvalues_eq i]
  have hd : (h.eigenvectorBasis i : EuclideanSpace ℝ ι).ofLp ⬝ᵥ (h.eigenvectorBasis i : EuclideanSpace ℝ ι).ofLp = 1 := by
    rw [← hn]; simp only [dotProduct, sq]
  simp only [star_trivial, RCLike.re_to_real]
  rw [Matrix.add_mulVec, Matrix.one_mulVec, dotProduct_add, Matrix.smul_mulVec, dotProduct_smul, quad_mul_transpose, hd, smul_eq_mul]

omit [Fintype ι] in
theorem symm_one_add (K : Matrix ι κ ℝ) (c : ℝ) : (1 + c • (K * Kᵀ)).IsHermitian := by
  refine Matrix.isHermitian_one.add ?_
  have := symm_mul_transpose K
  rw [Matrix.IsHermitian, Matrix.conjTranspose_smul, this.eq, star_trivial]

/-- `0 < det(1 - K Kᵀ) ≤ 1` if `K` is a strict contraction, with a lower bound. -/
theorem det_one_sub_bounds {K : Matrix ι κ ℝ} {θ : ℝ} (hθ : θ < 1)
    (h : ∀ z : ι → ℝ, ∑ s, (∑ i, z i * K i s) ^ 2 ≤ θ * ∑ i, z i ^ 2) :
    Real.exp (-(∑ i, ∑ s, K i s ^ 2) / (1 - θ)) ≤ (1 - K * Kᵀ).det ∧ (1 - K * Kᵀ).det ≤ 1 := by
  have e : 1 - K * Kᵀ = 1 + (-1 : ℝ) • (K * Kᵀ) := by rw [neg_smul, one_smul, sub_eq_add_neg]
  rw [e]
  have hs := symm_one_add K (-1)
  have hθ' : 0 < 1 - θ := by linarith
  have hev : ∀ i, 1 - θ ≤ hs.eigenvalues i ∧ hs.eigenvalues i ≤ 1 := by
    intro i
    obtain ⟨z, hz, hzi⟩ := eigen_form K (-1) hs i
    have h1 := h z
    rw [hz] at h1
    have h2 : 0 ≤ ∑ s, (∑ j, z j * K j s) ^ 2 := Finset.sum_nonneg fun s _ => sq_nonneg _
    constructor <;> linarith
  have hdet : (1 + (-1 : ℝ) • (K * Kᵀ)).det = ∏ i, hs.eigenvalues i := by
    rw [hs.det_eq_prod_eigenvalues]; simp
  have htr : ∑ i, (1 - hs.eigenvalues i) = ∑ i, ∑ s, K i s ^ 2 := by
    have h1 : (1 + (-1 : ℝ) • (K * Kᵀ)).trace = ∑ i, hs.eigenvalues i := by
      rw [hs.trace_eq_sum_eigenvalues]; simp
    rw [Matrix.trace_add, Matrix.trace_smul, trace_mul_transpose, Matrix.trace_one] at h1
    rw [Finset.sum_sub_distrib, ← h1]
    simp
  rw [hdet]
  constructor
  · rw [← htr, neg_div, Finset.sum_div, ← Finset.sum_neg_distrib, Real.exp_sum]
    refine Finset.prod_le_prod (fun i _ => (Real.exp_pos _).le) fun i _ => ?_
    obtain ⟨h1, h2⟩ := hev i
    generalize hs.eigenvalues i = μ at h1 h2
    have hμ : 0 < μ := lt_of_lt_of_le hθ' h1
    rw [← Real.le_log_iff_exp_le hμ]
    have h3 := Real.one_sub_inv_le_log_of_pos hμ
    refine le_trans ?_ h3
    have h4 : (1 - μ) / μ ≤ (1 - μ) / (1 - θ) := div_le_div_of_nonneg_left (by linarith) hθ' h1
    have h5 : 1 - μ⁻¹ = -((1 - μ) / μ) := by field_simp; ring
    rw [h5]
    linarith
  · exact Finset.prod_le_one (fun i _ => (hθ'.trans_le (hev i).1).le) fun i _ => (hev i).2

/-- `1 ≤ det(1 + K Kᵀ) ≤ exp(tr K Kᵀ)`. -/
theorem det_one_add_bounds (K : Matrix ι κ ℝ) :
    1 ≤ (1 + K * Kᵀ).det ∧ (1 + K * Kᵀ).det ≤ Real.exp (∑ i, ∑ s, K i s ^ 2) := by
  have e : 1 + K * Kᵀ = 1 + (1 : ℝ) • (K * Kᵀ) := by rw [one_smul]
  rw [e]
  have hs := symm_one_add K 1
  have hev : ∀ i, 1 ≤ hs.eigenvalues i := by
    intro i
    obtain ⟨z, hz, hzi⟩ := eigen_form K 1 hs i
    have h2 : 0 ≤ ∑ s, (∑ j, z j * K j s) ^ 2 := Finset.sum_nonneg fun s _ => sq_nonneg _
    linarith
  have hdet : (1 + (1 : ℝ) • (K * Kᵀ)).det = ∏ i, hs.eigenvalues i := by
    rw [hs.det_eq_prod_eigenvalues]; simp
  have htr : ∑ i, (hs.eigenvalues i - 1) = ∑ i, ∑ s, K i s ^ 2 := by
    have h1 : (1 + (1 : ℝ) • (K * Kᵀ)).trace = ∑ i, hs.eigenvalues i := by
      rw [hs.trace_eq_sum_eigenvalues]; simp
    rw [Matrix.trace_add, Matrix.trace_smul, trace_mul_transpose, Matrix.trace_one] at h1
    rw [Finset.sum_sub_distrib, ← h1]
    simp
  rw [hdet]
  constructor
  · calc (1 : ℝ) = ∏ _i : ι, (1 : ℝ) := by simp
      _ ≤ _ := Finset.prod_le_prod (fun _ _ => zero_le_one) fun i _ => hev i
  · rw [← htr, Real.exp_sum]
    refine Finset.prod_le_prod (fun i _ => by linarith [hev i]) fun i _ => ?_
    have := Real.add_one_le_exp (hs.eigenvalues i - 1)
    linarith

/-- `1 + c K Kᵀ` is positive definite if all its eigenvalues are positive. -/
theorem posDef_one_sub {K : Matrix ι κ ℝ} {θ : ℝ} (hθ : θ < 1)
    (h : ∀ z : ι → ℝ, ∑ s, (∑ i, z i * K i s) ^ 2 ≤ θ * ∑ i, z i ^ 2) : (1 - K * Kᵀ).PosDef := by
  have e : 1 - K * Kᵀ = 1 + (-1 : ℝ) • (K * Kᵀ) := by rw [neg_smul, one_smul, sub_eq_add_neg]
  rw [e]
  have hs := symm_one_add K (-1)
  rw [hs.posDef_iff_eigenvalues_pos]
  intro i
  obtain ⟨z, hz, hzi⟩ := eigen_form K (-1) hs i
  have h1 := h z
  rw [hz] at h1
  linarith

theorem posDef_one_add (K : Matrix ι κ ℝ) : (1 + K * Kᵀ).PosDef := by
  have e : 1 + K * Kᵀ = 1 + (1 : ℝ) • (K * Kᵀ) := by rw [one_smul]
  rw [e]
  have hs := symm_one_add K 1
  rw [hs.posDef_iff_eigenvalues_pos]
  intro i
  obtain ⟨z, hz, hzi⟩ := eigen_form K 1 hs i
  have h2 : 0 ≤ ∑ s, (∑ j, z j * K j s) ^ 2 := Finset.sum_nonneg fun s _ => sq_nonneg _
  linarith

/-- Rank-one update. -/
theorem det_rank_one {B : Matrix ι ι ℝ} (hB : B.PosDef) (r : ι → ℝ) :
    (B - of fun i j => r i * r j).det ≤ B.det ∧ B.det ≤ (B + of fun i j => r i * r j).det := by
  have hpos := hB.det_pos
  have hu : IsUnit B.det := isUnit_iff_ne_zero.mpr hpos.ne'
  have hq : 0 ≤ r ⬝ᵥ (B⁻¹ *ᵥ r) := by
    have := hB.inv.posSemidef.dotProduct_mulVec_nonneg r
    simpa using this
  have key : ∀ c : ℝ, (B + c • of fun i j => r i * r j).det = B.det * (1 + c * (r ⬝ᵥ (B⁻¹ *ᵥ r))) := by
    intro c
    have e : (c • of fun i j => r i * r j : Matrix ι ι ℝ) = (of fun i (_ : Unit) => c * r i) * (of fun (_ : Unit) j => r j) := by
      ext i j
      simp [Matrix.mul_apply, mul_assoc]
    rw [e, Matrix.det_add_mul _ _ hu]
    congr 1
    rw [Matrix.det_unique, Matrix.add_apply, Matrix.one_apply_eq]
    congr 1
    rw [Matrix.mul_assoc]
    simp only [Matrix.mul_apply, of_apply, dotProduct, Matrix.mulVec, Finset.mul_sum]
    refine Finset.sum_congr rfl fun i _ => Finset.sum_congr rfl fun j _ => ?_
    ring
  constructor
  · have := key (-1)
    rw [neg_smul, one_smul, ← sub_eq_add_neg] at this
    rw [this]
    nlinarith
  · have := key 1
    rw [one_smul] at this
    rw [this]
    nlinarith

end

/-- the upper left `n × p` corner of an infinite array -/
def corner (H : ℕ → ℕ → ℝ) (n p : ℕ) : Matrix (Fin n) (Fin p) ℝ := of fun i s => H i.1 s.1

theorem corner_transpose (H : ℕ → ℕ → ℝ) (n p : ℕ) : (corner H n p)ᵀ = corner (fun a b => H b a) p n := rfl

theorem corner_gram_succ (H : ℕ → ℕ → ℝ) (n p : ℕ) : corner (fun a b => H b a) p (n + 1) * corner H (n + 1) p =
    corner (fun a b => H b a) p n * corner H n p + of fun i j : Fin p => H n i.1 * H n j.1 := by
  ext i j
  rw [Matrix.add_apply, Matrix.mul_apply, Matrix.mul_apply, Fin.sum_univ_castSucc]
  rfl

/-- Contraction property of all corners. -/
def Contr (H : ℕ → ℕ → ℝ) (θ : ℝ) : Prop :=
  ∀ n p (z : Fin n → ℝ), ∑ s : Fin p, (∑ i, z i * corner H n p i s) ^ 2 ≤ θ * ∑ i, z i ^ 2

/-- A contraction's transpose is a contraction (Cauchy-Schwarz). -/
theorem Contr.swap {H : ℕ → ℕ → ℝ} {θ : ℝ} (hθ : 0 ≤ θ) (h : Contr H θ) : Contr (fun a b => H b a) θ := by
  intro p n z
  -- `|Kz|² = ⟨z, Kᵀ K z⟩ ≤ |z| |Kᵀ K z| ≤ |z| √θ |K z|`
  set y : Fin n → ℝ := fun i => ∑ s, z s * H i.1 s.1 with hy
  have h1 : ∑ i, y i ^ 2 = ∑ s, z s * ∑ i, y i * H i.1 s.1 := by
    simp only [Finset.mul_sum]
    rw [Finset.sum_comm]
    refine Finset.sum_congr rfl fun i _ => ?_
    rw [sq]
    nth_rw 2 [hy]
    simp only []
    rw [Finset.mul_sum]
    refine Finset.sum_congr rfl fun s _ => ?_
    ring
  have h2 := Finset.sum_mul_sq_le_sq_mul_sq Finset.univ z (fun s : Fin p => ∑ i, y i * H i.1 s.1)
  have h3 : ∑ s : Fin p, (∑ i, y i * H i.1 s.1) ^ 2 ≤ θ * ∑ i, y i ^ 2 := h n p y
  rw [← h1] at h2
  have hz : 0 ≤ ∑ s, z s ^ 2 := Finset.sum_nonneg fun s _ => sq_nonneg _
  have hY : 0 ≤ ∑ i, y i ^ 2 := Finset.sum_nonneg fun s _ => sq_nonneg _
  have h4 : (∑ i, y i ^ 2) ^ 2 ≤ (∑ s, z s ^ 2) * (θ * ∑ i, y i ^ 2) := h2.trans (mul_le_mul_of_nonneg_left h3 hz)
  show ∑ i, y i ^ 2 ≤ θ * ∑ s, z s ^ 2
  rcases hY.eq_or_lt with h0 | h0
  · rw [← h0]; positivity
  · refine le_of_mul_le_mul_right ?_ h0
    rw [← sq]
    linarith

/-- `det(1 - K Kᵀ)` decreases with the number of rows and columns. -/
theorem det_corner_antitone {H : ℕ → ℕ → ℝ} {θ : ℝ} (hθ0 : 0 ≤ θ) (hθ : θ < 1) (h : Contr H θ) {n n' p p' : ℕ}
    (hn : n ≤ n') (hp : p ≤ p') :
    (1 - corner H n' p' * (corner H n' p')ᵀ).det ≤ (1 - corner H n p * (corner H n p)ᵀ).det := by
  have rows : ∀ {G : ℕ → ℕ → ℝ}, Contr G θ → ∀ n p, (1 - corner G (n + 1) p * (corner G (n + 1) p)ᵀ).det ≤
      (1 - corner G n p * (corner G n p)ᵀ).det := by
    intro G hG n p
    rw [det_one_sub_mul_comm, det_one_sub_mul_comm (corner G n p), corner_transpose, corner_gram_succ, ← sub_sub]
    refine (det_rank_one ?_ _).1
    have := posDef_one_sub hθ (hG.swap hθ0 p n)
    exact this
  have rows' : ∀ {G : ℕ → ℕ → ℝ}, Contr G θ → ∀ p, Antitone fun n => (1 - corner G n p * (corner G n p)ᵀ).det :=
    fun hG p => antitone_nat_of_succ_le fun n => rows hG n p
  refine (rows' h p' hn).trans ?_
  have hsw := rows' (h.swap hθ0) n hp
  simp only [corner_transpose] at hsw ⊢
  rw [det_one_sub_mul_comm, det_one_sub_mul_comm (corner H n p)]
  exact hsw

/-- `det(1 + K Kᵀ)` increases with the number of rows and columns. -/
theorem det_corner_monotone (H : ℕ → ℕ → ℝ) {n n' p p' : ℕ} (hn : n ≤ n') (hp : p ≤ p') :
    (1 + corner H n p * (corner H n p)ᵀ).det ≤ (1 + corner H n' p' * (corner H n' p')ᵀ).det := by
  have rows : ∀ (G : ℕ → ℕ → ℝ) n p, (1 + corner G n p * (corner G n p)ᵀ).det ≤
      (1 + corner G (n + 1) p * (corner G (n + 1) p)ᵀ).det := by
    intro G n p
    rw [det_one_add_mul_comm, det_one_add_mul_comm (corner G (n + 1) p), corner_transpose, corner_transpose, corner_gram_succ,
      ← add_assoc]
    exact (det_rank_one (posDef_one_add (corner (fun a b => G b a) p n)) _).2
  have rows' : ∀ (G : ℕ → ℕ → ℝ) p, Monotone fun n => (1 + corner G n p * (corner G n p)ᵀ).det :=
    fun G p => monotone_nat_of_le_succ fun n => rows G n p
  refine le_trans ?_ (rows' H p' hn)
  have hsw := rows' (fun a b => H b a) n hp
  simp only [corner_transpose] at hsw ⊢
  rw [det_one_add_mul_comm, det_one_add_mul_comm (corner H n p')]
  exact hsw

end CasSph
