import Mathlib.LinearAlgebra.Matrix.Charpoly.Eigs
import Mathlib.LinearAlgebra.Matrix.Charpoly.Coeff
import Mathlib.Analysis.SpecialFunctions.Complex.LogBounds
import Mathlib.Analysis.Complex.Polynomial.Basic
import Mathlib.Algebra.Polynomial.Splits
import Verif.Spec.MSum

/-! `ln|det(1-A)| = - ∑ tr(A^k)/k` for matrices with eigenvalues inside the unit disc. -/

namespace CasSph

open Matrix Polynomial

variable {n : Type*} [Fintype n] [DecidableEq n]

theorem card_roots_charpoly (A : Matrix n n ℂ) :
    Multiset.card A.charpoly.roots = Fintype.card n := by
  have hcs : A.charpoly.Splits := IsAlgClosed.splits _
  rw [← hcs.natDegree_eq_card_roots, charpoly_natDegree_eq_dim]

theorem det_sub_scalar (A : Matrix n n ℂ) (μ : ℂ) :
    (scalar n μ - A).det = (A.charpoly.roots.map fun z => μ - z).prod := by
  have hcs : A.charpoly.Splits := IsAlgClosed.splits _
  rw [← eval_charpoly, hcs.eval_eq_prod_roots_of_monic A.charpoly_monic]

/-- `det p(A) = ∏ p(λ)`. -/
theorem det_aeval (A : Matrix n n ℂ) (p : ℂ[X]) :
    (aeval A p).det = (A.charpoly.roots.map fun z => p.eval z).prod := by
  have hX : ∀ μ : ℂ, (aeval A (X - C μ)).det = (A.charpoly.roots.map fun z => (X - C μ).eval z).prod := by
    intro μ
    have h2 : aeval A (X - C μ) = -(scalar n μ - A) := by
      rw [map_sub, aeval_X, aeval_C, neg_sub, algebraMap_eq_diagonal]
      rfl
    rw [h2, det_neg, det_sub_scalar, ← card_roots_charpoly A,
      ← Multiset.card_map (fun z => μ - z) A.charpoly.roots, ← Multiset.prod_map_neg,
      Multiset.map_map]
    congr 1
    refine Multiset.map_congr rfl fun z _ => ?_
    simp
  have hC : ∀ c : ℂ, (aeval A (C c)).det = (A.charpoly.roots.map fun z => (C c).eval z).prod := by
    intro c
    rw [aeval_C, algebraMap_eq_diagonal, det_diagonal]
    simp [card_roots_charpoly]
  have hmul : ∀ p q : ℂ[X], (aeval A p).det = (A.charpoly.roots.map fun z => p.eval z).prod →
      (aeval A q).det = (A.charpoly.roots.map fun z => q.eval z).prod →
      (aeval A (p * q)).det = (A.charpoly.roots.map fun z => (p * q).eval z).prod := by
    intro p q hp hq
    rw [map_mul, det_mul, hp, hq, ← Multiset.prod_map_mul]
    simp
  have hsplit : p.Splits := IsAlgClosed.splits p
  rw [hsplit.eq_prod_roots]
  refine hmul _ _ (hC _) ?_
  induction p.roots using Multiset.induction_on with
  | empty => simp
  | cons μ s ih =>
    rw [Multiset.map_cons, Multiset.prod_cons]
    exact hmul _ _ (hX μ) ih

/-- `tr A^k = ∑ λ^k`. -/
theorem trace_pow_eq (A : Matrix n n ℂ) (k : ℕ) :
    (A ^ k).trace = (A.charpoly.roots.map fun z => z ^ k).sum := by
  have hcp : (A ^ k).charpoly = ((A.charpoly.roots.map fun z => z ^ k).map fun z => X - C z).prod := by
    refine Polynomial.funext fun μ => ?_
    rw [eval_charpoly]
    have : scalar n μ - A ^ k = aeval A (C μ - X ^ k) := by
      rw [map_sub, aeval_C, map_pow, aeval_X, algebraMap_eq_diagonal]
      rfl
    rw [this, det_aeval, eval_multiset_prod, Multiset.map_map, Multiset.map_map]
    congr 1
    refine Multiset.map_congr rfl fun z _ => ?_
    simp
  rw [trace_eq_sum_roots_charpoly, hcp, roots_multiset_prod_X_sub_C]

/-- Eigenvalues inside the unit disc. -/
theorem hasSum_trace (A : Matrix n n ℂ) (h : ∀ z ∈ A.charpoly.roots, ‖z‖ < 1) :
    HasSum (fun k : ℕ => ((A ^ k).trace / k).re) (-Real.log ‖(1 - A).det‖) := by
  have hdet : (1 - A).det = (A.charpoly.roots.map fun z => 1 - z).prod := by
    rw [← det_sub_scalar]; simp
  rw [hdet]
  simp_rw [trace_pow_eq]
  clear hdet
  revert h
  generalize A.charpoly.roots = s
  intro h
  induction s using Multiset.induction_on with
  | empty => simp
  | cons μ s ih =>
    have hμ : ‖μ‖ < 1 := h μ (Multiset.mem_cons_self _ _)
    have h1 := Complex.hasSum_re (Complex.hasSum_taylorSeries_neg_log hμ)
    have h2 := ih fun z hz => h z (Multiset.mem_cons_of_mem hz)
    have h3 := h1.add h2
    simp only [Multiset.map_cons, Multiset.sum_cons, Multiset.prod_cons, norm_mul]
    have hne : ∀ z ∈ μ ::ₘ s, 1 - z ≠ 0 := by
      intro z hz h0
      have := h z hz
      rw [← sub_eq_zero.1 h0] at this
      simp at this
    rw [Real.log_mul, neg_add]
    · convert h3 using 2 with k
      · rw [add_div, Complex.add_re]
      · rw [Complex.neg_re, Complex.log_re]
    · exact norm_ne_zero_iff.2 (hne μ (Multiset.mem_cons_self _ _))
    · rw [norm_ne_zero_iff]
      intro h0
      rw [Multiset.prod_eq_zero_iff, Multiset.mem_map] at h0
      obtain ⟨z, hz, hz0⟩ := h0
      exact hne z (Multiset.mem_cons_of_mem hz) hz0

/-- Real matrices. -/
theorem hasSum_trace_real (A : Matrix n n ℝ)
    (h : ∀ (z : ℂ) (x : n → ℂ), x ≠ 0 → A.map Complex.ofReal *ᵥ x = z • x → ‖z‖ < 1) :
    HasSum (fun k : ℕ => (A ^ k).trace / k) (-Real.log |(1 - A).det|) := by
  have hm : ∀ B : Matrix n n ℝ, B.map Complex.ofReal = Complex.ofRealHom.mapMatrix B := fun B => rfl
  have hr : ∀ z ∈ (A.map Complex.ofReal).charpoly.roots, ‖z‖ < 1 := by
    intro z hz
    have h0 := (Polynomial.mem_roots'.1 hz).2
    rw [IsRoot.def, eval_charpoly] at h0
    obtain ⟨x, hx, hx0⟩ := Matrix.exists_mulVec_eq_zero_iff.2 h0
    refine h z x hx ?_
    rw [sub_mulVec, sub_eq_zero] at hx0
    rw [← hx0]
    ext i
    simp [mulVec_diagonal]
  have := hasSum_trace (A.map Complex.ofReal) hr
  convert this using 2 with k
  · rw [hm, ← map_pow]
    have e : (Complex.ofRealHom.mapMatrix (A ^ k)).trace = (((A ^ k).trace : ℝ) : ℂ) := by
      simp [Matrix.trace]
    rw [e, ← Complex.ofReal_natCast, ← Complex.ofReal_div, Complex.ofReal_re]
  · have e : (1 - A.map Complex.ofReal).det = (((1 - A).det : ℝ) : ℂ) := by
      rw [hm, ← map_one (Complex.ofRealHom.mapMatrix (m := n)), ← map_sub, ← RingHom.map_det]
      rfl
    rw [e, Complex.norm_real, Real.norm_eq_abs]

end CasSph
