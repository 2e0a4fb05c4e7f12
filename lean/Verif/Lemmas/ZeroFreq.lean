import Verif.Props.TransLimit
import Verif.Props.Blocks
import Mathlib.Topology.Instances.Matrix
import Mathlib.LinearAlgebra.Matrix.SchurComplement

/-! # Low-frequency limit of the determinant of a round-trip operator -/

namespace CasSph

open Spec Filter Topology Nat Matrix

variable {n p : ℕ}

theorem roundTrip_blocks (aE aM : Fin n → ℝ) (bE bM : Fin p → ℝ) (fE fX gE gX : Matrix (Fin n) (Fin p) ℝ) :
    roundTrip aE aM bE bM fE fX gE gX = fromBlocks
      (of fun i j => ∑ s, (aE i * fE i s * bE s * gE j s + aE i * fX i s * bM s * gX j s))
      (of fun i j => ∑ s, (aE i * fE i s * bE s * gX j s + aE i * fX i s * bM s * gE j s))
      (of fun i j => ∑ s, (aM i * fX i s * bE s * gE j s + aM i * fE i s * bM s * gX j s))
      (of fun i j => ∑ s, (aM i * fX i s * bE s * gX j s + aM i * fE i s * bM s * gE j s)) := by
  unfold roundTrip
  simp only [fromBlocks_multiply, Matrix.zero_mul, Matrix.mul_zero, add_zero, zero_add]
  congr 1 <;> ext i j <;> simp only [Matrix.add_apply, four_product, of_apply, Finset.sum_add_distrib]

/-- Rescaling reflection coefficients by `t^-(2l+1)` and translation coefficients by `t^(l+l''+1)` is a similarity. -/
theorem roundTrip_rescale (l0 : ℕ) {t : ℝ} (ht : 0 < t) (aE aM : Fin n → ℝ) (bE bM : Fin p → ℝ)
    (fE fX gE gX : Matrix (Fin n) (Fin p) ℝ) :
    SameRoundTrip
      (roundTrip (fun i => aE i / t ^ (2 * (l0 + i.1) + 1)) (fun i => aM i / t ^ (2 * (l0 + i.1) + 1))
        (fun s => bE s / t ^ (2 * (l0 + s.1) + 1)) (fun s => bM s / t ^ (2 * (l0 + s.1) + 1))
        (of fun i s => t ^ (l0 + i.1 + (l0 + s.1) + 1) * fE i s) (of fun i s => t ^ (l0 + i.1 + (l0 + s.1) + 1) * fX i s)
        (of fun i s => t ^ (l0 + i.1 + (l0 + s.1) + 1) * gE i s) (of fun i s => t ^ (l0 + i.1 + (l0 + s.1) + 1) * gX i s))
      (roundTrip aE aM bE bM fE fX gE gX) := by
  refine sameRoundTrip_of_diag (Sum.elim (fun i => (t ^ (l0 + i.1))⁻¹) (fun i => (t ^ (l0 + i.1))⁻¹))
    (by rintro (i | i) <;> simp [ht.ne']) ?_
  have key : ∀ (a : ℝ) (b f g : ℝ) (i j : Fin n) (s : Fin p),
      a / t ^ (2 * (l0 + i.1) + 1) * (t ^ (l0 + i.1 + (l0 + s.1) + 1) * f) * (b / t ^ (2 * (l0 + s.1) + 1)) *
        (t ^ (l0 + j.1 + (l0 + s.1) + 1) * g) = (t ^ (l0 + i.1))⁻¹ * (a * f * b * g) * ((t ^ (l0 + j.1))⁻¹)⁻¹ := by
    intro a b f g i j s
    generalize l0 + i.1 = x
    generalize l0 + j.1 = y
    generalize l0 + s.1 = z
    rw [two_mul, two_mul]
    simp only [pow_add, pow_one, inv_inv]
    have := pow_pos ht x
    have := pow_pos ht y
    have := pow_pos ht z
    field_simp
  rintro (i | i) (j | j) <;>
    simp only [roundTrip_blocks, fromBlocks_apply₁₁, fromBlocks_apply₁₂, fromBlocks_apply₂₁, fromBlocks_apply₂₂, of_apply,
      Sum.elim_inl, Sum.elim_inr, key] <;>
    simp only [Finset.mul_sum, Finset.sum_mul, mul_add, add_mul]

/-- If the rescaled coefficients converge and the mixing ones vanish in the limit, the determinant converges to the product
of the determinants of the two polarisations. -/
theorem det_roundTrip_limit {F : Filter ℝ} (l0 : ℕ) {t : ℝ → ℝ} (ht : ∀ᶠ k in F, 0 < t k)
    {aE aM : ℝ → Fin n → ℝ} {bE bM : ℝ → Fin p → ℝ} {fE fX gE gX : ℝ → Matrix (Fin n) (Fin p) ℝ}
    {aE0 aM0 : Fin n → ℝ} {bE0 bM0 : Fin p → ℝ} {f0 g0 : Matrix (Fin n) (Fin p) ℝ}
    (haE : ∀ i, Tendsto (fun k => aE k i / t k ^ (2 * (l0 + i.1) + 1)) F (𝓝 (aE0 i)))
    (haM : ∀ i, Tendsto (fun k => aM k i / t k ^ (2 * (l0 + i.1) + 1)) F (𝓝 (aM0 i)))
    (hbE : ∀ s, Tendsto (fun k => bE k s / t k ^ (2 * (l0 + s.1) + 1)) F (𝓝 (bE0 s)))
    (hbM : ∀ s, Tendsto (fun k => bM k s / t k ^ (2 * (l0 + s.1) + 1)) F (𝓝 (bM0 s)))
    (hfE : ∀ i s, Tendsto (fun k => t k ^ (l0 + i.1 + (l0 + s.1) + 1) * fE k i s) F (𝓝 (f0 i s)))
    (hfX : ∀ i s, Tendsto (fun k => t k ^ (l0 + i.1 + (l0 + s.1) + 1) * fX k i s) F (𝓝 0))
    (hgE : ∀ i s, Tendsto (fun k => t k ^ (l0 + i.1 + (l0 + s.1) + 1) * gE k i s) F (𝓝 (g0 i s)))
    (hgX : ∀ i s, Tendsto (fun k => t k ^ (l0 + i.1 + (l0 + s.1) + 1) * gX k i s) F (𝓝 0)) :
    Tendsto (fun k => (1 - roundTrip (aE k) (aM k) (bE k) (bM k) (fE k) (fX k) (gE k) (gX k)).det) F
      (𝓝 ((1 - diagonal aE0 * f0 * diagonal bE0 * g0ᵀ).det * (1 - diagonal aM0 * f0 * diagonal bM0 * g0ᵀ).det)) := by
  have hM : Tendsto (fun k => roundTrip (fun i => aE k i / t k ^ (2 * (l0 + i.1) + 1))
        (fun i => aM k i / t k ^ (2 * (l0 + i.1) + 1))
        (fun s => bE k s / t k ^ (2 * (l0 + s.1) + 1)) (fun s => bM k s / t k ^ (2 * (l0 + s.1) + 1))
        (of fun i s => t k ^ (l0 + i.1 + (l0 + s.1) + 1) * fE k i s)
        (of fun i s => t k ^ (l0 + i.1 + (l0 + s.1) + 1) * fX k i s)
        (of fun i s => t k ^ (l0 + i.1 + (l0 + s.1) + 1) * gE k i s)
        (of fun i s => t k ^ (l0 + i.1 + (l0 + s.1) + 1) * gX k i s)) F
      (𝓝 (roundTrip aE0 aM0 bE0 bM0 f0 0 g0 0)) := by
    refine tendsto_pi_nhds.mpr fun x => tendsto_pi_nhds.mpr fun y => ?_
    rcases x with i | i <;> rcases y with j | j <;>
      simp only [roundTrip_blocks, fromBlocks_apply₁₁, fromBlocks_apply₁₂, fromBlocks_apply₂₁, fromBlocks_apply₂₂, of_apply,
        Matrix.zero_apply] <;>
      refine tendsto_finsetSum _ fun s _ => ?_
    · exact ((((haE i).mul (hfE i s)).mul (hbE s)).mul (hgE j s)).add
        ((((haE i).mul (hfX i s)).mul (hbM s)).mul (hgX j s))
    · exact ((((haE i).mul (hfE i s)).mul (hbE s)).mul (hgX j s)).add
        ((((haE i).mul (hfX i s)).mul (hbM s)).mul (hgE j s))
    · exact ((((haM i).mul (hfX i s)).mul (hbE s)).mul (hgE j s)).add
        ((((haM i).mul (hfE i s)).mul (hbM s)).mul (hgX j s))
    · exact ((((haM i).mul (hfX i s)).mul (hbE s)).mul (hgX j s)).add
        ((((haM i).mul (hfE i s)).mul (hbM s)).mul (hgE j s))
  have hdet : Continuous fun M : Matrix (Fin n ⊕ Fin n) (Fin n ⊕ Fin n) ℝ => (1 - M).det :=
    (continuous_const.sub continuous_id).matrix_det
  have h := (hdet.tendsto _).comp hM
  have e0 : (1 - roundTrip aE0 aM0 bE0 bM0 f0 0 g0 0).det =
      (1 - diagonal aE0 * f0 * diagonal bE0 * g0ᵀ).det * (1 - diagonal aM0 * f0 * diagonal bM0 * g0ᵀ).det := by
    unfold roundTrip
    simp only [fromBlocks_multiply, Matrix.zero_mul, Matrix.mul_zero, add_zero, zero_add, Matrix.transpose_zero]
    rw [← fromBlocks_one, sub_eq_add_neg, fromBlocks_neg, fromBlocks_add, neg_zero, add_zero, det_fromBlocks_zero₂₁,
      ← sub_eq_add_neg, ← sub_eq_add_neg]
  rw [e0] at h
  refine h.congr' ?_
  filter_upwards [ht] with k hk
  exact (roundTrip_rescale l0 hk _ _ _ _ _ _ _ _).det

/-- The polarisation-mixing translation coefficients vanish relative to the conserving ones. -/
theorem ext_mixing_limit {lmax lssmax l1 l2 : ℕ} {m : ℤ} (h1' : l1 ≤ lmax) (h2' : l2 ≤ lssmax)
    (bes : ℝ → List ℝ) (v : ℝ → VCoef)
    (hb : ∀ x, 0 < x → transBessels [x] (.int (lmax + lssmax + 1 : ℕ)) 1 = .ok [bes x])
    (hv : ∀ x, 0 < x → getVl1l2 true m x (bes x) l1 l2 = .ok (v x)) :
    Tendsto (fun x => x ^ (l1 + l2 + 1) * ((v x).EMab * Real.exp (v x).sk)) (𝓝[>] 0) (𝓝 0) := by
  have hle := lppMin_le l1 l2
  set c : ℕ → ℝ := fun i => 2 * m * (gnt l1 l2 m i * commonFac true m l1 l2 (lppMin l1 l2 + 2 * i)) with hc
  have hval : ∀ x, 0 < x → x ^ (l1 + l2 + 1) * ((v x).EMab * Real.exp (v x).sk) =
      ∑ i ∈ Finset.range (min l1 l2 + 1), x * (c i * x ^ (2 * (min l1 l2 - i)) *
        (x ^ (lppMin l1 l2 + 2 * i + 1) * sphK (lppMin l1 l2 + 2 * i) x)) := by
    intro x hx
    have hbx := hb x hx
    rw [trans_row_ext] at hbx
    have hbes : bes x = (List.range (lmax + lssmax + 1 + 1)).map (lnk1 x) := by
      injection hbx with hbx; injection hbx with hbx; exact hbx.symm
    have hlen : (bes x).length = lmax + lssmax + 2 := by simp [hbes]
    have hget : ∀ i, i < lmax + lssmax + 2 → (bes x).getD i 0 = lnk1 x i := by
      intro i hi
      rw [List.getD_eq_getElem?_getD, hbes, List.getElem?_map, List.getElem?_range (by omega)]; rfl
    have hvx := hv x hx
    rw [getVl1l2_ok true m x (by omega)] at hvx
    injection hvx with hvx
    rw [← hvx]
    unfold vVal
    simp only []
    rw [Finset.sum_mul, Finset.mul_sum]
    refine Finset.sum_congr rfl fun i hi => ?_
    rw [Finset.mem_range] at hi
    have e1 : Real.exp ((bes x).getD (lppMin l1 l2 + 2 * i) 0 - besNorm true (bes x) l1 l2) *
        Real.exp (besNorm true (bes x) l1 l2) = sphK (lppMin l1 l2 + 2 * i) x := by
      rw [← Real.exp_add, sub_add_cancel, hget _ (by omega), exp_lnk1 hx]
    have e2 : x ^ (l1 + l2 + 1) = x ^ (2 * (min l1 l2 - i)) * x ^ (lppMin l1 l2 + 2 * i + 1) := by
      rw [← pow_add]; congr 1; omega
    rw [e2, hc]
    unfold vCommon
    simp only []
    rw [← e1]
    ring
  have hlim : Tendsto (fun x => ∑ i ∈ Finset.range (min l1 l2 + 1), x * (c i * x ^ (2 * (min l1 l2 - i)) *
        (x ^ (lppMin l1 l2 + 2 * i + 1) * sphK (lppMin l1 l2 + 2 * i) x))) (𝓝[>] 0)
      (𝓝 (∑ i ∈ Finset.range (min l1 l2 + 1), 0 * (c i * 0 ^ (2 * (min l1 l2 - i)) *
        (Real.pi / 2 * ((2 * (lppMin l1 l2 + 2 * i) - 1)‼ : ℝ))))) := by
    refine tendsto_finsetSum _ fun i _ => ?_
    refine Tendsto.mul (tendsto_id.mono_left nhdsWithin_le_nhds) ?_
    refine Tendsto.mul (Tendsto.mul tendsto_const_nhds ?_) (sphK_tendsto _)
    exact ((continuous_pow (2 * (min l1 l2 - i))).tendsto 0).mono_left nhdsWithin_le_nhds
  simp only [zero_mul, Finset.sum_const_zero] at hlim
  refine hlim.congr' ?_
  filter_upwards [self_mem_nhdsWithin] with x hx
  exact (hval x hx).symm

end CasSph
