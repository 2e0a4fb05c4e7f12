import Verif.Lemmas.BesselSpec
import Mathlib.Analysis.Calculus.Deriv.MeanValue

/-! # Turán inequality for `i_l` and monotonicity of `x i_l / i_{l+1}` -/

namespace CasSph

open Spec Filter Topology Nat

theorem turan_deriv (l : ℕ) {x : ℝ} (hx : 0 < x) :
    HasDerivAt (fun x => x ^ 3 * (sphI (l + 1) x ^ 2 - sphI l x * sphI (l + 2) x)) (2 * x ^ 2 * sphI (l + 1) x ^ 2) x := by
  have h0 := sphI_deriv l hx
  have h1 := sphI_deriv (l + 1) hx
  have h2 := sphI_deriv (l + 2) hx
  have r0 := sphI_rec l hx.ne'
  have r1 := sphI_rec (l + 1) hx.ne'
  have h := (hasDerivAt_pow 3 x).mul ((h1.pow 2).sub (h0.mul h2))
  refine h.congr_deriv ?_
  rw [r1]
  simp only [show l + 1 + 1 = l + 2 by omega] at *
  rw [r0]
  push_cast
  simp only [Pi.sub_apply, Pi.mul_apply, Pi.pow_apply]
  rw [r0]
  field_simp
  ring

theorem sphI_mul_tendsto (l : ℕ) : Tendsto (fun x => x * sphI l x) (𝓝[>] 0) (𝓝 0) := by
  have h0 : Tendsto (fun k : ℝ => k) (𝓝[>] 0) (𝓝 0) := tendsto_id.mono_left nhdsWithin_le_nhds
  have h := (h0.pow (l + 1)).mul (sphI_tendsto l)
  simp only [ne_eq, Nat.add_eq_zero_iff, one_ne_zero, and_false, not_false_eq_true, zero_pow, zero_mul] at h
  refine h.congr' ?_
  filter_upwards [self_mem_nhdsWithin] with x hx
  have hx : 0 < x := hx
  rw [pow_succ]
  field_simp

theorem turan (l : ℕ) {x : ℝ} (hx : 0 < x) : sphI l x * sphI (l + 2) x < sphI (l + 1) x ^ 2 := by
  set W : ℝ → ℝ := fun x => x ^ 3 * (sphI (l + 1) x ^ 2 - sphI l x * sphI (l + 2) x) with hW
  have hd : ∀ y, 0 < y → HasDerivAt W (2 * y ^ 2 * sphI (l + 1) y ^ 2) y := fun y hy => turan_deriv l hy
  have hm : StrictMonoOn W (Set.Ioi 0) := by
    apply strictMonoOn_of_deriv_pos (convex_Ioi 0)
    · intro y hy
      exact (hd y hy).continuousAt.continuousWithinAt
    · intro y hy
      rw [interior_Ioi] at hy
      have hy' : 0 < y := hy
      rw [(hd y hy).deriv]
      have := sphI_pos (l + 1) hy
      positivity
  have hlim : Tendsto W (𝓝[>] 0) (𝓝 0) := by
    have h0 : Tendsto (fun k : ℝ => k) (𝓝[>] 0) (𝓝 0) := tendsto_id.mono_left nhdsWithin_le_nhds
    have h := h0.mul (((sphI_mul_tendsto (l + 1)).pow 2).sub ((sphI_mul_tendsto l).mul (sphI_mul_tendsto (l + 2))))
    rw [zero_mul] at h
    refine h.congr ?_
    intro y
    rw [hW]; ring
  have hx2 : 0 < x / 2 := by linarith
  have h1 : 0 ≤ W (x / 2) := by
    refine le_of_tendsto hlim ?_
    filter_upwards [self_mem_nhdsWithin, Ioo_mem_nhdsGT hx2] with y hy hy2
    exact (hm hy hx2 hy2.2).le
  have h2 : W (x / 2) < W x := hm hx2 hx (by linarith)
  have h3 : 0 < x ^ 3 * (sphI (l + 1) x ^ 2 - sphI l x * sphI (l + 2) x) := lt_of_le_of_lt h1 h2
  have := pos_of_mul_pos_right h3 (by positivity)
  linarith

theorem sphI_ratio_deriv (l : ℕ) {x : ℝ} (hx : 0 < x) :
    HasDerivAt (fun x => x * (sphI l x / sphI (l + 1) x))
      (x * (sphI (l + 1) x ^ 2 - sphI l x * sphI (l + 2) x) / sphI (l + 1) x ^ 2) x := by
  have h0 := sphI_deriv l hx
  have h1 := sphI_deriv (l + 1) hx
  have r0 := sphI_rec l hx.ne'
  have p := sphI_pos (l + 1) hx
  have h := (hasDerivAt_id x).mul (h0.div h1 p.ne')
  refine h.congr_deriv ?_
  simp only [show l + 1 + 1 = l + 2 by omega, id, Pi.div_apply] at *
  rw [r0]
  push_cast
  field_simp
  ring

/-- `x i_l / i_{l+1}` is strictly increasing. -/
theorem sphI_ratio_strictMono (l : ℕ) : StrictMonoOn (fun x => x * (sphI l x / sphI (l + 1) x)) (Set.Ioi 0) := by
  apply strictMonoOn_of_deriv_pos (convex_Ioi 0)
  · intro y hy
    exact (sphI_ratio_deriv l hy).continuousAt.continuousWithinAt
  · intro y hy
    rw [interior_Ioi] at hy
    have hy' : 0 < y := hy
    rw [(sphI_ratio_deriv l hy).deriv]
    have := turan l hy
    have p := sphI_pos (l + 1) hy
    exact div_pos (mul_pos hy' (by linarith)) (by positivity)

end CasSph
