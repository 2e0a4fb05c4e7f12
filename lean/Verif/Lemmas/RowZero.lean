import Verif.Lemmas.RowBounds

/-! # The row sum of the magnetic modes for `m = 0` (independent of the model) -/

namespace CasSph

open Polynomial Spec Nat Filter Topology

theorem dI_eq (c : ℕ) {ρ : ℝ} (hρ : 0 < ρ) : (2 * (c : ℝ) + 3) * dI c ρ = (c + 2) * sphI c ρ + (c + 1) * sphI (c + 2) ρ := by
  unfold dI
  have h1 := sphI_rec' c ρ
  have hρ' := hρ.ne'
  field_simp
  linear_combination ((c : ℝ) + 1) * h1

theorem dI_pos (c : ℕ) {ρ : ℝ} (hρ : 0 < ρ) : 0 < dI c ρ := by
  have h := dI_eq c hρ
  have h1 := sphI_pos c hρ
  have h2 := sphI_pos (c + 2) hρ
  have h3 : 0 < (2 * (c : ℝ) + 3) * dI c ρ := by rw [h]; positivity
  exact pos_of_mul_pos_right h3 (by positivity)

theorem dK_pos (c : ℕ) {y : ℝ} (hy : 0 < y) : 0 < dK c y := by
  unfold dK
  have h1 := sphK_pos c hy
  have h2 := sphK_pos (c + 1) hy
  positivity

/-- `(ρ i_l)' / (ρ² + l(l+1))`, `l = c+1` -/
noncomputable def qI (c : ℕ) (ρ : ℝ) : ℝ := (ρ * sphI c ρ - (c + 1) * sphI (c + 1) ρ) / (ρ ^ 2 + (c + 1) * (c + 2))

/-- `-(y k_l)' / (y² + l(l+1))`, `l = c+1` -/
noncomputable def qK (c : ℕ) (y : ℝ) : ℝ := (y * sphK c y + (c + 1) * sphK (c + 1) y) / (y ^ 2 + (c + 1) * (c + 2))

theorem qI_eq (c : ℕ) {ρ : ℝ} (hρ : 0 < ρ) : qI c ρ = ρ * dI c ρ / (ρ ^ 2 + (c + 1) * (c + 2)) := by
  unfold qI dI
  have := hρ.ne'
  congr 1
  field_simp

theorem qK_eq (c : ℕ) {y : ℝ} (hy : 0 < y) : qK c y = y * dK c y / (y ^ 2 + (c + 1) * (c + 2)) := by
  unfold qK dK
  have := hy.ne'
  congr 1
  field_simp

theorem qI_pos (c : ℕ) {ρ : ℝ} (hρ : 0 < ρ) : 0 < qI c ρ := by
  rw [qI_eq c hρ]; have := dI_pos c hρ; positivity

theorem qK_pos (c : ℕ) {y : ℝ} (hy : 0 < y) : 0 < qK c y := by
  rw [qK_eq c hy]; have := dK_pos c hy; positivity

theorem qI_deriv (c : ℕ) {ρ : ℝ} (hρ : 0 < ρ) : ∃ d, HasDerivAt (qI c) d ρ ∧ d ≤ sphI (c + 1) ρ / ρ := by
  have hn : HasDerivAt (fun ρ => ρ * sphI c ρ - (c + 1) * sphI (c + 1) ρ)
      (1 * sphI c ρ + ρ * (sphI (c + 1) ρ + c / ρ * sphI c ρ) - (c + 1) * (sphI (c + 2) ρ + ((c + 1 : ℕ) : ℝ) / ρ * sphI (c + 1) ρ)) ρ :=
    ((hasDerivAt_id ρ).mul (sphI_deriv c hρ)).sub ((sphI_deriv (c + 1) hρ).const_mul _)
  have hd : HasDerivAt (fun ρ : ℝ => ρ ^ 2 + ((c : ℝ) + 1) * (c + 2)) (2 * ρ) ρ := by
    have := (hasDerivAt_pow 2 ρ).add_const (((c : ℝ) + 1) * (c + 2))
    simpa using this
  have hν : 0 < ρ ^ 2 + ((c : ℝ) + 1) * (c + 2) := by positivity
  refine ⟨_, hn.div hd hν.ne', ?_⟩
  have hI := dI_pos c hρ
  have hN : 0 < ρ * sphI c ρ - (c + 1) * sphI (c + 1) ρ := by
    have : ρ * dI c ρ = ρ * sphI c ρ - (c + 1) * sphI (c + 1) ρ := by unfold dI; have := hρ.ne'; field_simp
    rw [← this]; positivity
  have e : (1 * sphI c ρ + ρ * (sphI (c + 1) ρ + c / ρ * sphI c ρ) - (c + 1) * (sphI (c + 2) ρ + ((c + 1 : ℕ) : ℝ) / ρ * sphI (c + 1) ρ)) =
      (ρ ^ 2 + (c + 1) * (c + 2)) * (sphI (c + 1) ρ / ρ) := by
    rw [sphI_rec c hρ.ne']
    have := hρ.ne'
    push_cast
    field_simp
    ring
  rw [e, div_le_iff₀ (by positivity)]
  have : 0 ≤ (ρ * sphI c ρ - (c + 1) * sphI (c + 1) ρ) * (2 * ρ) := by positivity
  nlinarith

theorem qK_deriv (c : ℕ) {y : ℝ} (hy : 0 < y) : ∃ d, HasDerivAt (qK c) d y ∧ sphK (c + 1) y / y ≤ -d := by
  have hn : HasDerivAt (fun y => y * sphK c y + (c + 1) * sphK (c + 1) y)
      (1 * sphK c y + y * (-sphK (c + 1) y + c / y * sphK c y) + (c + 1) * (-sphK (c + 2) y + ((c + 1 : ℕ) : ℝ) / y * sphK (c + 1) y)) y :=
    ((hasDerivAt_id y).mul (sphK_deriv c hy)).add ((sphK_deriv (c + 1) hy).const_mul _)
  have hd : HasDerivAt (fun y : ℝ => y ^ 2 + ((c : ℝ) + 1) * (c + 2)) (2 * y) y := by
    have := (hasDerivAt_pow 2 y).add_const (((c : ℝ) + 1) * (c + 2))
    simpa using this
  have hν : 0 < y ^ 2 + ((c : ℝ) + 1) * (c + 2) := by positivity
  refine ⟨_, hn.div hd hν.ne', ?_⟩
  have h1 := sphK_pos c hy
  have h2 := sphK_pos (c + 1) hy
  have e : (1 * sphK c y + y * (-sphK (c + 1) y + c / y * sphK c y) + (c + 1) * (-sphK (c + 2) y + ((c + 1 : ℕ) : ℝ) / y * sphK (c + 1) y)) =
      -((y ^ 2 + (c + 1) * (c + 2)) * (sphK (c + 1) y / y)) := by
    rw [sphK_rec c hy.ne']
    have := hy.ne'
    push_cast
    field_simp
    ring
  rw [e, ← neg_div, le_div_iff₀ (by positivity)]
  have : 0 ≤ (y * sphK c y + (c + 1) * sphK (c + 1) y) * (2 * y) := by positivity
  nlinarith

theorem qI_tendsto (c : ℕ) : Tendsto (qI c) (𝓝[>] 0) (𝓝 0) := by
  have hid : Tendsto (fun ρ : ℝ => ρ) (𝓝[>] 0) (𝓝 0) := tendsto_id.mono_left nhdsWithin_le_nhds
  have h1 := (hid.mul (sphI_tendsto_zero c)).sub ((sphI_tendsto_zero (c + 1)).const_mul ((c : ℝ) + 1))
  have h2 := (hid.pow 2).add_const (((c : ℝ) + 1) * (c + 2))
  have h := h1.div h2 (by positivity)
  have e : (0 * (if c = 0 then (1 : ℝ) else 0) - (c + 1) * if c + 1 = 0 then 1 else 0) / (0 ^ 2 + ((c : ℝ) + 1) * (c + 2)) = 0 := by simp
  rw [e] at h
  exact h

theorem row_M_zero {ρ x : ℝ} (hρ : 0 < ρ) (hx : ρ < x) (B a : ℕ) :
    ∑ c ∈ Finset.range B, (2 * (c : ℝ) + 3) * qI c ρ * lap x (eePol (a + 1) (c + 1) 0) ≤
      2 / Real.pi * ((a + 1) * (a + 2) * qK a (x - ρ)) := by
  have hx0 : 0 < x := hρ.trans hx
  have hpi := Real.pi_pos
  set E : ℕ → ℝ := fun c => lap x (eePol (a + 1) (c + 1) 0) with hE
  have hE0 : ∀ c, 0 ≤ E c := fun c => lap_nonneg hx0 fun t ht => eePol_nonneg _ _ _ ht.le
  choose dI' hdI hdI2 using fun (c : ℕ) (r : {r : ℝ // 0 < r}) => qI_deriv c r.2
  set H : ℝ → ℝ := fun r => 2 / Real.pi * ((a + 1) * (a + 2) * qK a (x - r)) -
    ∑ c ∈ Finset.range B, (2 * (c : ℝ) + 3) * qI c r * E c with hH
  have hd : ∀ r, 0 < r → r < x → ∃ d, HasDerivAt H d r ∧ 0 ≤ d := by
    intro r hr hrx
    have hy : 0 < x - r := by linarith
    obtain ⟨dk, hk1, hk2⟩ := qK_deriv a hy
    have hk3 : HasDerivAt (fun r => qK a (x - r)) (dk * -1) r :=
      HasDerivAt.comp r (h₂ := qK a) (h := fun r => x - r) hk1 ((hasDerivAt_id r).const_sub x)
    have hsum : HasDerivAt (fun r => ∑ c ∈ Finset.range B, (2 * (c : ℝ) + 3) * qI c r * E c)
        (∑ c ∈ Finset.range B, (2 * (c : ℝ) + 3) * dI' c ⟨r, hr⟩ * E c) r :=
      HasDerivAt.fun_sum fun c _ => ((hdI c ⟨r, hr⟩).const_mul _).mul_const _
    refine ⟨_, ((hk3.const_mul _).const_mul _).sub hsum, ?_⟩
    have h1 := row_E_zero hr hrx B (a := a + 1) (by omega)
    have h2 : ∑ c ∈ Finset.range B, (2 * (c : ℝ) + 3) * dI' c ⟨r, hr⟩ * E c ≤
        (∑ c ∈ Finset.range B, (2 * (c : ℝ) + 3) * sphI (c + 1) r * E c) / r := by
      rw [Finset.sum_div]
      refine Finset.sum_le_sum fun c _ => ?_
      have := mul_le_mul_of_nonneg_left (mul_le_mul_of_nonneg_right (hdI2 c ⟨r, hr⟩) (hE0 c)) (by positivity : (0 : ℝ) ≤ 2 * c + 3)
      calc _ = (2 * (c : ℝ) + 3) * (dI' c ⟨r, hr⟩ * E c) := by ring
        _ ≤ _ := this
        _ = _ := by simp only; ring
    have h3 : (∑ c ∈ Finset.range B, (2 * (c : ℝ) + 3) * sphI (c + 1) r * E c) / r ≤
        2 / Real.pi * ((a + 1) * (a + 2) * (sphK (a + 1) (x - r) / (x - r))) := by
      rw [div_le_iff₀ hr]
      refine h1.trans (le_of_eq ?_)
      push_cast
      ring
    have h4 : 2 / Real.pi * (((a : ℝ) + 1) * (a + 2) * (sphK (a + 1) (x - r) / (x - r))) ≤
        2 / Real.pi * (((a : ℝ) + 1) * (a + 2) * (dk * -1)) := by
      refine mul_le_mul_of_nonneg_left (mul_le_mul_of_nonneg_left ?_ (by positivity)) (by positivity)
      linarith
    linarith
  choose! dH hdH hdH2 using hd
  have hmono : MonotoneOn H (Set.Ioo 0 x) := by
    refine monotoneOn_of_deriv_nonneg (convex_Ioo 0 x) (fun r hr => (hdH r hr.1 hr.2).continuousAt.continuousWithinAt)
      (fun r hr => ?_) fun r hr => ?_
    · rw [interior_Ioo] at hr; exact (hdH r hr.1 hr.2).differentiableAt.differentiableWithinAt
    · rw [interior_Ioo] at hr
      rw [(hdH r hr.1 hr.2).deriv]
      exact hdH2 r hr.1 hr.2
  have hlim : Tendsto (fun r => ∑ c ∈ Finset.range B, (2 * (c : ℝ) + 3) * qI c r * E c) (𝓝[>] 0) (𝓝 0) := by
    have : Tendsto (fun r => ∑ c ∈ Finset.range B, (2 * (c : ℝ) + 3) * qI c r * E c) (𝓝[>] 0)
        (𝓝 (∑ c ∈ Finset.range B, (2 * (c : ℝ) + 3) * 0 * E c)) :=
      tendsto_finsetSum _ fun c _ => ((qI_tendsto c).const_mul _).mul_const _
    simpa using this
  have hHρ : 0 ≤ H ρ := by
    have h0 : Tendsto (fun r => -∑ c ∈ Finset.range B, (2 * (c : ℝ) + 3) * qI c r * E c) (𝓝[>] 0) (𝓝 0) := by
      simpa using hlim.neg
    refine le_of_tendsto h0 ?_
    filter_upwards [Ioo_mem_nhdsGT hρ] with r hr
    refine le_trans ?_ (hmono ⟨hr.1, hr.2.trans hx⟩ ⟨hρ, hx⟩ hr.2.le)
    have h1 := qK_pos a (y := x - r) (by linarith [hr.2])
    have h2 : 0 ≤ 2 / Real.pi * (((a : ℝ) + 1) * (a + 2) * qK a (x - r)) := by positivity
    simp only [hH]
    linarith
  have := hHρ
  simp only [hH] at this
  linarith

end CasSph
