import Verif.Lemmas.FiniteContr
import Verif.Props.ScatSigns
import Verif.Model.Translation

/-! Sign and size of the Mie coefficients at a positive wavenumber, for spheres which differ from the medium in the
permittivity only and for perfect conductors. -/

namespace CasSph

open Spec Filter Topology

/-! ## `-(x k_l)'/k_l ≤ √(x² + l(l+1)) ≤ (x i_l)'/i_l` -/

theorem idX_sq_ge {l : ℕ} (hl : 1 ≤ l) {x : ℝ} (hx : 0 < x) : x ^ 2 + l * (l + 1) ≤ idX l x ^ 2 := by
  obtain ⟨c, rfl⟩ := Nat.exists_eq_add_of_le' hl
  set F : ℝ → ℝ := fun y => (y ^ 2 + (c + 1) * (c + 2)) * sphI (c + 1) y ^ 2 - (y * sphI c y - (c + 1) * sphI (c + 1) y) ^ 2 with hF
  have hd : ∀ y : ℝ, 0 < y → HasDerivAt F (-(2 * (c + 1) * (c + 2) / y * sphI (c + 1) y ^ 2)) y := by
    intro y hy
    have d0 := sphI_deriv c hy
    have d1 := sphI_deriv (c + 1) hy
    have hsq : HasDerivAt (fun y : ℝ => y ^ 2 + ((c : ℝ) + 1) * (c + 2)) (2 * y) y := by
      simpa using (hasDerivAt_pow 2 y).add_const (((c : ℝ) + 1) * (c + 2))
    have h := (hsq.mul (d1.pow 2)).sub ((((hasDerivAt_id y).mul d0).sub (d1.const_mul ((c : ℝ) + 1))).pow 2)
    refine h.congr_deriv ?_
    have hr := sphI_rec c hy.ne'
    simp only [Pi.pow_apply, Pi.mul_apply, Pi.sub_apply, id_eq]
    rw [hr]
    push_cast
    field_simp
    ring
  have hlim : Tendsto F (𝓝[>] 0) (𝓝 0) := by
    have hid : Tendsto (fun ρ : ℝ => ρ) (𝓝[>] 0) (𝓝 0) := tendsto_id.mono_left nhdsWithin_le_nhds
    have i0 := sphI_tendsto_zero c
    have i1 := sphI_tendsto_zero (c + 1)
    rw [if_neg (by omega)] at i1
    have h := (((hid.pow 2).add_const (((c : ℝ) + 1) * (c + 2))).mul (i1.pow 2)).sub
      (((hid.mul i0).sub (i1.const_mul ((c : ℝ) + 1))).pow 2)
    simpa using h
  have hanti : AntitoneOn F (Set.Ioi 0) := by
    refine antitoneOn_of_deriv_nonpos (convex_Ioi 0) (fun y hy => (hd y hy).continuousAt.continuousWithinAt) ?_ ?_
    · intro y hy
      rw [interior_Ioi] at hy
      exact (hd y hy).differentiableAt.differentiableWithinAt
    · intro y hy
      rw [interior_Ioi] at hy
      rw [(hd y hy).deriv]
      have hy' : 0 < y := hy
      have : 0 ≤ 2 * ((c : ℝ) + 1) * (c + 2) / y * sphI (c + 1) y ^ 2 := by positivity
      linarith
  have hle : F x ≤ 0 := by
    refine ge_of_tendsto hlim ?_
    filter_upwards [Ioo_mem_nhdsGT hx] with y hy
    exact hanti hy.1 hx hy.2.le
  have hi := sphI_pos (c + 1) hx
  have e : idX (c + 1) x = (x * sphI c x - (c + 1) * sphI (c + 1) x) / sphI (c + 1) x := by
    unfold idX
    rw [Nat.add_sub_cancel]
    push_cast
    field_simp
    ring
  rw [e, div_pow, le_div_iff₀ (by positivity)]
  push_cast
  simp only [hF] at hle
  linarith

theorem kdX_sq_le {l : ℕ} (hl : 1 ≤ l) {x : ℝ} (hx : 0 < x) : kdX l x ^ 2 ≤ x ^ 2 + l * (l + 1) := by
  obtain ⟨c, rfl⟩ := Nat.exists_eq_add_of_le' hl
  set F : ℝ → ℝ := fun y => (y ^ 2 + (c + 1) * (c + 2)) * sphK (c + 1) y ^ 2 - (y * sphK c y + (c + 1) * sphK (c + 1) y) ^ 2 with hF
  have hd : ∀ y : ℝ, 0 < y → HasDerivAt F (-(2 * (c + 1) * (c + 2) / y * sphK (c + 1) y ^ 2)) y := by
    intro y hy
    have d0 := sphK_deriv c hy
    have d1 := sphK_deriv (c + 1) hy
    have hsq : HasDerivAt (fun y : ℝ => y ^ 2 + ((c : ℝ) + 1) * (c + 2)) (2 * y) y := by
      simpa using (hasDerivAt_pow 2 y).add_const (((c : ℝ) + 1) * (c + 2))
    have h := (hsq.mul (d1.pow 2)).sub ((((hasDerivAt_id y).mul d0).add (d1.const_mul ((c : ℝ) + 1))).pow 2)
    refine h.congr_deriv ?_
    have hr := sphK_rec c hy.ne'
    simp only [Pi.pow_apply, Pi.mul_apply, Pi.add_apply, id_eq]
    rw [hr]
    push_cast
    field_simp
    ring
  have hyK : ∀ l : ℕ, Tendsto (fun y : ℝ => y * sphK l y) atTop (𝓝 0) := by
    intro l
    have h1 : Tendsto (fun y : ℝ => Real.exp (-(y - 1)) * (1 * sphK l 1)) atTop (𝓝 0) := by
      have : Tendsto (fun y : ℝ => Real.exp (-(y - 1))) atTop (𝓝 0) :=
        Real.tendsto_exp_neg_atTop_nhds_zero.comp (tendsto_atTop_add_const_right _ (-1) tendsto_id)
      simpa using this.mul_const (1 * sphK l 1)
    refine tendsto_of_tendsto_of_tendsto_of_le_of_le' tendsto_const_nhds h1 ?_ ?_
    · filter_upwards [eventually_gt_atTop (0 : ℝ)] with y hy
      exact mul_nonneg hy.le (sphK_pos l hy).le
    · filter_upwards [eventually_ge_atTop (1 : ℝ)] with y hy
      exact sphK_decay l one_pos hy
  have hK : ∀ l : ℕ, Tendsto (fun y : ℝ => sphK l y) atTop (𝓝 0) := by
    intro l
    refine tendsto_of_tendsto_of_tendsto_of_le_of_le' tendsto_const_nhds (hyK l) ?_ ?_
    · filter_upwards [eventually_gt_atTop (0 : ℝ)] with y hy
      exact (sphK_pos l hy).le
    · filter_upwards [eventually_ge_atTop (1 : ℝ)] with y hy
      have := sphK_pos l (show 0 < y by linarith)
      nlinarith
  have hlim : Tendsto F atTop (𝓝 0) := by
    have h := (((hyK (c + 1)).pow 2).add (((hK (c + 1)).pow 2).const_mul (((c : ℝ) + 1) * (c + 2)))).sub
      (((hyK c).add ((hK (c + 1)).const_mul ((c : ℝ) + 1))).pow 2)
    have h0 : (0 : ℝ) ^ 2 + ((c : ℝ) + 1) * (c + 2) * 0 ^ 2 - (0 + ((c : ℝ) + 1) * 0) ^ 2 = 0 := by ring
    rw [h0] at h
    refine h.congr fun y => ?_
    simp only [hF]
    ring
  have hanti : AntitoneOn F (Set.Ioi 0) := by
    refine antitoneOn_of_deriv_nonpos (convex_Ioi 0) (fun y hy => (hd y hy).continuousAt.continuousWithinAt) ?_ ?_
    · intro y hy
      rw [interior_Ioi] at hy
      exact (hd y hy).differentiableAt.differentiableWithinAt
    · intro y hy
      rw [interior_Ioi] at hy
      rw [(hd y hy).deriv]
      have hy' : 0 < y := hy
      have : 0 ≤ 2 * ((c : ℝ) + 1) * (c + 2) / y * sphK (c + 1) y ^ 2 := by positivity
      linarith
  have hle : 0 ≤ F x := by
    refine le_of_tendsto hlim ?_
    filter_upwards [eventually_ge_atTop x] with y hy
    exact hanti hx (hx.trans_le hy) hy
  have hi := sphK_pos (c + 1) hx
  have e : kdX (c + 1) x = -((x * sphK c x + (c + 1) * sphK (c + 1) x) / sphK (c + 1) x) := by
    unfold kdX
    rw [Nat.add_sub_cancel]
    push_cast
    field_simp
    ring
  rw [e, neg_sq, div_pow, div_le_iff₀ (by positivity)]
  push_cast
  simp only [hF] at hle
  linarith

theorem kdX_le_idX {l : ℕ} (hl : 1 ≤ l) {x : ℝ} (hx : 0 < x) : -kdX l x ≤ idX l x := by
  have h := (kdX_sq_le hl hx).trans (idX_sq_ge hl hx)
  rw [← neg_sq] at h
  exact (abs_le_of_sq_le_sq' h (idX_pos hl hx).le).2

theorem idX_le {l : ℕ} (hl : 1 ≤ l) {x : ℝ} (hx : 0 < x) : idX l x ≤ x + l + 1 := by
  obtain ⟨c, rfl⟩ := Nat.exists_eq_add_of_le' hl
  have hi := sphI_pos (c + 1) hx
  have h := sphI_rec' c x
  have h2 := (sphI_succ_lt (c + 1) hx).le
  unfold idX
  rw [Nat.add_sub_cancel]
  have e : x * (sphI c x / sphI (c + 1) x) ≤ 2 * c + 3 + x := by
    rw [← mul_div_assoc, div_le_iff₀ hi]
    nlinarith
  push_cast
  linarith

theorem kdX_ge {l : ℕ} (hl : 1 ≤ l) {x : ℝ} (hx : 0 < x) : x - l + 1 ≤ -kdX l x := by
  obtain ⟨c, rfl⟩ := Nat.exists_eq_add_of_le' hl
  have hk := sphK_pos (c + 1) hx
  -- `k_{c+1} ≤ (1 + (2c+1)/x) k_c`
  have hstep : x * sphK (c + 1) x ≤ (x + (2 * c + 1)) * sphK c x := by
    cases c with
    | zero =>
      have h1 : x * sphK 1 x = (x + 1) * sphK 0 x := by
        unfold sphK
        simp [Finset.sum_range_succ]
        field_simp
      rw [zero_add, h1]
      simp
    | succ c =>
      have h := sphK_rec c hx.ne'
      have h2 := sphK_mono (Nat.le_succ c) hx
      rw [h, mul_add, show x * ((2 * (c : ℝ) + 3) / x * sphK (c + 1) x) = (2 * c + 3) * sphK (c + 1) x by field_simp]
      push_cast
      have := mul_le_mul_of_nonneg_left h2 hx.le
      have e : c.succ = c + 1 := rfl
      rw [e] at this
      linarith
  have hlt := (sphK_lt_succ c hx).le
  unfold kdX
  rw [Nat.add_sub_cancel]
  have e : x - (2 * c + 1) ≤ x * (sphK c x / sphK (c + 1) x) := by
    rw [← mul_div_assoc, le_div_iff₀ hk]
    have := mul_le_mul_of_nonneg_left hlt (show (0 : ℝ) ≤ 2 * c + 1 by positivity)
    linarith
  push_cast
  linarith

/-! ## reflection coefficients -/

/-- `σ = 1`: perfect conductor, or permittivity at least that of the medium; `σ = -1`: permittivity at most that of the
medium; in both cases at the wavenumber `k`, and with the permeability of the medium. -/
def DenseSign (m md : Material) (k σ : ℝ) : Prop :=
  (σ = 1 ∧ (m.cls = .pec ∨ (m.cls ≠ .pec ∧ m.Physical ∧
    ∃ a b, m.medium k = .ok a ∧ md.medium k = .ok b ∧ a.mu = b.mu ∧ b.eps ≤ a.eps))) ∨
  (σ = -1 ∧ m.cls ≠ .pec ∧ m.Physical ∧
    ∃ a b, m.medium k = .ok a ∧ md.medium k = .ok b ∧ a.mu = b.mu ∧ a.eps ≤ b.eps)

theorem DenseSign.sign {m md : Material} {k σ : ℝ} (h : DenseSign m md k σ) : σ = 1 ∨ σ = -1 := h.imp (·.1) (·.1)

/-- Mie coefficients with the signs `σ(-1)^l` (TE), `-σ(-1)^l` (TM), not larger than those of a perfect conductor. -/
def Reflects (c : MieCoef) (σ ρ : ℝ) (A : Bool → ℕ → ℝ) : Prop :=
  ∀ i, (∀ P, 0 ≤ A P i ∧ A P i ≤ pecR P i ρ) ∧
    c.TE (i + 1) * Real.exp (c.ln (i + 1)) = σ * (-1) ^ (i + 1) * A false i ∧
    c.TM (i + 1) * Real.exp (c.ln (i + 1)) = -(σ * (-1) ^ (i + 1) * A true i)

theorem pecR_true (c : ℕ) {ρ : ℝ} (hρ : 0 < ρ) :
    pecR true c ρ = Real.pi / 2 * (idX (c + 1) ρ / -kdX (c + 1) ρ * (sphI (c + 1) ρ / sphK (c + 1) ρ)) := by
  have h1 := (sphI_pos (c + 1) hρ).ne'
  have h2 := (sphK_pos (c + 1) hρ).ne'
  have e1 : dI c ρ = idX (c + 1) ρ * sphI (c + 1) ρ / ρ := by
    unfold dI idX
    rw [Nat.add_sub_cancel]
    push_cast
    field_simp
    ring
  have e2 : dK c ρ = -kdX (c + 1) ρ * sphK (c + 1) ρ / ρ := by
    unfold dK kdX
    rw [Nat.add_sub_cancel]
    push_cast
    field_simp
    ring
  have h3 := (kdX_neg (l := c + 1) (by omega) hρ).ne
  simp only [pecR]
  rw [e1, e2]
  field_simp

/-- `I`, `J`, `K` are the logarithmic derivatives inside, outside (regular) and outside (outgoing). -/
theorem amp_dense {I J K u v : ℝ} (hI : 0 < I) (hJ : 0 < J) (hK : K < 0) (hu : 0 < u) (hv : 0 < v) (hn : v * I - u * J ≤ 0) (hd : J ≤ I) :
    (0 ≤ (I - J) / (I - K) ∧ (I - J) / (I - K) ≤ 1) ∧
    (0 ≤ -((v * I - u * J) / (v * I - u * K)) ∧ -((v * I - u * J) / (v * I - u * K)) ≤ J / -K) := by
  have h1 : 0 < I - K := by linarith
  have h2 : 0 < v * I - u * K := by nlinarith
  refine ⟨⟨div_nonneg (by linarith) h1.le, by rw [div_le_one h1]; linarith⟩, ?_, ?_⟩
  · rw [← neg_div]; exact div_nonneg (by linarith) h2.le
  · rw [← neg_div, div_le_div_iff₀ h2 (by linarith)]
    have : 0 ≤ v * I * (J - K) := mul_nonneg (mul_nonneg hv.le hI.le) (by linarith)
    nlinarith

theorem amp_dilute {I J K u v : ℝ} (hI : 0 < I) (hJ : 0 < J) (hK : K < 0) (hu : 0 < u) (hv : 0 < v) (hn : 0 ≤ v * I - u * J) (hd : I ≤ J)
    (hJK : J + K ≤ 2 * I) (hKJ : -K ≤ J) :
    (0 ≤ -((I - J) / (I - K)) ∧ -((I - J) / (I - K)) ≤ 1) ∧
    (0 ≤ (v * I - u * J) / (v * I - u * K) ∧ (v * I - u * J) / (v * I - u * K) ≤ J / -K) := by
  have h1 : 0 < I - K := by linarith
  have h2 : 0 < v * I - u * K := by nlinarith
  refine ⟨⟨?_, ?_⟩, div_nonneg hn h2.le, ?_⟩
  · rw [← neg_div]; exact div_nonneg (by linarith) h1.le
  · rw [← neg_div, div_le_one h1]; linarith
  · have h3 : (v * I - u * J) / (v * I - u * K) ≤ 1 := by rw [div_le_one h2]; nlinarith
    have h4 : 1 ≤ J / -K := by rw [le_div_iff₀ (by linarith)]; linarith
    exact h3.trans h4

/-- Mie coefficients computed by `mie` have the sign and size of `Reflects`. -/
theorem reflects_of_mie {m md : Material} (hmd : md.cls ≠ .pec) (hp : md.Physical) {k r σ : ℝ} (hk : 0 < k) (hr : 0 < r)
    {b : Medium} (hb : md.medium k = .ok b) (hσ : DenseSign m md k σ) {c : MieCoef}
    (hc : ∀ l, 1 ≤ l → mie exactBes exactBes m md l k r = .ok ⟨c.TE l, c.TM l, c.ln l⟩) :
    ∃ A, Reflects c σ (k * r * b.n) A := by
  have hbp : b.Pos := by
    obtain ⟨a', ha', hap⟩ := medium_pos hmd hp hk
    rw [hb] at ha'
    injection ha' with e; rw [e]; exact hap
  have hxb : 0 < k * r * b.n := mul_pos (mul_pos hk hr) (b.n_pos hbp)
  have key : ∀ i : ℕ, ∃ α : Bool → ℝ, (∀ P, 0 ≤ α P ∧ α P ≤ pecR P i (k * r * b.n)) ∧
      c.TE (i + 1) * Real.exp (c.ln (i + 1)) = σ * (-1) ^ (i + 1) * α false ∧
      c.TM (i + 1) * Real.exp (c.ln (i + 1)) = -(σ * (-1) ^ (i + 1) * α true) := by
    intro i
    have hl : 1 ≤ i + 1 := by omega
    have hci := hc (i + 1) hl
    have hJ := idX_pos hl hxb
    have hK := kdX_neg hl hxb
    have hpT := pecR_true i hxb
    set ik := sphI (i + 1) (k * r * b.n) / sphK (i + 1) (k * r * b.n) with hik
    have hik0 : 0 < ik := div_pos (sphI_pos _ hxb) (sphK_pos _ hxb)
    have hpi : 0 < Real.pi / 2 := by have := Real.pi_pos; positivity
    have hpF : pecR false i (k * r * b.n) = Real.pi / 2 * ik := rfl
    -- reduction to the amplitudes
    have fin : ∀ {t s : ℝ}, 0 ≤ σ * t → σ * t ≤ 1 → 0 ≤ -(σ * s) → -(σ * s) ≤ idX (i + 1) (k * r * b.n) / -kdX (i + 1) (k * r * b.n) →
        (σ = 1 ∨ σ = -1) →
        c.TE (i + 1) * Real.exp (c.ln (i + 1)) = t * ((-1) ^ (i + 1) * Real.pi * 0.5) * ik →
        c.TM (i + 1) * Real.exp (c.ln (i + 1)) = s * ((-1) ^ (i + 1) * Real.pi * 0.5) * ik →
        ∃ α : Bool → ℝ, (∀ P, 0 ≤ α P ∧ α P ≤ pecR P i (k * r * b.n)) ∧
          c.TE (i + 1) * Real.exp (c.ln (i + 1)) = σ * (-1) ^ (i + 1) * α false ∧
          c.TM (i + 1) * Real.exp (c.ln (i + 1)) = -(σ * (-1) ^ (i + 1) * α true) := by
      intro t s h1 h2 h3 h4 hs e1 e2
      have s2 : σ * σ = 1 := by rcases hs with h | h <;> rw [h] <;> norm_num
      refine ⟨fun P => bif P then Real.pi / 2 * (-(σ * s) * ik) else Real.pi / 2 * (σ * t * ik), ?_, ?_, ?_⟩
      · intro P
        cases P
        · rw [hpF]
          simp only [cond_false]
          have h5 := mul_le_mul_of_nonneg_right h2 hik0.le
          exact ⟨by positivity, mul_le_mul_of_nonneg_left (by linarith) hpi.le⟩
        · rw [hpT]
          simp only [cond_true]
          exact ⟨mul_nonneg hpi.le (mul_nonneg h3 hik0.le),
            mul_le_mul_of_nonneg_left (mul_le_mul_of_nonneg_right h4 hik0.le) hpi.le⟩
      · rw [e1]
        simp only [cond_false]
        linear_combination (-(t * (-1) ^ (i + 1) * Real.pi / 2 * ik)) * s2
      · rw [e2]
        simp only [cond_true]
        linear_combination (-(s * (-1) ^ (i + 1) * Real.pi / 2 * ik)) * s2
    have hkd := kdT_neg hl hxb (exactBes (i + 1) (k * r * b.n))
    by_cases hpec : m.cls = .pec
    · have h1 : σ = 1 := by
        rcases hσ with ⟨h, -⟩ | ⟨-, h, -⟩
        · exact h
        · exact absurd hpec h
      rw [mie_pec hpec hb, miePECCore_ok hkd] at hci
      injection hci with hci
      injection hci with q1 q2 q3
      have hexp : Real.exp (c.ln (i + 1)) = ik := by rw [← q3, exactBes_exp hxb]
      refine fin (t := 1) (s := idX (i + 1) (k * r * b.n) / kdX (i + 1) (k * r * b.n)) ?_ ?_ ?_ ?_ (.inl h1) ?_ ?_
      · rw [h1]; norm_num
      · rw [h1]; norm_num
      · rw [h1, one_mul, ← div_neg]; exact div_nonneg hJ.le (by linarith)
      · rw [h1, one_mul, ← div_neg]
      · rw [hexp, ← q1]; ring
      · rw [hexp, ← q2, idT_exact hl hxb, kdT_exact hxb]; ring
    · have hmed : m.Physical ∧ ∃ a b', m.medium k = .ok a ∧ md.medium k = .ok b' ∧ a.mu = b'.mu ∧
          ((σ = 1 ∧ b'.eps ≤ a.eps) ∨ (σ = -1 ∧ a.eps ≤ b'.eps)) := by
        rcases hσ with ⟨h, h' | ⟨-, h', a, b', q1, q2, q3, q4⟩⟩ | ⟨h, -, h', a, b', q1, q2, q3, q4⟩
        · exact absurd h' hpec
        · exact ⟨h', a, b', q1, q2, q3, .inl ⟨h, q4⟩⟩
        · exact ⟨h', a, b', q1, q2, q3, .inr ⟨h, q4⟩⟩
      obtain ⟨hph, a, b', ha, hb', hmu, hcase⟩ := hmed
      rw [hb] at hb'
      injection hb' with hb'
      subst hb'
      have hap : a.Pos := by
        obtain ⟨a', ha', hap⟩ := medium_pos hpec hph hk
        rw [ha] at ha'
        injection ha' with e; rw [e]; exact hap
      have hxa : 0 < k * r * a.n := mul_pos (mul_pos hk hr) (a.n_pos hap)
      have hid : 0 < idT (i + 1) (k * r * a.n) (exactBes (i + 1) (k * r * a.n)) := idT_pos (exactBes_ok hl hxa)
      rw [mie_diel hpec ha hb, mieCore_ok hap hbp hid hkd] at hci
      injection hci with hci
      injection hci with q1 q2 q3
      have hexp : Real.exp (c.ln (i + 1)) = ik := by rw [← q3, exactBes_exp hxb]
      rw [idT_exact hl hxa, idT_exact hl hxb, kdT_exact hxb] at q1 q2
      have hI := idX_pos hl hxa
      set I := idX (i + 1) (k * r * a.n) with hIdef
      set J := idX (i + 1) (k * r * b.n) with hJdef
      set K := kdX (i + 1) (k * r * b.n) with hKdef
      have hb2 := hbp.2.ne'
      have t1 : (b.mu * I - a.mu * J) / (b.mu * I - a.mu * K) = (I - J) / (I - K) := by
        rw [hmu, ← mul_sub, ← mul_sub, mul_div_mul_left _ _ hb2]
      rw [t1] at q1
      rcases hcase with ⟨h1, hle⟩ | ⟨h1, hle⟩
      · have hn : J ≤ I ∧ b.eps * I - a.eps * J ≤ 0 := by
          rcases hle.eq_or_lt with h | h
          · have e : a.n = b.n := by rw [Medium.n, Medium.n, hmu, h]
            have : I = J := by rw [hIdef, e]
            rw [this, h]
            exact ⟨le_rfl, by linarith⟩
          · obtain ⟨n1, n2⟩ := mie_num hl (mul_pos hk hr) hbp.2 hap.1 hbp.1 h
            have eI : idX (i + 1) (k * r * Real.sqrt (a.eps * b.mu)) = I := by rw [hIdef, Medium.n, hmu]
            have eJ : idX (i + 1) (k * r * Real.sqrt (b.eps * b.mu)) = J := rfl
            rw [eI, eJ] at n1 n2
            refine ⟨?_, n2.le⟩
            by_contra hcon
            push Not at hcon
            have := mul_lt_mul_of_pos_left hcon hbp.2
            linarith
        obtain ⟨⟨a1, a2⟩, a3, a4⟩ := amp_dense hI hJ hK hap.1 hbp.1 hn.2 hn.1
        refine fin (t := (I - J) / (I - K)) (s := (b.eps * I - a.eps * J) / (b.eps * I - a.eps * K)) ?_ ?_ ?_ ?_ (.inl h1) ?_ ?_
        · rw [h1, one_mul]; exact a1
        · rw [h1, one_mul]; exact a2
        · rw [h1, one_mul]; exact a3
        · rw [h1, one_mul]; exact a4
        · rw [hexp, ← q1]
        · rw [hexp, ← q2]
      · have hn : I ≤ J ∧ 0 ≤ b.eps * I - a.eps * J := by
          rcases hle.eq_or_lt with h | h
          · have e : a.n = b.n := by rw [Medium.n, Medium.n, hmu, h]
            have : I = J := by rw [hIdef, e]
            rw [this, h]
            exact ⟨le_rfl, by linarith⟩
          · obtain ⟨n1, n2⟩ := mie_num hl (mul_pos hk hr) hbp.2 hbp.1 hap.1 h
            have eI : idX (i + 1) (k * r * Real.sqrt (a.eps * b.mu)) = I := by rw [hIdef, Medium.n, hmu]
            have eJ : idX (i + 1) (k * r * Real.sqrt (b.eps * b.mu)) = J := rfl
            rw [eI, eJ] at n1 n2
            refine ⟨?_, by linarith⟩
            by_contra hcon
            push Not at hcon
            have := mul_lt_mul_of_pos_left hcon hbp.2
            linarith
        have b1 := idX_le hl hxb
        have b2 := kdX_ge hl hxb
        have b3 := idX_gt hl hxa
        obtain ⟨⟨a1, a2⟩, a3, a4⟩ := amp_dilute hI hJ hK hap.1 hbp.1 hn.2 hn.1 (by push_cast at *; linarith) (kdX_le_idX hl hxb)
        refine fin (t := (I - J) / (I - K)) (s := (b.eps * I - a.eps * J) / (b.eps * I - a.eps * K)) ?_ ?_ ?_ ?_ (.inr h1) ?_ ?_
        · rw [h1, neg_one_mul]; exact a1
        · rw [h1, neg_one_mul]; exact a2
        · rw [h1, neg_one_mul, neg_neg]; exact a3
        · rw [h1, neg_one_mul, neg_neg]; exact a4
        · rw [hexp, ← q1]
        · rw [hexp, ← q2]
  choose α hα using key
  exact ⟨fun P i => α i P, fun i => hα i⟩

end CasSph
