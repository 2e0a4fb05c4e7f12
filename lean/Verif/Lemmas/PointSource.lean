import Verif.Lemmas.LegendreOut
import Mathlib.Analysis.Calculus.Deriv.MeanValue

/-! # Partial sums of the multipole expansion of point sources on the axis (independent of the model)

`sS B m ρ t = Σ_{b ≤ B} (2b+1) i_b(ρ) P_b^{(m)}(t)` is bounded by `ρ^m e^{ρt}`, and the two partial sums for a
tangential dipole by `ρ^{m-1} e^{ρt}` and `t ρ^{m-1} e^{ρt}`. -/

namespace CasSph

open Polynomial Spec Nat Filter Topology

noncomputable def sS (B m : ℕ) (ρ t : ℝ) : ℝ := ∑ b ∈ Finset.range (B + 1), (2 * (b : ℝ) + 1) * sphI b ρ * dq b m t

theorem sS_succ_m (B m : ℕ) (ρ t : ℝ) :
    sS B (m + 1) ρ t = ρ * (sS B m ρ t - (sphI B ρ * dq (B + 1) (m + 1) t + sphI (B + 1) ρ * dq B (m + 1) t)) := by
  induction B with
  | zero =>
    have h := dq_rec1 0 m t
    have h0 : dq 0 (m + 1) t = 0 := dq_none (by omega) t
    simp only [sS, zero_add, Finset.range_one, Finset.sum_singleton, h0, mul_zero, CharP.cast_eq_zero] at *
    rw [h]
    cases m with
    | zero => simp
    | succ m => rw [dq_none (l := 0) (by omega)]; simp
  | succ B ih =>
    have h1 := sphI_rec' B ρ
    have h2 := dq_sum_rule B m t
    have e : ∀ k, sS (B + 1) k ρ t = sS B k ρ t + (2 * ((B + 1 : ℕ) : ℝ) + 1) * sphI (B + 1) ρ * dq (B + 1) k t := fun k => by
      unfold sS; rw [Finset.sum_range_succ]
    rw [e, e, ih]
    push_cast
    linear_combination -dq (B + 1) (m + 1) t * h1 + ρ * sphI (B + 1) ρ * h2

theorem sS_nonneg (B m : ℕ) {ρ t : ℝ} (hρ : 0 < ρ) (ht : 1 ≤ t) : 0 ≤ sS B m ρ t := by
  refine Finset.sum_nonneg fun b _ => ?_
  have := (sphI_pos b hρ).le
  have := dq_nonneg ht b m
  positivity

theorem sS_succ_le (B m : ℕ) {ρ t : ℝ} (hρ : 0 < ρ) (ht : 1 ≤ t) : sS B (m + 1) ρ t ≤ ρ * sS B m ρ t := by
  rw [sS_succ_m]
  refine mul_le_mul_of_nonneg_left (sub_le_self _ ?_) hρ.le
  have := (sphI_pos B hρ).le
  have := (sphI_pos (B + 1) hρ).le
  have := dq_nonneg ht B (m + 1)
  have := dq_nonneg ht (B + 1) (m + 1)
  positivity

theorem sS_le_pow (B m : ℕ) {ρ t : ℝ} (hρ : 0 < ρ) (ht : 1 ≤ t) : sS B m ρ t ≤ ρ ^ m * sS B 0 ρ t := by
  induction m with
  | zero => simp
  | succ m ih =>
    refine (sS_succ_le B m hρ ht).trans ?_
    rw [_root_.pow_succ', mul_assoc]
    exact mul_le_mul_of_nonneg_left ih hρ.le

theorem sphI_tendsto_zero (l : ℕ) : Tendsto (sphI l) (𝓝[>] 0) (𝓝 (if l = 0 then 1 else 0)) := by
  have h1 := sphI_tendsto l
  have h2 : Tendsto (fun x : ℝ => x ^ l) (𝓝[>] 0) (𝓝 (0 ^ l)) :=
    ((continuous_pow l).tendsto 0).mono_left nhdsWithin_le_nhds
  have h := h1.mul h2
  have e : (1 / ((2 * l + 1)‼ : ℝ)) * 0 ^ l = if l = 0 then 1 else 0 := by
    split_ifs with h
    · subst h; simp
    · rw [zero_pow h, mul_zero]
  rw [e] at h
  refine h.congr' ?_
  filter_upwards [self_mem_nhdsWithin] with x hx
  have hx : 0 < x := hx
  have := pow_pos hx l
  field_simp

/-- the sum at `t = 1` -/
noncomputable def sOne (B : ℕ) (ρ : ℝ) : ℝ := ∑ b ∈ Finset.range (B + 1), (2 * (b : ℝ) + 1) * sphI b ρ

theorem sS_one (B : ℕ) (ρ : ℝ) : sS B 0 ρ 1 = sOne B ρ := by
  unfold sS sOne
  refine Finset.sum_congr rfl fun b _ => ?_
  have : dq b 0 1 = 1 := legendre_eval_one b
  rw [this, mul_one]

theorem sOne_deriv (B : ℕ) {ρ : ℝ} (hρ : 0 < ρ) :
    HasDerivAt (sOne B) (sOne B ρ - (B + 1) * (sphI B ρ - sphI (B + 1) ρ)) ρ := by
  have h : HasDerivAt (sOne B) (∑ b ∈ Finset.range (B + 1), (2 * (b : ℝ) + 1) * (sphI (b + 1) ρ + b / ρ * sphI b ρ)) ρ := by
    unfold sOne
    exact HasDerivAt.fun_sum fun b _ => (sphI_deriv b hρ).const_mul _
  refine h.congr_deriv ?_
  clear h
  induction B with
  | zero => simp [sOne]
  | succ B ih =>
    rw [Finset.sum_range_succ, ih]
    have e : sOne (B + 1) ρ = sOne B ρ + (2 * ((B + 1 : ℕ) : ℝ) + 1) * sphI (B + 1) ρ := by
      unfold sOne; rw [Finset.sum_range_succ]
    rw [e]
    have h1 := sphI_rec' B ρ
    have hρ' := hρ.ne'
    push_cast
    field_simp
    linear_combination -((B : ℝ) + 1) * h1

theorem sOne_le (B : ℕ) {ρ : ℝ} (hρ : 0 < ρ) : sOne B ρ ≤ Real.exp ρ := by
  have hd : ∀ x : ℝ, 0 < x → HasDerivAt (fun x => Real.exp (-x) * sOne B x)
      (-(Real.exp (-x) * ((B + 1) * (sphI B x - sphI (B + 1) x)))) x := by
    intro x hx
    have h1 : HasDerivAt (fun x : ℝ => Real.exp (-x)) (Real.exp (-x) * -1) x := (hasDerivAt_id x).neg.exp
    refine (h1.mul (sOne_deriv B hx)).congr_deriv ?_
    ring
  have hanti : AntitoneOn (fun x => Real.exp (-x) * sOne B x) (Set.Ioi 0) := by
    refine antitoneOn_of_deriv_nonpos (convex_Ioi 0) (fun x hx => (hd x hx).continuousAt.continuousWithinAt)
      (fun x hx => ?_) fun x hx => ?_
    · rw [interior_Ioi] at hx; exact (hd x hx).differentiableAt.differentiableWithinAt
    · rw [interior_Ioi] at hx
      rw [(hd x hx).deriv]
      have := sphI_succ_lt B hx
      have : 0 ≤ sphI B x - sphI (B + 1) x := by linarith
      have := Real.exp_pos (-x)
      have : 0 ≤ Real.exp (-x) * ((B + 1) * (sphI B x - sphI (B + 1) x)) := by positivity
      linarith
  have hlim : Tendsto (fun x => Real.exp (-x) * sOne B x) (𝓝[>] 0) (𝓝 1) := by
    have h1 : Tendsto (fun x : ℝ => Real.exp (-x)) (𝓝[>] 0) (𝓝 1) := by
      have : Continuous fun x : ℝ => Real.exp (-x) := by fun_prop
      have := this.tendsto 0
      simp only [neg_zero, Real.exp_zero] at this
      exact this.mono_left nhdsWithin_le_nhds
    have h2 : Tendsto (sOne B) (𝓝[>] 0) (𝓝 (∑ b ∈ Finset.range (B + 1), (2 * (b : ℝ) + 1) * if b = 0 then 1 else 0)) :=
      tendsto_finsetSum _ fun b _ => (sphI_tendsto_zero b).const_mul _
    have e : ∑ b ∈ Finset.range (B + 1), (2 * (b : ℝ) + 1) * (if b = 0 then 1 else 0) = 1 := by
      simp
    rw [e] at h2
    simpa using h1.mul h2
  have h1 : Real.exp (-ρ) * sOne B ρ ≤ 1 := by
    refine ge_of_tendsto hlim ?_
    filter_upwards [Ioo_mem_nhdsGT hρ] with x hx
    exact hanti hx.1 hρ hx.2.le
  rw [Real.exp_neg] at h1
  have := Real.exp_pos ρ
  rwa [inv_mul_le_iff₀ this, mul_one] at h1

theorem sS_zero_le (B : ℕ) {ρ t : ℝ} (hρ : 0 < ρ) (ht : 1 ≤ t) : sS B 0 ρ t ≤ Real.exp (ρ * t) := by
  have hd : ∀ x : ℝ, HasDerivAt (fun x => Real.exp (-(ρ * x)) * sS B 0 ρ x)
      (Real.exp (-(ρ * x)) * (sS B 1 ρ x - ρ * sS B 0 ρ x)) x := by
    intro x
    have h1 : HasDerivAt (fun x : ℝ => Real.exp (-(ρ * x))) (Real.exp (-(ρ * x)) * (-(ρ * 1))) x :=
      ((hasDerivAt_id x).const_mul ρ).neg.exp
    have h2 : HasDerivAt (fun x => sS B 0 ρ x) (sS B 1 ρ x) x := by
      unfold sS
      exact HasDerivAt.fun_sum fun b _ => (dq_hasDeriv b 0 x).const_mul _
    refine (h1.mul h2).congr_deriv ?_
    ring
  have hanti : AntitoneOn (fun x => Real.exp (-(ρ * x)) * sS B 0 ρ x) (Set.Ici 1) := by
    refine antitoneOn_of_deriv_nonpos (convex_Ici 1) (fun x hx => (hd x).continuousAt.continuousWithinAt)
      (fun x hx => (hd x).differentiableAt.differentiableWithinAt) fun x hx => ?_
    rw [interior_Ici] at hx
    rw [(hd x).deriv]
    have h := sS_succ_le B 0 hρ (le_of_lt hx)
    exact mul_nonpos_of_nonneg_of_nonpos (Real.exp_pos _).le (by linarith)
  have h := hanti (Set.self_mem_Ici) ht ht
  simp only [sS_one, mul_one] at h
  have h2 : Real.exp (-ρ) * sOne B ρ ≤ 1 := by
    have := mul_le_mul_of_nonneg_left (sOne_le B hρ) (Real.exp_pos (-ρ)).le
    rwa [← Real.exp_add, neg_add_cancel, Real.exp_zero] at this
  have h3 := h.trans h2
  rw [Real.exp_neg] at h3
  have := Real.exp_pos (ρ * t)
  rwa [inv_mul_le_iff₀ this, mul_one] at h3

/-- `Σ_{b ≤ B} (2b+1) i_b(ρ) P_b^{(m)}(t) ≤ ρ^m e^{ρt}` for `t ≥ 1` -/
theorem sS_le (B m : ℕ) {ρ t : ℝ} (hρ : 0 < ρ) (ht : 1 ≤ t) : sS B m ρ t ≤ ρ ^ m * Real.exp (ρ * t) :=
  (sS_le_pow B m hρ ht).trans (mul_le_mul_of_nonneg_left (sS_zero_le B hρ ht) (pow_pos hρ m).le)

/-! ## tangential dipole -/

/-- `(ρ i_b)'/ρ` for `b = c+1` -/
noncomputable def dI (c : ℕ) (ρ : ℝ) : ℝ := sphI c ρ - (c + 1) / ρ * sphI (c + 1) ρ

/-- `(2b+1)/(b(b+1))` for `b = c+1` -/
noncomputable def wB (c : ℕ) : ℝ := (2 * (c : ℝ) + 3) / (((c : ℝ) + 1) * (c + 2))

theorem wB_pos (c : ℕ) : 0 < wB c := by unfold wB; positivity

noncomputable def sF1 (B m : ℕ) (ρ t : ℝ) : ℝ :=
  ∑ c ∈ Finset.range B, wB c * (sphI (c + 1) ρ * tq (c + 1) m t + dI c ρ * (m * dq (c + 1) m t))

noncomputable def sF2 (B m : ℕ) (ρ t : ℝ) : ℝ :=
  ∑ c ∈ Finset.range B, wB c * (sphI (c + 1) ρ * (m * dq (c + 1) m t) + dI c ρ * tq (c + 1) m t)

theorem sF1_eq (B : ℕ) {m : ℕ} (hm : 1 ≤ m) {ρ : ℝ} (hρ : 0 < ρ) (t : ℝ) :
    sF1 B m ρ t = sS B m ρ t / ρ + sphI (B + 1) ρ * ((B + 1 + m) / (B + 1)) * dq B m t +
      sphI B ρ * ((B + 1 - m) / (B + 1)) * dq (B + 1) m t := by
  induction B with
  | zero =>
    have h0 : dq 0 m t = 0 := dq_none (by omega) t
    have h1 : ((0 : ℝ) + 1 - m) * dq 1 m t = 0 := by
      rcases hm.eq_or_lt with h | h
      · subst h; simp
      · rw [dq_none h, mul_zero]
    have h1' : (1 - (m : ℝ)) * dq 1 m t = 0 := by rwa [zero_add] at h1
    simp only [sF1, sS, zero_add, Finset.range_zero, Finset.sum_empty, Finset.range_one, Finset.sum_singleton, h0,
      CharP.cast_eq_zero, mul_zero, zero_div, div_one, add_zero]
    linear_combination -sphI 0 ρ * h1'
  | succ B ih =>
    have e : sF1 (B + 1) m ρ t = sF1 B m ρ t + wB B * (sphI (B + 1) ρ * tq (B + 1) m t + dI B ρ * (m * dq (B + 1) m t)) := by
      unfold sF1; rw [Finset.sum_range_succ]
    have e' : sS (B + 1) m ρ t = sS B m ρ t + (2 * ((B + 1 : ℕ) : ℝ) + 1) * sphI (B + 1) ρ * dq (B + 1) m t := by
      unfold sS; rw [Finset.sum_range_succ]
    have h1 := sphI_rec' B ρ
    have hd := tq_down B m t
    have hu := tq_up (B + 1) m t
    push_cast at hu
    have hT : (2 * (B : ℝ) + 3) * tq (B + 1) m t =
        (B + 1) * (B + 2 - m) * dq (B + 2) m t - (B + 2) * (B + 1 + m) * dq B m t := by
      linear_combination ((B : ℝ) + 2) * hd + ((B : ℝ) + 1) * hu
    have hI : (2 * (B : ℝ) + 3) * dI B ρ = (B + 2) * sphI B ρ + (B + 1) * sphI (B + 2) ρ := by
      unfold dI
      have hρ' := hρ.ne'
      field_simp
      linear_combination ((B : ℝ) + 1) * h1
    rw [e, ih, e']
    have hB1 : (B : ℝ) + 1 ≠ 0 := by positivity
    have hB2 : (B : ℝ) + 2 ≠ 0 := by positivity
    have hρ' := hρ.ne'
    have ew : wB B * (sphI (B + 1) ρ * tq (B + 1) m t + dI B ρ * (m * dq (B + 1) m t)) =
        (sphI (B + 1) ρ * ((2 * (B : ℝ) + 3) * tq (B + 1) m t) + ((2 * (B : ℝ) + 3) * dI B ρ) * (m * dq (B + 1) m t)) /
          (((B : ℝ) + 1) * (B + 2)) := by
      unfold wB; ring
    rw [ew, hT, hI]
    push_cast
    rw [show (B : ℝ) + 1 + 1 = B + 2 by ring]
    field_simp
    linear_combination dq (B + 1) m t * (((B : ℝ) + 1) * (B + 2)) * h1

theorem sF2_eq (B : ℕ) {m : ℕ} (hm : 1 ≤ m) {ρ : ℝ} (hρ : 0 < ρ) (t : ℝ) :
    sF2 B m ρ t = t * sS B m ρ t / ρ + sphI B ρ * ((B + 1 + m) / (B + 1)) * dq B m t +
      sphI (B + 1) ρ * ((B + 1 - m) / (B + 1)) * dq (B + 1) m t := by
  induction B with
  | zero =>
    have h0 : dq 0 m t = 0 := dq_none (by omega) t
    have h1' : (1 - (m : ℝ)) * dq 1 m t = 0 := by
      rcases hm.eq_or_lt with h | h
      · subst h; simp
      · rw [dq_none h, mul_zero]
    simp only [sF2, sS, zero_add, Finset.range_zero, Finset.sum_empty, Finset.range_one, Finset.sum_singleton, h0,
      CharP.cast_eq_zero, mul_zero, zero_div, div_one, add_zero]
    linear_combination -sphI 1 ρ * h1'
  | succ B ih =>
    have e : sF2 (B + 1) m ρ t = sF2 B m ρ t + wB B * (sphI (B + 1) ρ * (m * dq (B + 1) m t) + dI B ρ * tq (B + 1) m t) := by
      unfold sF2; rw [Finset.sum_range_succ]
    have e' : sS (B + 1) m ρ t = sS B m ρ t + (2 * ((B + 1 : ℕ) : ℝ) + 1) * sphI (B + 1) ρ * dq (B + 1) m t := by
      unfold sS; rw [Finset.sum_range_succ]
    have h1 := sphI_rec' B ρ
    have hd := tq_down B m t
    have hu := tq_up (B + 1) m t
    push_cast at hu
    have hI : (2 * (B : ℝ) + 3) * dI B ρ = (B + 2) * sphI B ρ + (B + 1) * sphI (B + 2) ρ := by
      unfold dI
      have hρ' := hρ.ne'
      field_simp
      linear_combination ((B : ℝ) + 1) * h1
    rw [e, ih, e']
    have hB1 : (B : ℝ) + 1 ≠ 0 := by positivity
    have hB2 : (B : ℝ) + 2 ≠ 0 := by positivity
    have hρ' := hρ.ne'
    have ew : wB B * (sphI (B + 1) ρ * (m * dq (B + 1) m t) + dI B ρ * tq (B + 1) m t) =
        ((2 * (B : ℝ) + 3) * sphI (B + 1) ρ * (m * dq (B + 1) m t) + ((B + 2) * sphI B ρ) * tq (B + 1) m t +
          ((B + 1) * sphI (B + 2) ρ) * tq (B + 1) m t) / (((B : ℝ) + 1) * (B + 2)) := by
      have : ((2 * (B : ℝ) + 3) * sphI (B + 1) ρ * (m * dq (B + 1) m t) + ((B + 2) * sphI B ρ) * tq (B + 1) m t +
          ((B + 1) * sphI (B + 2) ρ) * tq (B + 1) m t) = (2 * (B : ℝ) + 3) * sphI (B + 1) ρ * (m * dq (B + 1) m t) +
          ((2 * (B : ℝ) + 3) * dI B ρ) * tq (B + 1) m t := by rw [hI]; ring
      rw [this]
      unfold wB; ring
    rw [ew]
    nth_rw 1 [hd]
    rw [hu]
    push_cast
    rw [show (B : ℝ) + 1 + 1 = B + 2 by ring]
    field_simp
    linear_combination t * dq (B + 1) m t * (((B : ℝ) + 1) * (B + 2)) * h1

theorem sF1_le (B : ℕ) {m : ℕ} (hm : 1 ≤ m) {ρ t : ℝ} (hρ : 0 < ρ) (ht : 1 ≤ t) :
    sF1 B m ρ t ≤ ρ ^ (m - 1) * Real.exp (ρ * t) := by
  obtain ⟨m, rfl⟩ := Nat.exists_eq_add_of_le' hm
  rw [Nat.add_sub_cancel]
  refine le_trans ?_ (sS_le B m hρ ht)
  rw [sF1_eq B hm hρ, sS_succ_m, mul_div_cancel_left₀ _ hρ.ne']
  have h1 := sphI_succ_lt B hρ
  have h2 := dq_mono ht B (m + 1)
  have h3 := dq_nonneg ht B (m + 1)
  have h4 := (sphI_pos (B + 1) hρ).le
  have h5 : sphI (B + 1) ρ * dq B (m + 1) t ≤ sphI B ρ * dq (B + 1) (m + 1) t :=
    mul_le_mul h1.le h2 h3 (h4.trans h1.le)
  have hB : (0 : ℝ) < B + 1 := by positivity
  have hm0 : (0 : ℝ) ≤ (m + 1) / (B + 1) := by positivity
  have h6 := mul_le_mul_of_nonneg_left h5 hm0
  have e1 : ((B : ℝ) + 1 + (m + 1)) / (B + 1) = 1 + (m + 1) / (B + 1) := by field_simp
  have e2 : ((B : ℝ) + 1 - (m + 1)) / (B + 1) = 1 - (m + 1) / (B + 1) := by field_simp
  push_cast
  rw [e1, e2]
  linarith

theorem sF2_le (B : ℕ) {m : ℕ} (hm : 1 ≤ m) {ρ t : ℝ} (hρ : 0 < ρ) (ht : 1 ≤ t) :
    sF2 B m ρ t ≤ ρ ^ (m - 1) * Real.exp (ρ * t) * t := by
  obtain ⟨m, rfl⟩ := Nat.exists_eq_add_of_le' hm
  rw [Nat.add_sub_cancel]
  refine le_trans ?_ (mul_le_mul_of_nonneg_right (sS_le B m hρ ht) (by linarith))
  rw [sF2_eq B hm hρ, sS_succ_m, mul_left_comm, mul_div_cancel_left₀ _ hρ.ne']
  have h1 := sphI_succ_lt B hρ
  have h2 := tq_mono ht B (m + 1)
  have h3 := tq_nonneg ht B (m + 1)
  have h4 := (sphI_pos (B + 1) hρ).le
  have h5 : sphI (B + 1) ρ * tq B (m + 1) t ≤ sphI B ρ * tq (B + 1) (m + 1) t :=
    mul_le_mul h1.le h2 h3 (h4.trans h1.le)
  have hB : (0 : ℝ) < B + 1 := by positivity
  have hd := tq_down B (m + 1) t
  have hu := tq_up B (m + 1) t
  have e1 : sphI B ρ * ((B + 1 + ((m + 1 : ℕ) : ℝ)) / (B + 1)) * dq B (m + 1) t =
      sphI B ρ * (t * dq (B + 1) (m + 1) t) - sphI B ρ * tq (B + 1) (m + 1) t / (B + 1) := by
    rw [hd]; field_simp; ring
  have e2 : sphI (B + 1) ρ * ((B + 1 - ((m + 1 : ℕ) : ℝ)) / (B + 1)) * dq (B + 1) (m + 1) t =
      sphI (B + 1) ρ * (t * dq B (m + 1) t) + sphI (B + 1) ρ * tq B (m + 1) t / (B + 1) := by
    rw [hu]; field_simp; ring
  rw [e1, e2]
  have h6 := div_le_div_of_nonneg_right h5 hB.le
  linarith

end CasSph
