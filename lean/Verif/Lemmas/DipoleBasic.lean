import Verif.Lemmas.PairGram

/-! # Auxiliary results for the dipole limit (independent of the model) -/

namespace CasSph

open Polynomial Spec Filter Topology
open scoped Nat

/-! ## how fast the reflection of a perfectly conducting sphere falls with its radius -/

theorem sphK_pow_anti {l : ℕ} (hl : 1 ≤ l) {y z : ℝ} (hy : 0 < y) (hyz : y ≤ z) : z ^ (l + 1) * sphK l z ≤ y ^ (l + 1) * sphK l y := by
  have hd : ∀ x : ℝ, 0 < x → HasDerivAt (fun x => x ^ l * (x * sphK l x)) (-(x ^ (l + 1) * sphK (l - 1) x)) x := by
    intro x hx
    refine ((hasDerivAt_pow l x).mul (xK_deriv hl hx)).congr_deriv ?_
    rw [xK_eq hx]
    obtain ⟨l, rfl⟩ := Nat.exists_eq_add_of_le' hl
    simp only [Nat.add_sub_cancel]
    push_cast
    ring
  have h : AntitoneOn (fun x => x ^ l * (x * sphK l x)) (Set.Ioi 0) := by
    refine antitoneOn_of_deriv_nonpos (convex_Ioi 0) (fun x hx => (hd x hx).continuousAt.continuousWithinAt)
      (fun x hx => (hd x (by rw [interior_Ioi] at hx; exact hx)).differentiableAt.differentiableWithinAt) fun x hx => ?_
    rw [interior_Ioi] at hx
    rw [(hd x hx).deriv]
    have : (0 : ℝ) < x := hx
    have := sphK_pos (l - 1) this
    exact neg_nonpos.mpr (by positivity)
  have := h hy (hy.trans_le hyz : 0 < z) hyz
  simp only at this
  calc z ^ (l + 1) * sphK l z = z ^ l * (z * sphK l z) := by ring
    _ ≤ _ := this
    _ = _ := by ring

theorem sphK_pow_anti' (l : ℕ) {y z : ℝ} (hy : 0 < y) (hyz : y ≤ z) : z ^ (l + 1) * sphK l z ≤ y ^ (l + 1) * sphK l y := by
  rcases Nat.eq_zero_or_pos l with rfl | hl
  · have hz : 0 < z := hy.trans_le hyz
    rw [sphK_zero, sphK_zero]
    have e : Real.exp (-z) ≤ Real.exp (-y) := Real.exp_le_exp.mpr (by linarith)
    have e1 : z ^ (0 + 1) * (Real.pi / 2 * Real.exp (-z) / z) = Real.pi / 2 * Real.exp (-z) := by rw [zero_add, pow_one]; field_simp
    have e2 : y ^ (0 + 1) * (Real.pi / 2 * Real.exp (-y) / y) = Real.pi / 2 * Real.exp (-y) := by rw [zero_add, pow_one]; field_simp
    rw [e1, e2]
    exact mul_le_mul_of_nonneg_left e (by positivity)
  · exact sphK_pow_anti hl hy hyz

theorem sphK_lower_le (c : ℕ) {y : ℝ} (hy : 0 < y) : sphK c y ≤ y * sphK (c + 1) y := by
  rcases Nat.eq_zero_or_pos c with rfl | hc
  · rw [sphK_zero, sphK_one hy.ne']
    have := Real.exp_pos (-y)
    have e : y * (Real.pi / 2 * Real.exp (-y) * (y + 1) / y ^ 2) = Real.pi / 2 * Real.exp (-y) / y + Real.pi / 2 * Real.exp (-y) := by
      field_simp
      ring
    rw [e]
    have := Real.pi_pos
    have : 0 < Real.pi / 2 * Real.exp (-y) := by positivity
    linarith
  · obtain ⟨c, rfl⟩ := Nat.exists_eq_add_of_le' hc
    rw [sphK_rec c hy.ne']
    have h1 := sphK_pos c hy
    have h2 := sphK_pos (c + 1) hy
    have e : y * (sphK c y + (2 * c + 3) / y * sphK (c + 1) y) = y * sphK c y + (2 * c + 3) * sphK (c + 1) y := by field_simp
    rw [e]
    have := mul_pos hy h1
    nlinarith [Nat.cast_nonneg (α := ℝ) c]

theorem dK_scale (c : ℕ) {q ρ : ℝ} (hq : 0 < q) (hq1 : q ≤ 1) (hρ : 0 < ρ) : dK c ρ ≤ q ^ (c + 3) * (1 + ρ ^ 2) * dK c (q * ρ) := by
  have hqρ := mul_pos hq hρ
  have hle : q * ρ ≤ ρ := by nlinarith
  have k0 := sphK_pos c hqρ
  have k1 := sphK_pos (c + 1) hqρ
  have h1 := sphK_pow_anti' c hqρ hle
  have h2 := sphK_pow_anti' (c + 1) hqρ hle
  have h3 := sphK_lower_le c hqρ
  have hK1 : sphK (c + 1) ρ ≤ q ^ (c + 2) * sphK (c + 1) (q * ρ) := by
    have : ρ ^ (c + 2) * sphK (c + 1) ρ ≤ ρ ^ (c + 2) * (q ^ (c + 2) * sphK (c + 1) (q * ρ)) := by
      refine h2.trans (le_of_eq ?_); rw [mul_pow]; ring
    exact le_of_mul_le_mul_left this (by positivity)
  have hK0 : sphK c ρ ≤ q ^ (c + 2) * ρ * sphK (c + 1) (q * ρ) := by
    have : ρ ^ (c + 1) * sphK c ρ ≤ ρ ^ (c + 1) * (q ^ (c + 1) * sphK c (q * ρ)) := by
      refine h1.trans (le_of_eq ?_); rw [mul_pow]; ring
    have := le_of_mul_le_mul_left this (by positivity)
    refine this.trans ?_
    have := mul_le_mul_of_nonneg_left h3 (show 0 ≤ q ^ (c + 1) by positivity)
    refine this.trans (le_of_eq ?_)
    ring
  have hc : (0 : ℝ) ≤ c := Nat.cast_nonneg c
  have hd : ((c : ℝ) + 1) / (q * ρ) * sphK (c + 1) (q * ρ) ≤ dK c (q * ρ) := by unfold dK; linarith
  have hR : q ^ (c + 3) * (1 + ρ ^ 2) * (((c : ℝ) + 1) / (q * ρ) * sphK (c + 1) (q * ρ)) =
      q ^ (c + 2) * (((c : ℝ) + 1) / ρ) * sphK (c + 1) (q * ρ) + (c + 1) * (q ^ (c + 2) * ρ * sphK (c + 1) (q * ρ)) := by
    field_simp
    ring
  refine le_trans ?_ (mul_le_mul_of_nonneg_left hd (by positivity))
  rw [hR]
  unfold dK
  have a1 := mul_le_mul_of_nonneg_left hK1 (show 0 ≤ ((c : ℝ) + 1) / ρ by positivity)
  have a2 : 0 ≤ (c : ℝ) * (q ^ (c + 2) * ρ * sphK (c + 1) (q * ρ)) := by positivity
  linarith

/-- The reflection coefficient falls at least like the third power of a small radius. -/
theorem pecR_cubic_near (P : Bool) (c : ℕ) {q ρ : ℝ} (hq : 0 < q) (hq1 : q ≤ 1) (hρ : 0 < ρ) :
    pecR P c (q * ρ) ≤ q ^ 3 * (1 + ρ ^ 2) * pecR P c ρ := by
  have hqρ := mul_pos hq hρ
  have hle : q * ρ ≤ ρ := by nlinarith
  have hpi := Real.pi_pos
  cases P with
  | false =>
    have h1 := sphI_scale (c + 1) hq.le hq1 hρ
    have h2 := sphK_pow_anti' (c + 1) hqρ hle
    have hK1 : sphK (c + 1) ρ ≤ q ^ (c + 2) * sphK (c + 1) (q * ρ) := by
      have : ρ ^ (c + 2) * sphK (c + 1) ρ ≤ ρ ^ (c + 2) * (q ^ (c + 2) * sphK (c + 1) (q * ρ)) := by
        refine h2.trans (le_of_eq ?_); rw [mul_pow]; ring
      exact le_of_mul_le_mul_left this (by positivity)
    have k1 := sphK_pos (c + 1) hρ
    have k2 := sphK_pos (c + 1) hqρ
    have i1 := sphI_pos (c + 1) hρ
    simp only [pecR]
    have : sphI (c + 1) (q * ρ) / sphK (c + 1) (q * ρ) ≤ q ^ 3 * (1 + ρ ^ 2) * (sphI (c + 1) ρ / sphK (c + 1) ρ) := by
      rw [div_le_iff₀ k2]
      have h3 : sphI (c + 1) (q * ρ) * sphK (c + 1) ρ ≤ q ^ (c + 1) * sphI (c + 1) ρ * (q ^ (c + 2) * sphK (c + 1) (q * ρ)) :=
        mul_le_mul h1 hK1 k1.le (by positivity)
      have h4 : q ^ (c + 1) * q ^ (c + 2) ≤ q ^ 3 * (1 + ρ ^ 2) := by
        rw [← _root_.pow_add]
        refine (pow_le_pow_of_le_one hq.le hq1 (show 3 ≤ c + 1 + (c + 2) by omega)).trans ?_
        exact le_mul_of_one_le_right (by positivity) (by nlinarith [sq_nonneg ρ])
      rw [← le_div_iff₀ k1] at h3
      refine h3.trans ?_
      have e : q ^ (c + 1) * sphI (c + 1) ρ * (q ^ (c + 2) * sphK (c + 1) (q * ρ)) / sphK (c + 1) ρ =
        q ^ (c + 1) * q ^ (c + 2) * (sphI (c + 1) ρ / sphK (c + 1) ρ * sphK (c + 1) (q * ρ)) := by ring
      rw [e, mul_assoc (q ^ 3 * (1 + ρ ^ 2))]
      exact mul_le_mul_of_nonneg_right h4 (by positivity)
    have := mul_le_mul_of_nonneg_left this (show 0 ≤ Real.pi / 2 by positivity)
    linarith
  | true =>
    have h1 := dI_scale c hq hq1 hρ
    have h2 := dK_scale c hq hq1 hρ
    have k1 := dK_pos c hρ
    have k2 := dK_pos c hqρ
    have i1 := dI_pos c hρ
    simp only [pecR]
    have : dI c (q * ρ) / dK c (q * ρ) ≤ q ^ 3 * (1 + ρ ^ 2) * (dI c ρ / dK c ρ) := by
      rw [div_le_iff₀ k2]
      have h3 : dI c (q * ρ) * dK c ρ ≤ q ^ c * dI c ρ * (q ^ (c + 3) * (1 + ρ ^ 2) * dK c (q * ρ)) :=
        mul_le_mul h1 h2 k1.le (by positivity)
      have h4 : q ^ c * q ^ (c + 3) ≤ q ^ 3 := by
        rw [← _root_.pow_add]
        exact pow_le_pow_of_le_one hq.le hq1 (show 3 ≤ c + (c + 3) by omega)
      rw [← le_div_iff₀ k1] at h3
      refine h3.trans ?_
      have e : q ^ c * dI c ρ * (q ^ (c + 3) * (1 + ρ ^ 2) * dK c (q * ρ)) / dK c ρ =
        q ^ c * q ^ (c + 3) * ((1 + ρ ^ 2) * (dI c ρ / dK c ρ) * dK c (q * ρ)) := by ring
      have e' : q ^ 3 * (1 + ρ ^ 2) * (dI c ρ / dK c ρ) * dK c (q * ρ) = q ^ 3 * ((1 + ρ ^ 2) * (dI c ρ / dK c ρ) * dK c (q * ρ)) := by ring
      rw [e, e']
      exact mul_le_mul_of_nonneg_right h4 (by positivity)
    have := mul_le_mul_of_nonneg_left this (show 0 ≤ Real.pi / 2 by positivity)
    linarith

theorem cube_le_exp {t : ℝ} (ht : 0 ≤ t) : t ^ 3 ≤ 6 * Real.exp t := by
  have h := Real.pow_div_factorial_le_exp t ht 3
  have e : ((3 ! : ℕ) : ℝ) = 6 := by norm_num [Nat.factorial]
  rw [e] at h
  linarith

/-- Reducing the radius by the factor `q` reduces the reflection coefficient by a multiple of `q³`. -/
theorem pecR_cubic (P : Bool) (c : ℕ) {q ρ : ℝ} (hq : 0 < q) (hq1 : q ≤ 1) (hρ : 0 < ρ) :
    pecR P c (q * ρ) ≤ 12 * Real.exp 1 * q ^ 3 * pecR P c ρ := by
  have hqρ := mul_pos hq hρ
  have h0 := pecR_pos P c hρ
  have he : (1 : ℝ) ≤ Real.exp 1 := Real.one_le_exp (by norm_num)
  have hq3 : 0 < q ^ 3 := by positivity
  rcases le_total ρ 1 with h1 | h1
  · refine (pecR_cubic_near P c hq hq1 hρ).trans ?_
    refine mul_le_mul_of_nonneg_right ?_ h0.le
    have : 1 + ρ ^ 2 ≤ 2 := by nlinarith
    nlinarith
  · rcases le_total (q * ρ) 1 with h2 | h2
    · have a := pecR_cubic_near P c hqρ h2 one_pos
      rw [mul_one] at a
      have b := pecR_scale P c (q := 1 / ρ) (by positivity) ((div_le_one hρ).mpr h1) hρ
      rw [one_div_mul_cancel hρ.ne'] at b
      have b' : pecR P c 1 ≤ Real.exp (-(ρ - 1)) * pecR P c ρ := by
        refine b.trans (mul_le_mul_of_nonneg_right ?_ h0.le)
        exact mul_le_of_le_one_left (Real.exp_pos _).le (pow_le_one₀ (by positivity) ((div_le_one hρ).mpr h1))
      have a' := a.trans (mul_le_mul_of_nonneg_left b' (show 0 ≤ (q * ρ) ^ 3 * (1 + 1 ^ 2) by positivity))
      refine a'.trans ?_
      rw [← mul_assoc]
      refine mul_le_mul_of_nonneg_right ?_ h0.le
      have hc := cube_le_exp hρ.le
      have hx : Real.exp (-(ρ - 1)) * Real.exp ρ = Real.exp 1 := by rw [← Real.exp_add]; congr 1; ring
      have := Real.exp_pos (-(ρ - 1))
      have : ρ ^ 3 * Real.exp (-(ρ - 1)) ≤ 6 * Real.exp 1 := by nlinarith
      calc (q * ρ) ^ 3 * (1 + 1 ^ 2) * Real.exp (-(ρ - 1)) = 2 * q ^ 3 * (ρ ^ 3 * Real.exp (-(ρ - 1))) := by ring
        _ ≤ 2 * q ^ 3 * (6 * Real.exp 1) := mul_le_mul_of_nonneg_left this (by positivity)
        _ = _ := by ring
    · refine (pecR_scale P c hq hq1 hρ).trans (mul_le_mul_of_nonneg_right ?_ h0.le)
      have hge : 1 / q ≤ ρ := by rw [div_le_iff₀ hq]; linarith
      have a : q ^ c * Real.exp (-(ρ - q * ρ)) ≤ Real.exp (-(1 / q - 1)) := by
        refine (mul_le_of_le_one_left (Real.exp_pos _).le (pow_le_one₀ hq.le hq1)).trans (Real.exp_le_exp.mpr ?_)
        have : (1 - q) * (1 / q) ≤ (1 - q) * ρ := mul_le_mul_of_nonneg_left hge (by linarith)
        have e : (1 - q) * (1 / q) = 1 / q - 1 := by field_simp
        linarith
      refine a.trans ?_
      have hc := cube_le_exp (t := 1 / q) (by positivity)
      have hx : Real.exp (-(1 / q - 1)) * Real.exp (1 / q) = Real.exp 1 := by rw [← Real.exp_add]; congr 1; ring
      have hp := Real.exp_pos (-(1 / q - 1))
      have h6 : (1 / q) ^ 3 * Real.exp (-(1 / q - 1)) ≤ 6 * Real.exp 1 := by nlinarith
      have e : Real.exp (-(1 / q - 1)) = q ^ 3 * ((1 / q) ^ 3 * Real.exp (-(1 / q - 1))) := by field_simp
      rw [e]
      have := mul_le_mul_of_nonneg_left h6 hq3.le
      nlinarith

/-! ## the translation coefficients of the lowest multipoles -/

theorem lap_continuousAt (p : ℝ[X]) {x : ℝ} (hx : 0 < x) : ContinuousAt (fun x => lap x p) x := by
  induction h : p.natDegree using Nat.strong_induction_on generalizing p with
  | _ n ih =>
    have key : ContinuousAt (fun x => lap x (derivative p)) x → ContinuousAt (fun x => lap x p) x := by
      intro hc
      have h1 : ContinuousAt (fun x => (lap x (derivative p) + Real.exp (-x) * p.eval 1) / x) x :=
        (hc.add ((Real.continuous_exp.comp continuous_neg).continuousAt.mul continuousAt_const)).div continuousAt_id hx.ne'
      refine h1.congr ?_
      filter_upwards [lt_mem_nhds hx] with y hy
      rw [lap_derivative hy]
      field_simp
      ring
    refine key ?_
    rcases Nat.eq_zero_or_pos n with h0 | h0
    · have : derivative p = 0 := by
        rw [Polynomial.natDegree_eq_zero.mp (h.trans h0) |>.choose_spec.symm]; simp
      rw [this]
      simp only [lap, eval_zero, mul_zero, MeasureTheory.integral_zero]
      exact continuousAt_const
    · exact ih _ (by rw [← h]; exact natDegree_derivative_lt (by omega)) _ rfl

theorem fab_continuousAt (m : ℕ) (P Q : Bool) (c c' : ℕ) {x : ℝ} (hx : 0 < x) : ContinuousAt (fun x => fab m x P Q c c') x :=
  continuousAt_const.mul (lap_continuousAt _ hx)

theorem lap_X {x : ℝ} (hx : 0 < x) : lap x X = Real.exp (-x) * (1 + x) / x ^ 2 := by
  have h1 := lap_derivative hx (X : ℝ[X])
  have h2 := lap_derivative hx (1 : ℝ[X])
  simp only [derivative_X, eval_X, derivative_one, eval_one] at h1 h2
  have h3 : lap x (0 : ℝ[X]) = 0 := by simp [lap]
  rw [h3] at h2
  have e : lap x 1 = Real.exp (-x) / x := by field_simp; linarith
  rw [e] at h1
  have : x * lap x X = Real.exp (-x) / x + Real.exp (-x) := by linarith
  have e2 : lap x X = (Real.exp (-x) / x + Real.exp (-x)) / x := by field_simp at this ⊢; linarith
  rw [e2]
  field_simp
  

theorem lap_one {x : ℝ} (hx : 0 < x) : lap x 1 = Real.exp (-x) / x := by
  have h2 := lap_derivative hx (1 : ℝ[X])
  simp only [derivative_one, eval_one] at h2
  have h3 : lap x (0 : ℝ[X]) = 0 := by simp [lap]
  rw [h3] at h2
  field_simp
  linarith

theorem lap_sq {x : ℝ} (hx : 0 < x) : lap x (X ^ 2) = Real.exp (-x) * (x ^ 2 + 2 * x + 2) / x ^ 3 := by
  have h1 := lap_derivative hx (X ^ 2 : ℝ[X])
  have e : derivative (X ^ 2 : ℝ[X]) = X + X := by rw [sq, derivative_mul]; simp
  rw [e, lap_add hx, lap_X hx] at h1
  simp only [eval_pow, eval_X, one_pow, mul_one] at h1
  have e2 : lap x (X ^ 2) = (Real.exp (-x) * (1 + x) / x ^ 2 + Real.exp (-x) * (1 + x) / x ^ 2 + Real.exp (-x)) / x := by
    rw [eq_div_iff hx.ne']; linarith
  rw [e2]
  field_simp
  ring

theorem dl_one_one : dl 1 1 = 1 := by
  rw [dl_succ]; unfold dl; simp [legendre_one]

theorem tP_one_one : tP 1 1 = X := by
  unfold tP
  rw [dl_none (by norm_num), dl_one_one]
  simp

theorem nV_one_zero : nV 1 0 * nV 1 0 = 3 / 2 := by
  have h := nV_sq (le_refl 1) 0
  have : nn 1 0 = 1 := by norm_num [nn, Nat.factorial]
  rw [this] at h
  norm_num at h
  linarith

theorem nV_one_one : nV 1 1 * nV 1 1 = 3 / 4 := by
  have h := nV_sq (le_refl 1) 1
  have : nn 1 1 = 2 := by norm_num [nn, Nat.factorial]
  rw [this] at h
  norm_num at h
  linarith

/-- `m = 0`, dipole to dipole -/
theorem fab_m0 {x : ℝ} (hx : 0 < x) (P Q : Bool) :
    fab 0 x P Q 0 0 = if P = Q then 3 * (1 + x) * Real.exp (-x) / x ^ 3 else 0 := by
  unfold fab
  rw [nV_one_zero]
  split
  · have e : eePol (0 + 1) (0 + 1) 0 = X ^ 2 - 1 := by simp only [eePol, zero_add, dl_one_one, uPol]; ring
    rw [e, lap_sub hx, lap_sq hx, lap_one hx]
    field_simp
    ring
  · simp [emPol, lap]

/-- `m = 1`, dipole to dipole -/
theorem fab_m1 {x : ℝ} (hx : 0 < x) (P Q : Bool) :
    fab 1 x P Q 0 0 = if P = Q then 3 / 2 * (1 + x + x ^ 2) * Real.exp (-x) / x ^ 3 else 3 / 2 * (x * (1 + x)) * Real.exp (-x) / x ^ 3 := by
  unfold fab
  rw [nV_one_one]
  split
  · have e : eePol (0 + 1) (0 + 1) 1 = X ^ 2 + 1 := by simp only [eePol, zero_add, dl_one_one, tP_one_one]; simp; ring
    rw [e, lap_add hx, lap_sq hx, lap_one hx]
    field_simp
    ring
  · have e : emPol (0 + 1) (0 + 1) 1 = X + X := by simp only [emPol, zero_add, dl_one_one, tP_one_one]; simp
    rw [e, lap_add hx, lap_X hx]
    field_simp
    ring

/-! ## determinants near one -/

theorem logdet_small {H : ℕ → ℕ → ℝ} {n p : ℕ} {t σ : ℝ} (ht : ∑ i : Fin n, ∑ s : Fin p, corner H n p i s ^ 2 = t) (h1 : t < 1) (hσ : σ = 1 ∨ σ = -1) :
    |Real.log (1 - gram σ H n p).det + σ * t| ≤ t * t / (2 * (1 - t)) := by
  set H' : ℕ → ℕ → ℝ := fun i s => if i < n ∧ s < p then H i s else 0 with hH'
  have t0 : 0 ≤ t := by rw [← ht]; positivity
  have hs : ∀ a b, ∑ i : Fin a, ∑ s : Fin b, corner H' a b i s ^ 2 ≤ t := by
    intro a b
    have e : ∀ a b, ∑ i : Fin a, ∑ s : Fin b, corner H' a b i s ^ 2 = ∑ i ∈ Finset.range a, ∑ s ∈ Finset.range b, H' i s ^ 2 := by
      intro a b
      rw [Finset.sum_range]
      refine Finset.sum_congr rfl fun i _ => ?_
      rw [Finset.sum_range]
      rfl
    have e0 : t = ∑ i ∈ Finset.range n, ∑ s ∈ Finset.range p, H' i s ^ 2 := by
      rw [← ht, Finset.sum_range]
      refine Finset.sum_congr rfl fun i _ => ?_
      rw [Finset.sum_range]
      refine Finset.sum_congr rfl fun s _ => ?_
      simp [hH', corner, i.2, s.2]
    rw [e, e0]
    have hle : ∑ i ∈ Finset.range a, ∑ s ∈ Finset.range b, H' i s ^ 2 ≤
        ∑ i ∈ Finset.range (max a n), ∑ s ∈ Finset.range (max b p), H' i s ^ 2 := by
      refine (Finset.sum_le_sum fun i _ => Finset.sum_le_sum_of_subset_of_nonneg (Finset.range_mono (le_max_left b p)) fun _ _ _ => sq_nonneg _).trans ?_
      exact Finset.sum_le_sum_of_subset_of_nonneg (Finset.range_mono (le_max_left a n)) fun _ _ _ => Finset.sum_nonneg fun _ _ => sq_nonneg _
    refine hle.trans (le_of_eq ?_)
    rw [← Finset.sum_subset (Finset.range_mono (le_max_right a n))]
    · refine Finset.sum_congr rfl fun i _ => ?_
      rw [← Finset.sum_subset (Finset.range_mono (le_max_right b p))]
      intro s _ hs
      have : ¬ s < p := by simpa using hs
      simp [hH', this]
    · intro i _ hi
      have : ¬ i < n := by simpa using hi
      simp [hH', this]
  have hc : Contr H' t := by
    intro a b z
    refine le_trans (Finset.sum_le_sum fun s _ => Finset.sum_mul_sq_le_sq_mul_sq _ _ _) ?_
    rw [← Finset.mul_sum, mul_comm]
    refine mul_le_mul_of_nonneg_right ?_ (by positivity)
    rw [Finset.sum_comm]
    exact hs a b
  have hh : HSContr H' t t := ⟨t0, h1, hc, hs⟩
  have eg : gram σ H' n p = gram σ H n p := by
    unfold gram
    have : corner H' n p = corner H n p := by
      ext i s
      simp [hH', corner]
    rw [this]
  have h := hh.truncation_abs hσ n p 1
  rw [eg] at h
  have et : traceSum (gram σ H n p) 1 = σ * t := by
    unfold traceSum
    simp only [Finset.Icc_self, Finset.sum_singleton, pow_one, Nat.cast_one, div_one]
    unfold gram
    rw [Matrix.trace_smul, smul_eq_mul, ← ht]
    congr 1
    simp only [Matrix.trace, Matrix.diag_apply, Matrix.mul_apply, Matrix.transpose_apply, sq]
  rw [et] at h
  rw [← abs_neg]
  have e1 : -(Real.log (1 - gram σ H n p).det + σ * t) = -(σ * t) - Real.log (1 - gram σ H n p).det := by ring
  rw [e1]
  refine h.trans (le_of_eq ?_)
  rw [pow_one]
  push_cast
  norm_num

/-- `w ln det(1 - σ H Hᵀ)` for an array whose squares behave like `1/w`. -/
theorem logdet_limit {ι : Type*} {F : Filter ι} {w σ : ι → ℝ} {H : ι → ℕ → ℕ → ℝ} {n p : ℕ} {h : ℕ → ℕ → ℝ}
    (hw : Tendsto w F atTop) (hσ : ∀ᶠ x in F, σ x = 1 ∨ σ x = -1)
    (hH : ∀ i < n, ∀ s < p, Tendsto (fun x => w x * (σ x * H x i s ^ 2)) F (𝓝 (h i s))) :
    Tendsto (fun x => w x * Real.log (1 - gram (σ x) (H x) n p).det) F (𝓝 (-∑ i ∈ Finset.range n, ∑ s ∈ Finset.range p, h i s)) := by
  set t : ι → ℝ := fun x => ∑ i : Fin n, ∑ s : Fin p, corner (H x) n p i s ^ 2 with htdef
  have h1 : Tendsto (fun x => w x * (σ x * t x)) F (𝓝 (∑ i ∈ Finset.range n, ∑ s ∈ Finset.range p, h i s)) := by
    have : Tendsto (fun x => ∑ i ∈ Finset.range n, ∑ s ∈ Finset.range p, w x * (σ x * H x i s ^ 2)) F (𝓝 (∑ i ∈ Finset.range n, ∑ s ∈ Finset.range p, h i s)) :=
      tendsto_finsetSum _ fun i hi => tendsto_finsetSum _ fun s hs => hH i (Finset.mem_range.mp hi) s (Finset.mem_range.mp hs)
    refine this.congr fun x => ?_
    rw [htdef]
    simp only [Finset.mul_sum, Finset.sum_range]
    rfl
  have h2 : Tendsto (fun x => |w x * (σ x * t x)|) F (𝓝 |∑ i ∈ Finset.range n, ∑ s ∈ Finset.range p, h i s|) := h1.abs
  have t0 : ∀ x, 0 ≤ t x := fun x => by rw [htdef]; positivity
  have h3 : Tendsto (fun x => w x * t x) F (𝓝 |∑ i ∈ Finset.range n, ∑ s ∈ Finset.range p, h i s|) := by
    refine h2.congr' ?_
    filter_upwards [hσ, hw.eventually_ge_atTop 0] with x hx hwx
    rw [abs_mul, abs_mul, abs_of_nonneg hwx, abs_of_nonneg (t0 x)]
    rcases hx with e | e <;> rw [e] <;> simp
  have h4 : Tendsto t F (𝓝 0) := by
    have := h3.mul hw.inv_tendsto_atTop
    rw [mul_zero] at this
    refine this.congr' ?_
    filter_upwards [hw.eventually_gt_atTop 0] with x hx
    simp only [Pi.inv_apply]
    field_simp
  have h5 : Tendsto (fun x => w x * t x * (t x / (2 * (1 - t x)))) F (𝓝 0) := by
    have a : Tendsto (fun x => t x / (2 * (1 - t x))) F (𝓝 (0 / (2 * (1 - 0)))) := h4.div ((h4.const_sub 1).const_mul 2) (by norm_num)
    have := h3.mul a
    simpa using this
  have h6 : Tendsto (fun x => w x * (Real.log (1 - gram (σ x) (H x) n p).det + σ x * t x)) F (𝓝 0) := by
    refine squeeze_zero_norm' ?_ h5
    filter_upwards [hσ, hw.eventually_ge_atTop 0, h4.eventually (gt_mem_nhds (show (0 : ℝ) < 1 by norm_num))] with x hx hwx hlt
    have := logdet_small (H := H x) (n := n) (p := p) rfl hlt hx
    rw [Real.norm_eq_abs, abs_mul, abs_of_nonneg hwx]
    refine (mul_le_mul_of_nonneg_left this hwx).trans (le_of_eq ?_)
    simp only [htdef]
    ring
  have h7 := h6.sub h1
  rw [zero_sub] at h7
  refine h7.congr fun x => ?_
  ring

end CasSph
