import Verif.Lemmas.PointSource

/-! # Row sums of the translation kernel (independent of the model)

`eePol`, `emPol` are the integrands of the exterior translation coefficients without normalisation; the row sums
weighted with the fields of a dipole on the axis are bounded by multipole fields at the distance `x - ρ`. -/

namespace CasSph

open Polynomial Spec Nat Filter Topology

local notation "D" => Polynomial.derivative

/-- `τ_a τ_b + π_a π_b` -/
noncomputable def eePol (a b : ℕ) : ℕ → ℝ[X]
  | 0 => uPol * (dl a 1 * dl b 1)
  | m + 1 => uPol ^ m * (tP a (m + 1) * tP b (m + 1) + C (((m + 1 : ℕ) : ℝ) ^ 2) * (dl a (m + 1) * dl b (m + 1)))

/-- `τ_a π_b + π_a τ_b` -/
noncomputable def emPol (a b : ℕ) : ℕ → ℝ[X]
  | 0 => 0
  | m + 1 => uPol ^ m * (C (((m + 1 : ℕ) : ℝ)) * (tP a (m + 1) * dl b (m + 1) + dl a (m + 1) * tP b (m + 1)))

theorem eePol_comm (a b m : ℕ) : eePol a b m = eePol b a m := by
  cases m <;> simp only [eePol] <;> ring

theorem emPol_comm (a b m : ℕ) : emPol a b m = emPol b a m := by
  cases m <;> simp only [emPol]; ring

theorem uPol_eval (t : ℝ) : uPol.eval t = t ^ 2 - 1 := by simp [uPol]

theorem uPol_nonneg {t : ℝ} (ht : 1 ≤ t) : 0 ≤ uPol.eval t := by rw [uPol_eval]; nlinarith

theorem uPol_pos {t : ℝ} (ht : 1 < t) : 0 < uPol.eval t := by rw [uPol_eval]; nlinarith

theorem eePol_eval_succ (a b m : ℕ) (t : ℝ) : (eePol a b (m + 1)).eval t =
    (uPol.eval t) ^ m * (tq a (m + 1) t * tq b (m + 1) t + (((m + 1 : ℕ) : ℝ) ^ 2) * (dq a (m + 1) t * dq b (m + 1) t)) := by
  simp only [eePol, eval_mul, eval_pow, eval_add, eval_C, tq, dq]

theorem emPol_eval_succ (a b m : ℕ) (t : ℝ) : (emPol a b (m + 1)).eval t =
    (uPol.eval t) ^ m * ((((m + 1 : ℕ) : ℝ)) * (tq a (m + 1) t * dq b (m + 1) t + dq a (m + 1) t * tq b (m + 1) t)) := by
  simp only [emPol, eval_mul, eval_pow, eval_add, eval_C, tq, dq]

theorem eePol_eval_zero (a b : ℕ) (t : ℝ) : (eePol a b 0).eval t = uPol.eval t * (dq a 1 t * dq b 1 t) := by
  simp only [eePol, eval_mul, dq]

theorem eePol_nonneg (a b m : ℕ) {t : ℝ} (ht : 1 ≤ t) : 0 ≤ (eePol a b m).eval t := by
  have hu := uPol_nonneg ht
  cases m with
  | zero =>
    rw [eePol_eval_zero]
    have := dq_nonneg ht a 1
    have := dq_nonneg ht b 1
    positivity
  | succ m =>
    rw [eePol_eval_succ]
    refine mul_nonneg (pow_nonneg hu m) (add_nonneg (mul_nonneg (tq_nonneg ht _ _) (tq_nonneg ht _ _)) (mul_nonneg (sq_nonneg _) ?_))
    exact mul_nonneg (dq_nonneg ht _ _) (dq_nonneg ht _ _)

theorem emPol_nonneg (a b m : ℕ) {t : ℝ} (ht : 1 ≤ t) : 0 ≤ (emPol a b m).eval t := by
  have hu := uPol_nonneg ht
  cases m with
  | zero => simp [emPol]
  | succ m =>
    rw [emPol_eval_succ]
    refine mul_nonneg (pow_nonneg hu m) (mul_nonneg (Nat.cast_nonneg _) (add_nonneg ?_ ?_))
    · exact mul_nonneg (tq_nonneg ht _ _) (dq_nonneg ht _ _)
    · exact mul_nonneg (dq_nonneg ht _ _) (tq_nonneg ht _ _)

/-- the entry is positive whenever both multipoles exist -/
theorem eePol_pos {a b m : ℕ} (ha : 1 ≤ a) (hb : 1 ≤ b) (ham : m ≤ a) (hbm : m ≤ b) {t : ℝ} (ht : 1 < t) :
    0 < (eePol a b m).eval t := by
  have hu := uPol_pos ht
  cases m with
  | zero =>
    rw [eePol_eval_zero]
    have := dq_pos ht.le a 1 ha
    have := dq_pos ht.le b 1 hb
    positivity
  | succ m =>
    rw [eePol_eval_succ]
    refine mul_pos (pow_pos hu m) (add_pos_of_nonneg_of_pos (mul_nonneg (tq_nonneg ht.le _ _) (tq_nonneg ht.le _ _)) ?_)
    exact mul_pos (pow_pos (Nat.cast_pos.mpr (by omega)) 2) (mul_pos (dq_pos ht.le a _ ham) (dq_pos ht.le b _ hbm))

theorem duPol : D uPol = 2 * X := by unfold uPol; simp [derivative_pow]; rfl

theorem duPol_pow (m : ℕ) : D (uPol ^ (m + 1)) = C (2 * ((m : ℝ) + 1)) * X * uPol ^ m := by
  rw [derivative_pow, duPol]
  simp only [Nat.add_sub_cancel, Nat.cast_add, Nat.cast_one, map_mul, map_add, map_one, map_ofNat, map_natCast]
  ring

/-- `u^m(T_a + t Π_a) = (u^{m+1} p_a)'` -/
theorem pol_rowE (a m : ℕ) :
    uPol ^ m * (tP a (m + 1) + X * (C (((m + 1 : ℕ) : ℝ)) * dl a (m + 1))) = D (uPol ^ (m + 1) * dl a (m + 1)) := by
  rw [derivative_mul, duPol_pow, ← dl_succ]
  unfold tP
  simp only [Nat.cast_add, Nat.cast_one, map_mul, map_add, map_one, map_ofNat, map_natCast]
  ring

/-- `u^m(Π_a + t T_a) = (t u^{m+1} p_a)' - (m+2) u^{m+1} p_a` -/
theorem pol_rowM (a m : ℕ) :
    uPol ^ m * (C (((m + 1 : ℕ) : ℝ)) * dl a (m + 1) + X * tP a (m + 1)) =
      D (X * (uPol ^ (m + 1) * dl a (m + 1))) - C ((m : ℝ) + 2) * (uPol ^ (m + 1) * dl a (m + 1)) := by
  rw [derivative_mul, ← pol_rowE, derivative_X]
  unfold tP
  simp only [Nat.cast_add, Nat.cast_one, map_add, map_one, map_ofNat, map_natCast]
  have : (X : ℝ[X]) ^ 2 = uPol + 1 := by unfold uPol; ring
  linear_combination uPol ^ m * ((m : ℝ[X]) + 1) * dl a (m + 1) * (-this)

theorem lap_rowE {y : ℝ} (hy : 0 < y) {a m : ℕ} (h : m + 1 ≤ a) :
    lap y (uPol ^ m * (tP a (m + 1) + X * (C (((m + 1 : ℕ) : ℝ)) * dl a (m + 1)))) =
      2 / Real.pi * nn a (m + 1) * sphK a y / y ^ m := by
  rw [pol_rowE, lap_derivative hy, lap_dl hy h]
  simp only [eval_mul, eval_pow, uPol_eval]
  have := hy.ne'
  rw [_root_.pow_succ y]
  field_simp
  simp

/-- `−(y k_l(y))'/y` for `l = c+1` -/
noncomputable def dK (c : ℕ) (y : ℝ) : ℝ := sphK c y + (c + 1) / y * sphK (c + 1) y

theorem dl_X_mul (n m : ℕ) : C (2 * (n : ℝ) + 3) * (X * dl (n + 1) m) =
    C ((n : ℝ) + 2 - m) * dl (n + 2) m + C ((n : ℝ) + 1 + m) * dl n m := by
  have h1 := tP_down n m
  have h2 := tP_up (n + 1) m
  simp only [Nat.cast_add, Nat.cast_one, map_mul, map_add, map_sub, map_one, map_ofNat, map_natCast] at *
  linear_combination h2 - h1

theorem nn_up {a m : ℕ} (h : m ≤ a) : ((a : ℝ) + 1 - m) * nn (a + 1) m = (a + 1 + m) * nn a m := by
  unfold nn
  rw [show a + 1 - m = (a - m) + 1 by omega, show a + 1 + m = (a + m) + 1 by omega, Nat.factorial_succ, Nat.factorial_succ]
  have h1 : (((a - m)! : ℕ) : ℝ) ≠ 0 := by positivity
  have h2 : ((a - m : ℕ) : ℝ) = a - m := Nat.cast_sub h
  have h3 : (a : ℝ) - m + 1 ≠ 0 := by rw [← h2]; positivity
  push_cast
  rw [h2]
  field_simp
  ring

theorem lap_X_dl {y : ℝ} (hy : 0 < y) {c m : ℕ} (h : m ≤ c + 1) :
    lap y (X * (uPol ^ m * dl (c + 1) m)) =
      2 / Real.pi * nn (c + 1) m / y ^ m * (((c + 2 + m) * sphK (c + 2) y + (c + 1 - m) * sphK c y) / (2 * c + 3)) := by
  have hc : (2 * (c : ℝ) + 3) ≠ 0 := by positivity
  have e : C (2 * (c : ℝ) + 3) * (X * (uPol ^ m * dl (c + 1) m)) =
      C ((c : ℝ) + 2 - m) * (uPol ^ m * dl (c + 2) m) + C ((c : ℝ) + 1 + m) * (uPol ^ m * dl c m) := by
    linear_combination uPol ^ m * dl_X_mul c m
  have e2 := congrArg (lap y) e
  rw [lap_add hy, lap_C_mul, lap_C_mul, lap_C_mul, lap_dl hy (by omega)] at e2
  have e3 : ((c : ℝ) + 1 + m) * lap y (uPol ^ m * dl c m) = 2 / Real.pi * nn (c + 1) m / y ^ m * ((c + 1 - m) * sphK c y) := by
    rcases Nat.lt_or_ge c m with hcm | hcm
    · obtain rfl : m = c + 1 := by omega
      rw [dl_none hcm, mul_zero, lap_zero]
      push_cast
      ring
    · rw [lap_dl hy hcm]
      have := nn_up hcm
      linear_combination -(2 / Real.pi * sphK c y / y ^ m) * this
  rw [e3] at e2
  have e4 := nn_up h
  push_cast at e4
  have hy' := hy.ne'
  rw [← mul_right_inj' hc, e2]
  field_simp
  linear_combination sphK (c + 2) y * e4

theorem lap_rowM {y : ℝ} (hy : 0 < y) {c m : ℕ} (h : m + 1 ≤ c + 1) :
    lap y (uPol ^ m * (C (((m + 1 : ℕ) : ℝ)) * dl (c + 1) (m + 1) + X * tP (c + 1) (m + 1))) =
      2 / Real.pi * nn (c + 1) (m + 1) * dK c y / y ^ m := by
  rw [pol_rowM, lap_sub hy, lap_derivative hy, lap_C_mul, lap_X_dl hy h, lap_dl hy h, sphK_rec c hy.ne']
  simp only [eval_mul, eval_pow, uPol_eval, dK]
  have := hy.ne'
  have hc : (2 * (c : ℝ) + 3) ≠ 0 := by positivity
  rw [_root_.pow_succ y]
  push_cast
  field_simp
  simp
  ring

section
variable {ρ x : ℝ}

theorem row_E (hρ : 0 < ρ) (hx : ρ < x) (B : ℕ) {a m : ℕ} (h : m + 1 ≤ a) :
    ∑ c ∈ Finset.range B, wB c * (sphI (c + 1) ρ * lap x (eePol a (c + 1) (m + 1)) + dI c ρ * lap x (emPol a (c + 1) (m + 1)))
      ≤ ρ ^ m * (2 / Real.pi * nn a (m + 1) * sphK a (x - ρ) / (x - ρ) ^ m) := by
  have hx0 : 0 < x := hρ.trans hx
  have hy : 0 < x - ρ := by linarith
  rw [← lap_rowE hy h]
  have e : ∑ c ∈ Finset.range B, wB c * (sphI (c + 1) ρ * lap x (eePol a (c + 1) (m + 1)) + dI c ρ * lap x (emPol a (c + 1) (m + 1)))
      = lap x (∑ c ∈ Finset.range B, C (wB c) * (C (sphI (c + 1) ρ) * eePol a (c + 1) (m + 1) + C (dI c ρ) * emPol a (c + 1) (m + 1))) := by
    rw [lap_sum hx0]
    refine Finset.sum_congr rfl fun c _ => ?_
    rw [lap_C_mul, lap_add hx0, lap_C_mul, lap_C_mul]
  rw [e]
  refine lap_exp_le hρ.le hx fun t ht => ?_
  have e2 : (∑ c ∈ Finset.range B, C (wB c) * (C (sphI (c + 1) ρ) * eePol a (c + 1) (m + 1) + C (dI c ρ) * emPol a (c + 1) (m + 1))).eval t =
      uPol.eval t ^ m * (tq a (m + 1) t * sF1 B (m + 1) ρ t + (((m + 1 : ℕ) : ℝ) * dq a (m + 1) t) * sF2 B (m + 1) ρ t) := by
    unfold sF1 sF2
    rw [eval_finsetSum, Finset.mul_sum, Finset.mul_sum, ← Finset.sum_add_distrib, Finset.mul_sum]
    refine Finset.sum_congr rfl fun c _ => ?_
    simp only [eval_mul, eval_add, eval_C, eePol_eval_succ, emPol_eval_succ]
    ring
  rw [e2]
  simp only [eval_mul, eval_pow, eval_add, eval_C, eval_X]
  have hu := pow_nonneg (uPol_nonneg ht.le) m
  have h1 := sF1_le B (m := m + 1) (by omega) hρ ht.le
  have h2 := sF2_le B (m := m + 1) (by omega) hρ ht.le
  rw [Nat.add_sub_cancel] at h1 h2
  have h3 := tq_nonneg ht.le a (m + 1)
  have h4 : 0 ≤ ((m + 1 : ℕ) : ℝ) * dq a (m + 1) t := mul_nonneg (by positivity) (dq_nonneg ht.le a (m + 1))
  have h5 := mul_le_mul_of_nonneg_left (add_le_add (mul_le_mul_of_nonneg_left h1 h3) (mul_le_mul_of_nonneg_left h2 h4)) hu
  refine h5.trans (le_of_eq ?_)
  simp only [tq, dq]
  ring

theorem row_M (hρ : 0 < ρ) (hx : ρ < x) (B : ℕ) {a m : ℕ} (h : m + 1 ≤ a + 1) :
    ∑ c ∈ Finset.range B, wB c * (sphI (c + 1) ρ * lap x (emPol (a + 1) (c + 1) (m + 1)) + dI c ρ * lap x (eePol (a + 1) (c + 1) (m + 1)))
      ≤ ρ ^ m * (2 / Real.pi * nn (a + 1) (m + 1) * dK a (x - ρ) / (x - ρ) ^ m) := by
  have hx0 : 0 < x := hρ.trans hx
  have hy : 0 < x - ρ := by linarith
  rw [← lap_rowM hy h]
  have e : ∑ c ∈ Finset.range B, wB c * (sphI (c + 1) ρ * lap x (emPol (a + 1) (c + 1) (m + 1)) + dI c ρ * lap x (eePol (a + 1) (c + 1) (m + 1)))
      = lap x (∑ c ∈ Finset.range B, C (wB c) * (C (sphI (c + 1) ρ) * emPol (a + 1) (c + 1) (m + 1) + C (dI c ρ) * eePol (a + 1) (c + 1) (m + 1))) := by
    rw [lap_sum hx0]
    refine Finset.sum_congr rfl fun c _ => ?_
    rw [lap_C_mul, lap_add hx0, lap_C_mul, lap_C_mul]
  rw [e]
  refine lap_exp_le hρ.le hx fun t ht => ?_
  have e2 : (∑ c ∈ Finset.range B, C (wB c) * (C (sphI (c + 1) ρ) * emPol (a + 1) (c + 1) (m + 1) + C (dI c ρ) * eePol (a + 1) (c + 1) (m + 1))).eval t =
      uPol.eval t ^ m * (tq (a + 1) (m + 1) t * sF2 B (m + 1) ρ t + (((m + 1 : ℕ) : ℝ) * dq (a + 1) (m + 1) t) * sF1 B (m + 1) ρ t) := by
    unfold sF1 sF2
    rw [eval_finsetSum, Finset.mul_sum, Finset.mul_sum, ← Finset.sum_add_distrib, Finset.mul_sum]
    refine Finset.sum_congr rfl fun c _ => ?_
    simp only [eval_mul, eval_add, eval_C, eePol_eval_succ, emPol_eval_succ]
    ring
  rw [e2]
  simp only [eval_mul, eval_pow, eval_add, eval_C, eval_X]
  have hu := pow_nonneg (uPol_nonneg ht.le) m
  have h1 := sF1_le B (m := m + 1) (by omega) hρ ht.le
  have h2 := sF2_le B (m := m + 1) (by omega) hρ ht.le
  rw [Nat.add_sub_cancel] at h1 h2
  have h3 := tq_nonneg ht.le (a + 1) (m + 1)
  have h4 : 0 ≤ ((m + 1 : ℕ) : ℝ) * dq (a + 1) (m + 1) t := mul_nonneg (by positivity) (dq_nonneg ht.le (a + 1) (m + 1))
  have h5 := mul_le_mul_of_nonneg_left (add_le_add (mul_le_mul_of_nonneg_left h2 h3) (mul_le_mul_of_nonneg_left h1 h4)) hu
  refine h5.trans (le_of_eq ?_)
  simp only [tq, dq]
  ring

/-! ## `m = 0` -/

theorem lap_eePol_zero {y : ℝ} (hy : 0 < y) {a : ℕ} (ha : 1 ≤ a) : lap y (uPol * dl a 1) = 2 / Real.pi * (a * (a + 1) * sphK a y / y) := by
  have h := lap_dl hy ha
  rw [pow_one, pow_one] at h
  rw [h]
  have := nn_succ (l := a) (m := 0) (by omega)
  have e : nn a 0 = 1 := by
    unfold nn
    rw [Nat.add_zero, Nat.sub_zero]
    exact div_self (by positivity)
  rw [zero_add] at this
  rw [this, e]
  push_cast
  ring

/-- summed against the point source of order one -/
theorem row_E_zero (hρ : 0 < ρ) (hx : ρ < x) (B : ℕ) {a : ℕ} (ha : 1 ≤ a) :
    ∑ c ∈ Finset.range B, (2 * (c : ℝ) + 3) * sphI (c + 1) ρ * lap x (eePol a (c + 1) 0) ≤
      ρ * (2 / Real.pi * (a * (a + 1) * sphK a (x - ρ) / (x - ρ))) := by
  have hx0 : 0 < x := hρ.trans hx
  have hy : 0 < x - ρ := by linarith
  rw [← lap_eePol_zero hy ha]
  have e : ∑ c ∈ Finset.range B, (2 * (c : ℝ) + 3) * sphI (c + 1) ρ * lap x (eePol a (c + 1) 0) =
      lap x (∑ c ∈ Finset.range B, C ((2 * (c : ℝ) + 3) * sphI (c + 1) ρ) * eePol a (c + 1) 0) := by
    rw [lap_sum hx0]
    refine Finset.sum_congr rfl fun c _ => ?_
    rw [lap_C_mul]
  rw [e]
  refine lap_exp_le hρ.le hx fun t ht => ?_
  have e2 : (∑ c ∈ Finset.range B, C ((2 * (c : ℝ) + 3) * sphI (c + 1) ρ) * eePol a (c + 1) 0).eval t =
      uPol.eval t * dq a 1 t * sS B 1 ρ t := by
    unfold sS
    rw [eval_finsetSum, Finset.sum_range_succ']
    rw [dq_none (l := 0) (by omega), mul_zero, add_zero, Finset.mul_sum]
    refine Finset.sum_congr rfl fun c _ => ?_
    simp only [eval_mul, eval_C, eePol_eval_zero]
    push_cast
    ring
  rw [e2, eval_mul]
  have hu := uPol_nonneg ht.le
  have h1 := sS_le B 1 hρ ht.le
  rw [pow_one] at h1
  have h2 := dq_nonneg ht.le a 1
  have h3 := mul_le_mul_of_nonneg_left h1 (mul_nonneg hu h2)
  refine h3.trans (le_of_eq ?_)
  simp only [dq]
  ring

end

end CasSph
