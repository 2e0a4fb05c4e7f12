import Verif.Lemmas.Legendre
import Verif.Lemmas.Laplace
import Verif.Lemmas.BesselSpec

/-! # Derivatives of Legendre polynomials outside the unit interval, and their Laplace integrals

Independent of the model. -/

namespace CasSph

open Polynomial Spec Nat

local notation "D" => Polynomial.derivative (R := ℝ)

/-- the `m`-th derivative of the Legendre polynomial of degree `l` -/
noncomputable def dl (l m : ℕ) : ℝ[X] := derivative^[m] (legendre l)

/-- its value -/
noncomputable def dq (l m : ℕ) (t : ℝ) : ℝ := (dl l m).eval t

theorem dl_succ (l m : ℕ) : dl l (m + 1) = D (dl l m) := by unfold dl; rw [Function.iterate_succ_apply']

theorem dl_none {l m : ℕ} (h : l < m) : dl l m = 0 :=
  iterate_derivative_eq_zero (lt_of_le_of_lt (legendre_degree l).1 h)

theorem dq_none {l m : ℕ} (h : l < m) (t : ℝ) : dq l m t = 0 := by unfold dq; rw [dl_none h]; simp

theorem iter_X_mul (m : ℕ) (p : ℝ[X]) : derivative^[m + 1] (X * p) = X * derivative^[m + 1] p + C ((m : ℝ) + 1) * derivative^[m] p := by
  induction m with
  | zero => simp [derivative_mul]; ring
  | succ m ih =>
    rw [Function.iterate_succ_apply', ih, map_add, derivative_mul, derivative_X, derivative_C_mul,
      ← Function.iterate_succ_apply' (f := D) (n := m + 1), ← Function.iterate_succ_apply' (f := D) (n := m)]
    push_cast
    simp only [C_add, map_one]
    ring

theorem iter_C_mul (m : ℕ) (a : ℝ) (p : ℝ[X]) : derivative^[m] (C a * p) = C a * derivative^[m] p := by
  induction m with
  | zero => rfl
  | succ m ih => rw [Function.iterate_succ_apply', ih, derivative_C_mul, ← Function.iterate_succ_apply' (f := D)]

/-- `p_{n+1}' = t p_n' + (n+1+m) p_n` -/
theorem dl_rec1 (n m : ℕ) : dl (n + 1) (m + 1) = X * dl n (m + 1) + C ((n : ℝ) + 1 + m) * dl n m := by
  have h := congrArg (fun p => derivative^[m] p) (legendre_deriv n).1
  simp only [iterate_map_add, iter_C_mul] at h
  unfold dl
  rw [Function.iterate_succ_apply, h]
  cases m with
  | zero => simp
  | succ m =>
    rw [iter_X_mul, ← Function.iterate_succ_apply (f := D), ← Function.iterate_succ_apply (f := D) (n := m)]
    push_cast
    simp only [C_add, map_one]
    ring

/-- `t p_{n+1}' - p_n' = (n+1-m) p_{n+1}` -/
theorem dl_rec2 (n m : ℕ) : X * dl (n + 1) (m + 1) - dl n (m + 1) = C ((n : ℝ) + 1 - m) * dl (n + 1) m := by
  have h := congrArg (fun p => derivative^[m] p) (legendre_deriv n).2
  simp only [iterate_map_sub, iter_C_mul] at h
  unfold dl
  rw [← Function.iterate_succ_apply (f := D)] at h
  cases m with
  | zero => simpa using h
  | succ m =>
    rw [iter_X_mul, ← Function.iterate_succ_apply (f := D), ← Function.iterate_succ_apply (f := D) (n := m)] at h
    push_cast
    simp only [C_add, C_sub, map_one] at h ⊢
    linear_combination h

theorem dl_sum_rule (n m : ℕ) : dl (n + 2) (m + 1) - dl n (m + 1) = C (2 * (n : ℝ) + 3) * dl (n + 1) m := by
  have h1 := dl_rec1 (n + 1) m
  have h2 := dl_rec2 n m
  push_cast at h1
  simp only [C_add, C_sub, C_mul, map_one, map_ofNat] at *
  linear_combination h1 + h2

/-- `t²-1` -/
noncomputable def uPol : ℝ[X] := X ^ 2 - 1

/-- `T = (t²-1) p' + m t p` -/
noncomputable def tP (l m : ℕ) : ℝ[X] := uPol * dl l (m + 1) + C (m : ℝ) * X * dl l m

noncomputable def tq (l m : ℕ) (t : ℝ) : ℝ := (tP l m).eval t

theorem tP_down (n m : ℕ) : tP (n + 1) m = C ((n : ℝ) + 1) * X * dl (n + 1) m - C ((n : ℝ) + 1 + m) * dl n m := by
  have h1 := dl_rec1 n m
  have h2 := dl_rec2 n m
  unfold tP uPol
  simp only [C_add, C_sub, map_one] at *
  linear_combination X * h2 - h1

theorem tP_up (n m : ℕ) : tP n m = C ((n : ℝ) + 1 - m) * dl (n + 1) m - C ((n : ℝ) + 1) * X * dl n m := by
  have h1 := dl_rec1 n m
  have h2 := dl_rec2 n m
  unfold tP uPol
  simp only [C_add, C_sub, map_one] at *
  linear_combination h2 - X * h1

theorem tq_down (n m : ℕ) (t : ℝ) : tq (n + 1) m t = (n + 1) * t * dq (n + 1) m t - (n + 1 + m) * dq n m t := by
  unfold tq dq; rw [tP_down]; simp

theorem tq_up (n m : ℕ) (t : ℝ) : tq n m t = (n + 1 - m) * dq (n + 1) m t - (n + 1) * t * dq n m t := by
  unfold tq dq; rw [tP_up]; simp

theorem dq_sum_rule (n m : ℕ) (t : ℝ) : dq (n + 2) (m + 1) t - dq n (m + 1) t = (2 * n + 3) * dq (n + 1) m t := by
  have := congrArg (eval t) (dl_sum_rule n m)
  simpa [dq] using this

theorem dq_rec1 (n m : ℕ) (t : ℝ) : dq (n + 1) (m + 1) t = t * dq n (m + 1) t + (n + 1 + m) * dq n m t := by
  have := congrArg (eval t) (dl_rec1 n m)
  simpa [dq] using this

theorem dq_hasDeriv (l m : ℕ) (t : ℝ) : HasDerivAt (dq l m) (dq l (m + 1) t) t := by
  unfold dq
  rw [dl_succ]
  exact (dl l m).hasDerivAt t

/-! ## signs and monotonicity for `t ≥ 1` -/

theorem legendre_mono_ge {t : ℝ} (ht : 1 ≤ t) (n : ℕ) : 1 ≤ dq n 0 t ∧ dq n 0 t ≤ dq (n + 1) 0 t := by
  have e0 : dq 0 0 t = 1 := by simp [dq, dl, legendre_zero]
  have e1 : dq 1 0 t = t := by simp [dq, dl, legendre_one]
  induction n with
  | zero => rw [e0, zero_add, e1]; exact ⟨le_rfl, ht⟩
  | succ n ih =>
    have hb := congrArg (eval t) (bonnet n)
    simp only [eval_mul, eval_C, eval_sub, eval_X] at hb
    have hb' : ((n : ℝ) + 2) * dq (n + 2) 0 t = (2 * n + 3) * t * dq (n + 1) 0 t - (n + 1) * dq n 0 t := hb
    refine ⟨ih.1.trans ih.2, ?_⟩
    have hn : (0 : ℝ) ≤ n := Nat.cast_nonneg n
    have h1 : dq (n + 1) 0 t ≤ t * dq (n + 1) 0 t := le_mul_of_one_le_left (by linarith [ih.1, ih.2]) ht
    have h2 : ((n : ℝ) + 2) * dq (n + 1) 0 t ≤ (n + 2) * dq (n + 2) 0 t := by
      rw [hb']
      nlinarith [ih.1, ih.2]
    exact le_of_mul_le_mul_left h2 (by linarith)

theorem dq_nonneg {t : ℝ} (ht : 1 ≤ t) (l : ℕ) : ∀ m, 0 ≤ dq l m t := by
  induction l with
  | zero =>
    intro m
    cases m with
    | zero => linarith [(legendre_mono_ge ht 0).1]
    | succ m => rw [dq_none (by omega)]
  | succ l ih =>
    intro m
    cases m with
    | zero => linarith [(legendre_mono_ge ht (l + 1)).1]
    | succ m =>
      rw [dq_rec1]
      have := ih (m + 1)
      have := ih m
      positivity

theorem dq_pos {t : ℝ} (ht : 1 ≤ t) (l : ℕ) : ∀ m, m ≤ l → 0 < dq l m t := by
  induction l with
  | zero =>
    intro m hm
    obtain rfl : m = 0 := by omega
    linarith [(legendre_mono_ge ht 0).1]
  | succ l ih =>
    intro m hm
    cases m with
    | zero => linarith [(legendre_mono_ge ht (l + 1)).1]
    | succ m =>
      rw [dq_rec1]
      have := dq_nonneg ht l (m + 1)
      have := ih m (by omega)
      positivity

theorem dq_mono {t : ℝ} (ht : 1 ≤ t) (l m : ℕ) : dq l m t ≤ dq (l + 1) m t := by
  cases m with
  | zero => exact (legendre_mono_ge ht l).2
  | succ m =>
    rw [dq_rec1]
    have h1 := dq_nonneg ht l (m + 1)
    have h2 := dq_nonneg ht l m
    have : dq l (m + 1) t ≤ t * dq l (m + 1) t := le_mul_of_one_le_left h1 ht
    have : 0 ≤ ((l : ℝ) + 1 + m) * dq l m t := by positivity
    linarith

theorem tq_eq (l m : ℕ) (t : ℝ) : tq l m t = (t ^ 2 - 1) * dq l (m + 1) t + m * t * dq l m t := by
  unfold tq tP uPol dq; simp

theorem tq_nonneg {t : ℝ} (ht : 1 ≤ t) (l m : ℕ) : 0 ≤ tq l m t := by
  rw [tq_eq]
  have := dq_nonneg ht l (m + 1)
  have := dq_nonneg ht l m
  have : 0 ≤ t ^ 2 - 1 := by nlinarith
  positivity

theorem tq_mono {t : ℝ} (ht : 1 ≤ t) (l m : ℕ) : tq l m t ≤ tq (l + 1) m t := by
  rw [tq_eq, tq_eq]
  have h1 : 0 ≤ t ^ 2 - 1 := by nlinarith
  have h2 : 0 ≤ (m : ℝ) * t := by positivity
  exact add_le_add (mul_le_mul_of_nonneg_left (dq_mono ht l (m + 1)) h1) (mul_le_mul_of_nonneg_left (dq_mono ht l m) h2)

/-! ## Laplace integrals -/

/-- `∫_1^∞ e^{-xt} P_l(t) dt = (2/π) k_l(x)` -/
theorem lap_legendre {x : ℝ} (hx : 0 < x) (l : ℕ) : lap x (legendre l) = 2 / Real.pi * sphK l x := by
  have hpi := Real.pi_pos
  have h0 : lap x (legendre 0) = 2 / Real.pi * sphK 0 x := by
    have h := lap_derivative hx (legendre 0)
    rw [legendre_zero] at *
    rw [derivative_one, lap_zero, eval_one] at h
    rw [sphK_zero]
    field_simp
    linarith
  induction l using Nat.twoStepInduction with
  | zero => exact h0
  | one =>
    have h := lap_derivative hx (legendre 1)
    rw [legendre_one] at *
    rw [derivative_X, ← legendre_zero, h0, eval_X, sphK_zero] at h
    rw [sphK_one hx.ne']
    field_simp at h ⊢
    linarith
  | more l h1 h2 =>
    have h := congrArg (lap x) (legendre_sum_rule l)
    rw [lap_sub hx, lap_C_mul, lap_derivative hx, lap_derivative hx, legendre_eval_one, legendre_eval_one, h1, h2] at h
    rw [sphK_rec l hx.ne']
    field_simp at h ⊢
    linarith

/-- `((t²-1)^{m+1} p')' = (l-m)(l+m+1) (t²-1)^m p` -/
theorem dl_ode (l m : ℕ) : D (uPol ^ (m + 1) * dl l (m + 1)) = C (((l : ℝ) - m) * (l + m + 1)) * (uPol ^ m * dl l m) := by
  have hu : D uPol = 2 * X := by unfold uPol; simp [derivative_pow]; rfl
  have h : uPol * dl l (m + 2) + C (2 * ((m : ℝ) + 1)) * X * dl l (m + 1) = C (((l : ℝ) - m) * (l + m + 1)) * dl l m := by
    cases l with
    | zero =>
      rw [dl_none (l := 0) (m := m + 2) (by omega), dl_none (l := 0) (m := m + 1) (by omega)]
      cases m with
      | zero => simp
      | succ m => rw [dl_none (l := 0) (by omega)]; simp
    | succ n =>
      have e1 := congrArg D (tP_down n m)
      have e2 := dl_rec2 n m
      unfold tP at e1
      have e3 : D (C ((n : ℝ) + 1) * X) = C ((n : ℝ) + 1) := by rw [derivative_C_mul, derivative_X, mul_one]
      rw [map_add, map_sub, derivative_mul, derivative_mul, derivative_mul, derivative_C_mul, derivative_mul, derivative_C, hu,
        derivative_X, ← dl_succ, ← dl_succ, ← dl_succ, e3] at e1
      push_cast
      simp only [C_add, C_sub, C_mul, map_one, map_ofNat] at *
      linear_combination e1 + (C (n : ℝ) + 1 + C (m : ℝ)) * e2
  rw [derivative_mul, derivative_pow_succ, hu, ← dl_succ]
  simp only [C_add, C_sub, C_mul, map_one, map_ofNat] at *
  rw [pow_succ]
  push_cast
  linear_combination uPol ^ m * h

/-- `(l+m)!/(l-m)!` -/
noncomputable def nn (l m : ℕ) : ℝ := ((l + m)! : ℝ) / ((l - m)! : ℝ)

theorem nn_pos (l m : ℕ) : 0 < nn l m := by unfold nn; positivity

theorem nn_succ {l m : ℕ} (h : m < l) : nn l (m + 1) = ((l : ℝ) - m) * (l + m + 1) * nn l m := by
  obtain ⟨d, rfl⟩ := Nat.exists_eq_add_of_lt h
  unfold nn
  rw [show m + d + 1 - (m + 1) = d by omega, show m + d + 1 - m = d + 1 by omega,
    show m + d + 1 + (m + 1) = (m + d + 1 + m) + 1 by omega, Nat.factorial_succ, Nat.factorial_succ]
  have : (d ! : ℝ) ≠ 0 := by positivity
  push_cast
  field_simp
  ring

theorem lap_dl {x : ℝ} (hx : 0 < x) {l m : ℕ} (h : m ≤ l) :
    lap x (uPol ^ m * dl l m) = 2 / Real.pi * (nn l m * sphK l x / x ^ m) := by
  induction m with
  | zero =>
    have : dl l 0 = legendre l := rfl
    rw [this, pow_zero, one_mul, lap_legendre hx]
    have : ((l ! : ℕ) : ℝ) ≠ 0 := by positivity
    simp [nn, this]
  | succ m ih =>
    have e := congrArg (lap x) (dl_ode l m)
    rw [lap_derivative hx, lap_C_mul, ih (by omega)] at e
    have hz : (uPol ^ (m + 1) * dl l (m + 1)).eval 1 = 0 := by simp [uPol]
    rw [hz, mul_zero, sub_zero] at e
    rw [nn_succ (by omega)]
    have hp := Real.pi_pos
    have hxm := pow_pos hx m
    rw [pow_succ x m]
    generalize lap x (uPol ^ (m + 1) * dl l (m + 1)) = Q at *
    field_simp at e ⊢
    linarith

end CasSph
