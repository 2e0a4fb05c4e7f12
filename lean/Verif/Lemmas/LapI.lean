import Verif.Lemmas.TransPol
import Mathlib.Analysis.Calculus.ParametricIntervalIntegral
import Mathlib.Analysis.SpecialFunctions.Trigonometric.DerivHyp

/-! # The integrals `½ ∫_{-1}^{1} e^{-xt} p(t) dt` (independent of the model)

They take the place of the Laplace integrals `∫_1^∞` when regular waves are shifted instead of outgoing ones. -/

namespace CasSph

open Polynomial Spec Nat MeasureTheory

local notation "D" => Polynomial.derivative (R := ℝ)

noncomputable def lapI (x : ℝ) (p : ℝ[X]) : ℝ := (∫ t in (-1 : ℝ)..1, Real.exp (-(x * t)) * p.eval t) / 2

theorem lapI_cont (x : ℝ) (p : ℝ[X]) : Continuous fun t : ℝ => Real.exp (-(x * t)) * p.eval t :=
  (Real.continuous_exp.comp (continuous_const.mul continuous_id).neg).mul p.continuous

theorem lapI_ii (x : ℝ) (p : ℝ[X]) (a b : ℝ) : IntervalIntegrable (fun t => Real.exp (-(x * t)) * p.eval t) volume a b :=
  (lapI_cont x p).intervalIntegrable _ _

theorem lapI_add (x : ℝ) (p q : ℝ[X]) : lapI x (p + q) = lapI x p + lapI x q := by
  unfold lapI
  rw [← add_div, ← intervalIntegral.integral_add (lapI_ii x p _ _) (lapI_ii x q _ _)]
  simp only [eval_add, mul_add]

theorem lapI_C_mul (x a : ℝ) (p : ℝ[X]) : lapI x (C a * p) = a * lapI x p := by
  unfold lapI
  rw [mul_div_assoc', ← intervalIntegral.integral_const_mul]
  simp only [eval_mul, eval_C]
  congr 1
  refine intervalIntegral.integral_congr fun t _ => ?_
  ring

theorem lapI_zero (x : ℝ) : lapI x 0 = 0 := by simp [lapI]

theorem lapI_neg (x : ℝ) (p : ℝ[X]) : lapI x (-p) = -lapI x p := by
  have := lapI_C_mul x (-1) p
  simpa using this

theorem lapI_sub (x : ℝ) (p q : ℝ[X]) : lapI x (p - q) = lapI x p - lapI x q := by
  rw [sub_eq_add_neg, lapI_add, lapI_neg, sub_eq_add_neg]

theorem lapI_sum {ι : Type} (x : ℝ) (s : Finset ι) (f : ι → ℝ[X]) : lapI x (∑ i ∈ s, f i) = ∑ i ∈ s, lapI x (f i) := by
  classical
  induction s using Finset.induction_on with
  | empty => simp [lapI_zero]
  | insert a s ha ih => rw [Finset.sum_insert ha, Finset.sum_insert ha, lapI_add, ih]

theorem lapI_at_zero (p : ℝ[X]) : lapI 0 p = pint p / 2 := by simp [lapI, pint]

/-- integration by parts -/
theorem lapI_derivative (x : ℝ) (p : ℝ[X]) :
    lapI x (D p) = x * lapI x p + (Real.exp (-x) * p.eval 1 - Real.exp x * p.eval (-1)) / 2 := by
  have h : ∀ t ∈ Set.uIcc (-1 : ℝ) 1, HasDerivAt (fun t => Real.exp (-(x * t)) * p.eval t)
      (Real.exp (-(x * t)) * (D p).eval t - x * (Real.exp (-(x * t)) * p.eval t)) t := by
    intro t _
    have h1 : HasDerivAt (fun t : ℝ => Real.exp (-(x * t))) (Real.exp (-(x * t)) * (-(x * 1))) t :=
      ((hasDerivAt_id t).const_mul x).neg.exp
    refine (h1.mul (p.hasDerivAt t)).congr_deriv ?_
    ring
  have hi := intervalIntegral.integral_eq_sub_of_hasDerivAt h ((lapI_ii x (D p) _ _).sub ((lapI_ii x p _ _).const_mul x))
  rw [intervalIntegral.integral_sub (lapI_ii x (D p) _ _) ((lapI_ii x p _ _).const_mul x), intervalIntegral.integral_const_mul] at hi
  unfold lapI
  rw [mul_one, mul_neg_one, neg_neg] at hi
  linarith

theorem lapI_parts (x : ℝ) {p : ℝ[X]} (h1 : p.eval 1 = 0) (h2 : p.eval (-1) = 0) : lapI x (D p) = x * lapI x p := by
  rw [lapI_derivative, h1, h2]; ring

/-- `½ ∫ e^{-xt} P_l(t) dt = (-1)^l i_l(x)` -/
theorem lapI_legendre (x : ℝ) (l : ℕ) : lapI x (legendre l) = (-1) ^ l * sphI l x := by
  by_cases hx : x = 0
  · subst hx
    rw [lapI_at_zero]
    have e : sphI l 0 = if l = 0 then 1 else 0 := by
      unfold sphI
      split
      · next h =>
        subst h
        rw [tsum_eq_single 0]
        · simp
        · intro n hn
          rw [zero_add, zero_pow (by omega), zero_div]
      · next h =>
        rw [tsum_congr (g := fun _ => (0 : ℝ)) (fun n => by rw [zero_pow (by omega), zero_div]), tsum_zero]
    rw [e]
    split
    · next h =>
      subst h
      have := legendre_norm 0
      rw [legendre_zero] at *
      simp at this ⊢
      rw [this]; norm_num
    · next h =>
      have := legendre_orth (n := 0) (m := l) (by omega)
      rw [legendre_zero, one_mul] at this
      rw [this]; simp
  · have h0 : lapI x (legendre 0) = sphI 0 x := by
      have h := lapI_derivative x (legendre 0)
      rw [legendre_zero] at *
      rw [derivative_one, lapI_zero, eval_one, eval_one] at h
      rw [sphI_zero hx, Real.sinh_eq]
      field_simp
      linarith
    induction l using Nat.twoStepInduction with
    | zero => simpa using h0
    | one =>
      have h := lapI_derivative x (legendre 1)
      rw [legendre_one] at *
      rw [derivative_X, ← legendre_zero, h0, eval_X, eval_X, sphI_zero hx, Real.sinh_eq] at h
      rw [sphI_one hx, Real.sinh_eq, Real.cosh_eq]
      field_simp at h ⊢
      linarith
    | more l h1 h2 =>
      have h := congrArg (lapI x) (legendre_sum_rule l)
      rw [lapI_sub, lapI_C_mul, lapI_derivative, lapI_derivative, legendre_eval_one, legendre_eval_one,
        legendre_eval_neg_one, legendre_eval_neg_one, h1, h2] at h
      rw [sphI_rec l hx]
      have e : ((-1 : ℝ)) ^ (l + 2) = (-1) ^ l := by rw [pow_add]; norm_num
      rw [e] at h ⊢
      rw [pow_succ] at h
      generalize lapI x (legendre (l + 2)) = Q at *
      generalize ((-1 : ℝ)) ^ l = s at *
      field_simp at h ⊢
      linarith

/-- differentiation in the parameter -/
theorem lapI_deriv (x : ℝ) (p : ℝ[X]) : HasDerivAt (fun x => lapI x p) (-lapI x (X * p)) x := by
  obtain ⟨M, hM⟩ : ∃ M, ∀ t ∈ Set.Icc (-1 : ℝ) 1, |p.eval t| ≤ M := by
    obtain ⟨M, hM⟩ := (isCompact_Icc (a := (-1 : ℝ)) (b := 1)).exists_bound_of_continuousOn p.continuous.continuousOn
    exact ⟨M, fun t ht => by simpa using hM t ht⟩
  have hmem : ∀ t ∈ Set.uIoc (-1 : ℝ) 1, t ∈ Set.Icc (-1 : ℝ) 1 := by
    intro t ht
    rw [Set.uIoc_of_le (by norm_num)] at ht
    exact ⟨ht.1.le, ht.2⟩
  have hM0 : 0 ≤ M := (abs_nonneg _).trans (hM 1 ⟨by norm_num, le_rfl⟩)
  have h := (intervalIntegral.hasDerivAt_integral_of_dominated_loc_of_deriv_le (μ := volume) (a := -1) (b := 1)
    (F := fun x t => Real.exp (-(x * t)) * p.eval t) (F' := fun x t => -(Real.exp (-(x * t)) * (X * p).eval t)) (x₀ := x)
    (s := Set.Ioo (x - 1) (x + 1)) (bound := fun _ => Real.exp (|x| + 1) * M)
    (Ioo_mem_nhds (by linarith) (by linarith))
    (Filter.Eventually.of_forall fun y => (lapI_cont y p).aestronglyMeasurable)
    (lapI_ii x p _ _) (lapI_cont x (X * p)).neg.aestronglyMeasurable
    (Filter.Eventually.of_forall fun t ht y hy => ?_) (continuous_const.intervalIntegrable _ _)
    (Filter.Eventually.of_forall fun t ht y hy => ?_)).2
  · have h2 : HasDerivAt (fun x => lapI x p) ((∫ t in (-1 : ℝ)..1, -(Real.exp (-(x * t)) * (X * p).eval t)) / 2) x := h.div_const 2
    refine h2.congr_deriv ?_
    rw [intervalIntegral.integral_neg]
    unfold lapI
    ring
  · have ht' := hmem t ht
    have ht1 : |t| ≤ 1 := _root_.abs_le.mpr ht'
    rw [norm_neg, Real.norm_eq_abs, abs_mul, Real.abs_exp, eval_mul, eval_X, abs_mul]
    have hy1 : |y| ≤ |x| + 1 := by
      have : |y - x| ≤ 1 := _root_.abs_le.mpr ⟨by linarith [hy.1], by linarith [hy.2]⟩
      have := abs_sub_abs_le_abs_sub y x
      linarith
    have : -(y * t) ≤ |x| + 1 := by
      refine (neg_le_abs _).trans ?_
      rw [abs_mul]
      calc |y| * |t| ≤ |y| * 1 := mul_le_mul_of_nonneg_left ht1 (abs_nonneg y)
        _ ≤ _ := by linarith
    refine mul_le_mul (Real.exp_le_exp.mpr this) ?_ (by positivity) (Real.exp_pos _).le
    calc |t| * |eval t p| ≤ 1 * M := mul_le_mul ht1 (hM t ht') (abs_nonneg _) zero_le_one
      _ = M := one_mul M
  · have h1 : HasDerivAt (fun y : ℝ => Real.exp (-(y * t))) (Real.exp (-(y * t)) * (-(1 * t))) y :=
      ((hasDerivAt_id y).mul_const t).neg.exp
    refine (h1.mul_const (p.eval t)).congr_deriv ?_
    simp only [eval_mul, eval_X]
    ring

/-- bound by any majorant of the integrand -/
theorem pint_abs_le {p : ℝ[X]} {M : ℝ} {q : ℝ[X]} (h : ∀ t ∈ Set.Icc (-1 : ℝ) 1, |p.eval t| ≤ M * q.eval t) : |pint p| ≤ M * pint q := by
  have e : M * pint q = ∫ t in (-1 : ℝ)..1, M * q.eval t := by
    unfold pint; rw [intervalIntegral.integral_const_mul]
  rw [e]
  unfold pint
  refine (intervalIntegral.abs_integral_le_integral_abs (by norm_num)).trans ?_
  refine intervalIntegral.integral_mono_on (by norm_num) (p.continuous.abs.intervalIntegrable _ _)
    ((continuous_const.mul q.continuous).intervalIntegrable _ _) h

end CasSph
