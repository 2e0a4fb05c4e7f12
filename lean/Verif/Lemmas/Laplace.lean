import Mathlib.Algebra.Polynomial.Derivative
import Mathlib.Analysis.Calculus.Deriv.Polynomial
import Mathlib.Analysis.SpecialFunctions.Exp
import Mathlib.MeasureTheory.Integral.ExpDecay
import Mathlib.Topology.Algebra.Polynomial
import Mathlib.MeasureTheory.Integral.IntegralEqImproper

/-! # Laplace integrals `∫_1^∞ e^{-xt} p(t) dt` of polynomials (independent of the model) -/

namespace CasSph

open Polynomial MeasureTheory Filter Topology Asymptotics

/-- `∫_1^∞ e^{-xt} p(t) dt` -/
noncomputable def lap (x : ℝ) (p : ℝ[X]) : ℝ := ∫ t in Set.Ioi (1 : ℝ), Real.exp (-(x * t)) * p.eval t

theorem poly_isBigO (p : ℝ[X]) {b : ℝ} (hb : 0 < b) : (fun t : ℝ => p.eval t) =O[atTop] fun t => Real.exp (b * t) := by
  induction p using Polynomial.induction_on' with
  | add p q hp hq => simp only [eval_add]; exact hp.add hq
  | monomial n a =>
    simp only [eval_monomial]
    exact (isLittleO_pow_exp_pos_mul_atTop n hb).isBigO.const_mul_left a

theorem lap_isBigO {x : ℝ} (hx : 0 < x) (p : ℝ[X]) :
    (fun t : ℝ => Real.exp (-(x * t)) * p.eval t) =O[atTop] fun t => Real.exp (-(x / 2) * t) := by
  have h := (isBigO_refl (fun t : ℝ => Real.exp (-(x * t))) atTop).mul (poly_isBigO p (half_pos hx))
  refine h.congr_right fun t => ?_
  rw [← Real.exp_add]
  congr 1
  ring

theorem lap_integrable {x : ℝ} (hx : 0 < x) (p : ℝ[X]) :
    IntegrableOn (fun t => Real.exp (-(x * t)) * p.eval t) (Set.Ioi 1) := by
  refine integrable_of_isBigO_exp_neg (half_pos hx) ?_ (lap_isBigO hx p)
  exact ((by fun_prop : Continuous fun t : ℝ => Real.exp (-(x * t))).mul p.continuous).continuousOn

theorem lap_tendsto {x : ℝ} (hx : 0 < x) (p : ℝ[X]) :
    Tendsto (fun t : ℝ => Real.exp (-(x * t)) * p.eval t) atTop (𝓝 0) := by
  refine (lap_isBigO hx p).trans_tendsto ?_
  refine Real.tendsto_exp_atBot.comp ?_
  exact tendsto_id.const_mul_atTop_of_neg (by linarith)

theorem lap_add {x : ℝ} (hx : 0 < x) (p q : ℝ[X]) : lap x (p + q) = lap x p + lap x q := by
  unfold lap
  rw [← integral_add (lap_integrable hx p) (lap_integrable hx q)]
  simp only [eval_add, mul_add]

theorem lap_C_mul (x a : ℝ) (p : ℝ[X]) : lap x (C a * p) = a * lap x p := by
  unfold lap
  rw [← integral_const_mul]
  simp only [eval_mul, eval_C, mul_left_comm]

theorem lap_neg (x : ℝ) (p : ℝ[X]) : lap x (-p) = -lap x p := by
  have := lap_C_mul x (-1) p
  simpa using this

theorem lap_sub {x : ℝ} (hx : 0 < x) (p q : ℝ[X]) : lap x (p - q) = lap x p - lap x q := by
  rw [sub_eq_add_neg, lap_add hx, lap_neg, sub_eq_add_neg]

theorem lap_zero (x : ℝ) : lap x 0 = 0 := by simp [lap]

theorem lap_sum {x : ℝ} (hx : 0 < x) {ι : Type*} (s : Finset ι) (f : ι → ℝ[X]) :
    lap x (∑ i ∈ s, f i) = ∑ i ∈ s, lap x (f i) := by
  classical
  induction s using Finset.induction_on with
  | empty => simp [lap_zero]
  | insert a s ha ih => rw [Finset.sum_insert ha, lap_add hx, ih, Finset.sum_insert ha]

/-- integration by parts -/
theorem lap_derivative {x : ℝ} (hx : 0 < x) (p : ℝ[X]) :
    lap x (derivative p) = x * lap x p - Real.exp (-x) * p.eval 1 := by
  have hd : ∀ t ∈ Set.Ici (1 : ℝ), HasDerivAt (fun t => Real.exp (-(x * t)) * p.eval t)
      (Real.exp (-(x * t)) * (derivative p - C x * p).eval t) t := by
    intro t _
    have h1 : HasDerivAt (fun t : ℝ => Real.exp (-(x * t))) (Real.exp (-(x * t)) * (-(x * 1))) t :=
      (((hasDerivAt_id t).const_mul x).neg).exp
    refine (h1.mul (p.hasDerivAt t)).congr_deriv ?_
    simp only [eval_sub, eval_mul, eval_C]
    ring
  have h := integral_Ioi_of_hasDerivAt_of_tendsto' hd (lap_integrable hx _) (lap_tendsto hx p)
  have e : lap x (derivative p - C x * p) = 0 - Real.exp (-(x * 1)) * p.eval 1 := h
  rw [lap_sub hx, lap_C_mul, mul_one] at e
  linarith

theorem lap_mono {x : ℝ} (hx : 0 < x) {p q : ℝ[X]} (h : ∀ t, 1 < t → p.eval t ≤ q.eval t) : lap x p ≤ lap x q := by
  unfold lap
  refine setIntegral_mono_on (lap_integrable hx p) (lap_integrable hx q) measurableSet_Ioi fun t ht => ?_
  exact mul_le_mul_of_nonneg_left (h t ht) (Real.exp_pos _).le

theorem lap_nonneg {x : ℝ} (hx : 0 < x) {p : ℝ[X]} (h : ∀ t, 1 < t → 0 ≤ p.eval t) : 0 ≤ lap x p := by
  have := lap_mono hx (p := 0) (q := p) (by simpa using h)
  rwa [lap_zero] at this

/-- Decay in the distance: `∫ e^{-yt} p ≤ e^{-(y-x)} ∫ e^{-xt} p` for `x ≤ y`. -/
theorem lap_decay {x y : ℝ} (hx : 0 < x) (hxy : x ≤ y) {p : ℝ[X]} (h : ∀ t, 1 < t → 0 ≤ p.eval t) :
    lap y p ≤ Real.exp (-(y - x)) * lap x p := by
  unfold lap
  rw [← integral_const_mul]
  refine setIntegral_mono_on (lap_integrable (hx.trans_le hxy) p) ((lap_integrable hx p).const_mul _) measurableSet_Ioi
    fun t ht => ?_
  rw [← mul_assoc, ← Real.exp_add]
  refine mul_le_mul_of_nonneg_right (Real.exp_le_exp.mpr ?_) (h t ht)
  have : (y - x) * 1 ≤ (y - x) * t := mul_le_mul_of_nonneg_left (le_of_lt ht) (by linarith)
  linarith

theorem lap_anti {x y : ℝ} (hx : 0 < x) (hxy : x ≤ y) {p : ℝ[X]} (h : ∀ t, 1 < t → 0 ≤ p.eval t) : lap y p ≤ lap x p := by
  refine (lap_decay hx hxy h).trans (mul_le_of_le_one_left (lap_nonneg hx h) ?_)
  rw [Real.exp_le_one_iff]
  linarith

theorem lap_pos {x : ℝ} (hx : 0 < x) {p : ℝ[X]} (h : ∀ t, 1 < t → 0 < p.eval t) : 0 < lap x p := by
  unfold lap
  rw [setIntegral_pos_iff_support_of_nonneg_ae]
  · have e : (Function.support fun t => Real.exp (-(x * t)) * p.eval t) ∩ Set.Ioi 1 = Set.Ioi 1 := by
      refine Set.inter_eq_right.mpr fun t ht => ?_
      exact (mul_pos (Real.exp_pos _) (h t ht)).ne'
    rw [e]
    simp
  · refine (ae_restrict_mem measurableSet_Ioi).mono fun t ht => ?_
    exact (mul_pos (Real.exp_pos _) (h t ht)).le
  · exact lap_integrable hx p

/-- Comparison with an exponential factor: if `f ≤ c e^{rt} g` pointwise then `∫ e^{-xt} q f ≤ c ∫ e^{-(x-r)t} q g`. -/
theorem lap_exp_le {x r c : ℝ} (hr : 0 ≤ r) (hrx : r < x) {p q : ℝ[X]}
    (h : ∀ t, 1 < t → p.eval t ≤ c * Real.exp (r * t) * q.eval t) : lap x p ≤ c * lap (x - r) q := by
  have hx : 0 < x := by linarith
  unfold lap
  rw [← integral_const_mul]
  refine setIntegral_mono_on (lap_integrable hx p) ((lap_integrable (sub_pos.mpr hrx) q).const_mul _) measurableSet_Ioi
    fun t ht => ?_
  refine (mul_le_mul_of_nonneg_left (h t ht) (Real.exp_pos _).le).trans (le_of_eq ?_)
  have : Real.exp (-((x - r) * t)) = Real.exp (-(x * t)) * Real.exp (r * t) := by
    rw [← Real.exp_add]; congr 1; ring
  rw [this]
  ring

end CasSph
