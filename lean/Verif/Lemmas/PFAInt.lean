import Verif.Spec.PFA
import Mathlib.MeasureTheory.Integral.IntegralEqImproper
import Mathlib.MeasureTheory.Integral.DominatedConvergence
import Mathlib.Analysis.SpecialFunctions.Log.Deriv
import Mathlib.Analysis.SpecialFunctions.ImproperIntegrals
import Mathlib.Analysis.SpecialFunctions.Trigonometric.DerivHyp
import Mathlib.NumberTheory.ZetaValues
import Mathlib.Analysis.PSeries

/-! # Integrals of the logarithm of `1 - exp(-2 L κ)` -/

namespace CasSph

open MeasureTheory Set Filter Topology Spec

/-- `-log(1 - e^{-x}) ≤ e^{-x/2}/x` -/
theorem mlog_le {x : ℝ} (hx : 0 < x) : -Real.log (1 - Real.exp (-x)) ≤ Real.exp (-x / 2) / x := by
  have he : Real.exp (-x) < 1 := by rw [Real.exp_lt_one_iff]; linarith
  have hp : 0 < 1 - Real.exp (-x) := by linarith
  have h1 : -Real.log (1 - Real.exp (-x)) ≤ (1 - Real.exp (-x))⁻¹ - 1 := by
    rw [← Real.log_inv]
    exact Real.log_le_sub_one_of_pos (inv_pos.2 hp)
  refine h1.trans ?_
  have hs := Real.self_le_sinh_iff.2 (show 0 ≤ x / 2 by linarith)
  rw [Real.sinh_eq] at hs
  have e1 : Real.exp (-x) = Real.exp (-(x / 2)) ^ 2 := by rw [← Real.exp_nat_mul]; congr 1; push_cast; ring
  have e2 : Real.exp (x / 2) = (Real.exp (-(x / 2)))⁻¹ := by rw [Real.exp_neg, inv_inv]
  have e3 : Real.exp (-x / 2) = Real.exp (-(x / 2)) := by congr 1; ring
  rw [e1] at he hp ⊢
  rw [e2] at hs
  rw [e3]
  have ey := Real.exp_pos (-(x / 2))
  generalize Real.exp (-(x / 2)) = y at *
  have h2 : x * y ≤ 1 - y ^ 2 := by
    have := mul_le_mul_of_nonneg_right hs (by linarith : (0:ℝ) ≤ 2 * y)
    have e : (y⁻¹ - y) / 2 * (2 * y) = 1 - y ^ 2 := by field_simp
    rw [e] at this
    linarith
  have e4 : (1 - y ^ 2)⁻¹ - 1 = y ^ 2 / (1 - y ^ 2) := by field_simp; ring
  rw [e4, div_le_div_iff₀ hp hx]
  nlinarith

theorem exp_mul_lt {L s : ℝ} (hL : 0 < L) (hs : 0 < s) : Real.exp (-2 * s * L) < 1 := by
  rw [Real.exp_lt_one_iff]; have := mul_pos hL hs; linarith

theorem mlog_pos {L s : ℝ} (hL : 0 < L) (hs : 0 < s) : 0 < -Real.log (1 - Real.exp (-2 * s * L)) := by
  have := exp_mul_lt hL hs
  have := Real.exp_pos (-2 * s * L)
  have := Real.log_neg (x := 1 - Real.exp (-2 * s * L)) (by linarith) (by linarith)
  linarith

theorem mlog_bound {L s : ℝ} (hL : 0 < L) (hs : 0 < s) :
    s * -Real.log (1 - Real.exp (-2 * s * L)) ≤ Real.exp (-L * s) / (2 * L) := by
  have h := mlog_le (x := 2 * s * L) (by positivity)
  have e1 : -(2 * s * L) = -2 * s * L := by ring
  have e2 : -2 * s * L / 2 = -L * s := by ring
  rw [e1, e2] at h
  calc s * -Real.log (1 - Real.exp (-2 * s * L)) ≤ s * (Real.exp (-L * s) / (2 * s * L)) := by gcongr
    _ = _ := by field_simp

/-- antiderivative of `k exp(-b sqrt(k²+κ²))` -/
theorem deriv_term {κ b k : ℝ} (hκ : 0 < κ) (hb : 0 < b) :
    HasDerivAt (fun k => -((Real.sqrt (k ^ 2 + κ ^ 2) / b + 1 / b ^ 2) * Real.exp (-b * Real.sqrt (k ^ 2 + κ ^ 2))))
      (k * Real.exp (-b * Real.sqrt (k ^ 2 + κ ^ 2))) k := by
  have hp : 0 < k ^ 2 + κ ^ 2 := by positivity
  have h1 : HasDerivAt (fun k : ℝ => k ^ 2 + κ ^ 2) (2 * k) k := by
    simpa using (hasDerivAt_pow 2 k).add_const (κ ^ 2)
  have h2 : HasDerivAt (fun k : ℝ => Real.sqrt (k ^ 2 + κ ^ 2)) (2 * k / (2 * Real.sqrt (k ^ 2 + κ ^ 2))) k :=
    h1.sqrt hp.ne'
  have h3 := (((h2.div_const b).add_const (1 / b ^ 2)).mul ((h2.const_mul (-b)).exp)).neg
  refine h3.congr_deriv ?_
  have hs : 0 < Real.sqrt (k ^ 2 + κ ^ 2) := Real.sqrt_pos.2 hp
  generalize Real.sqrt (k ^ 2 + κ ^ 2) = s at *
  field_simp
  ring

theorem sqrt_atTop {κ : ℝ} : Tendsto (fun k : ℝ => Real.sqrt (k ^ 2 + κ ^ 2)) atTop atTop := by
  apply Real.tendsto_sqrt_atTop.comp
  exact tendsto_atTop_add_const_right _ _ (tendsto_pow_atTop two_ne_zero)

theorem lin_exp_tendsto {b c : ℝ} (hb : 0 < b) : Tendsto (fun s : ℝ => (s / b + c) * Real.exp (-b * s)) atTop (𝓝 0) := by
  have h1 : Tendsto (fun s : ℝ => (b * s) ^ 1 * Real.exp (-(b * s))) atTop (𝓝 0) :=
    (Real.tendsto_pow_mul_exp_neg_atTop_nhds_zero 1).comp (tendsto_id.const_mul_atTop hb)
  have h2 : Tendsto (fun s : ℝ => Real.exp (-(b * s))) atTop (𝓝 0) :=
    Real.tendsto_exp_neg_atTop_nhds_zero.comp (tendsto_id.const_mul_atTop hb)
  have h3 := (h1.const_mul (1 / b ^ 2)).add (h2.const_mul c)
  rw [mul_zero, mul_zero, add_zero] at h3
  refine h3.congr fun s => ?_
  rw [neg_mul]
  field_simp

theorem term_integrable {κ b : ℝ} (hκ : 0 < κ) (hb : 0 < b) :
    IntegrableOn (fun k => k * Real.exp (-b * Real.sqrt (k ^ 2 + κ ^ 2))) (Ioi 0) ∧
    ∫ k in Ioi (0:ℝ), k * Real.exp (-b * Real.sqrt (k ^ 2 + κ ^ 2)) = (κ / b + 1 / b ^ 2) * Real.exp (-b * κ) := by
  have hl := ((lin_exp_tendsto (c := 1 / b ^ 2) hb).comp (sqrt_atTop (κ := κ))).neg
  rw [neg_zero] at hl
  have hn : ∀ x ∈ Ioi (0:ℝ), 0 ≤ x * Real.exp (-b * Real.sqrt (x ^ 2 + κ ^ 2)) := fun x hx =>
    mul_nonneg hx.le (Real.exp_pos _).le
  refine ⟨integrableOn_Ioi_deriv_of_nonneg' (fun x _ => deriv_term hκ hb) hn hl, ?_⟩
  rw [integral_Ioi_of_hasDerivAt_of_nonneg' (fun x _ => deriv_term hκ hb) hn hl]
  have : Real.sqrt (0 ^ 2 + κ ^ 2) = κ := by rw [zero_pow two_ne_zero, zero_add, Real.sqrt_sq hκ.le]
  rw [this]; ring

theorem summable_li {z : ℝ} (h0 : 0 ≤ z) (h1 : z ≤ 1) {s : ℕ} (hs : 2 ≤ s) :
    Summable fun n : ℕ => z ^ (n + 1) / (n + 1 : ℝ) ^ s := by
  have h : Summable fun n : ℕ => 1 / ((n + 1 : ℕ) : ℝ) ^ s :=
    (summable_nat_add_iff 1).2 (Real.summable_one_div_nat_pow.2 (by omega))
  refine Summable.of_nonneg_of_le (fun n => by positivity) (fun n => ?_) h
  push_cast
  gcongr
  exact pow_le_one₀ h0 h1

/-- the series of the mirror integral -/
theorem mirror_series {κ L : ℝ} (hκ : 0 < κ) (hL : 0 < L) :
    HasSum (fun n : ℕ => 1 / (n + 1 : ℝ) * ((κ / (2 * L * (n + 1)) + 1 / (2 * L * (n + 1)) ^ 2) *
      Real.exp (-(2 * L * (n + 1)) * κ)))
      (κ / (2 * L) * li 2 (Real.exp (-2 * κ * L)) + li 3 (Real.exp (-2 * κ * L)) / (4 * L ^ 2)) := by
  have h0 := Real.exp_pos (-2 * κ * L)
  have h1 := (exp_mul_lt hL hκ).le
  have s2 := (summable_li h0.le h1 (s := 2) le_rfl).hasSum
  have s3 := (summable_li h0.le h1 (s := 3) (by norm_num)).hasSum
  have h := (s2.mul_left (κ / (2 * L))).add (s3.div_const (4 * L ^ 2))
  refine h.congr_fun fun n => ?_
  have hn : (n + 1 : ℝ) ≠ 0 := by positivity
  have e : Real.exp (-(2 * L * (n + 1)) * κ) = Real.exp (-2 * κ * L) ^ (n + 1) := by
    rw [← Real.exp_nat_mul]; congr 1; push_cast; ring
  rw [e]
  field_simp
  try ring

theorem mirror_integrable {κ L : ℝ} (hκ : 0 < κ) (hL : 0 < L) :
    IntegrableOn (fun k => k * -Real.log (1 - Real.exp (-2 * Real.sqrt (k ^ 2 + κ ^ 2) * L))) (Ioi 0) := by
  have hb : IntegrableOn (fun k => Real.exp (-L * k) / (2 * L)) (Ioi 0) :=
    (integrableOn_exp_mul_Ioi (neg_neg_of_pos hL) 0).div_const _
  refine Integrable.mono' hb ?_ ?_
  · refine Measurable.aestronglyMeasurable ?_
    fun_prop
  · filter_upwards [ae_restrict_mem measurableSet_Ioi] with k hk
    have hk : 0 < k := hk
    have hs : 0 < Real.sqrt (k ^ 2 + κ ^ 2) := Real.sqrt_pos.2 (by positivity)
    have hks : k ≤ Real.sqrt (k ^ 2 + κ ^ 2) := by
      apply Real.le_sqrt_of_sq_le; nlinarith
    have hl := mlog_pos hL hs
    rw [Real.norm_eq_abs, abs_of_nonneg (mul_nonneg hk.le hl.le)]
    refine (mul_le_mul_of_nonneg_right hks hl.le).trans ((mlog_bound hL hs).trans ?_)
    gcongr ?_ / _
    apply Real.exp_le_exp.2
    nlinarith

/-- the mirror integral -/
theorem mirror_integral {κ L : ℝ} (hκ : 0 < κ) (hL : 0 < L) :
    ∫ k in Ioi (0:ℝ), k * -Real.log (1 - Real.exp (-2 * Real.sqrt (k ^ 2 + κ ^ 2) * L)) =
      κ / (2 * L) * li 2 (Real.exp (-2 * κ * L)) + li 3 (Real.exp (-2 * κ * L)) / (4 * L ^ 2) := by
  have hb : ∀ n : ℕ, 0 < 2 * L * (n + 1 : ℝ) := fun n => by positivity
  set F : ℕ → ℝ → ℝ := fun n k => 1 / (n + 1 : ℝ) * (k * Real.exp (-(2 * L * (n + 1)) * Real.sqrt (k ^ 2 + κ ^ 2)))
    with hF
  have hint : ∀ n, Integrable (F n) (volume.restrict (Ioi 0)) := fun n =>
    ((term_integrable hκ (hb n)).1).const_mul _
  have hval : ∀ n, ∫ k in Ioi (0:ℝ), F n k = 1 / (n + 1 : ℝ) * ((κ / (2 * L * (n + 1)) + 1 / (2 * L * (n + 1)) ^ 2) *
      Real.exp (-(2 * L * (n + 1)) * κ)) := by
    intro n
    rw [hF]
    simp only
    rw [integral_const_mul, (term_integrable hκ (hb n)).2]
  have hnorm : ∀ n, ∫ k in Ioi (0:ℝ), ‖F n k‖ = ∫ k in Ioi (0:ℝ), F n k := by
    intro n
    refine setIntegral_congr_fun measurableSet_Ioi fun k hk => ?_
    have hk : 0 < k := hk
    rw [hF]
    simp only
    rw [Real.norm_eq_abs, abs_of_nonneg (by positivity)]
  have hS := mirror_series hκ hL
  have h := hasSum_integral_of_summable_integral_norm hint (by simp_rw [hnorm, hval]; exact hS.summable)
  simp_rw [hval] at h
  rw [← h.unique hS]
  refine setIntegral_congr_fun measurableSet_Ioi fun k hk => ?_
  have hk : 0 < k := hk
  have hs : 0 < Real.sqrt (k ^ 2 + κ ^ 2) := Real.sqrt_pos.2 (by positivity)
  have hlt := exp_mul_lt hL hs
  have hlog := Real.hasSum_pow_div_log_of_abs_lt_one (x := Real.exp (-2 * Real.sqrt (k ^ 2 + κ ^ 2) * L))
    (by rw [abs_of_pos (Real.exp_pos _)]; exact hlt)
  have h2 := hlog.mul_left k
  rw [← h2.tsum_eq]
  refine tsum_congr fun n => ?_
  rw [hF]
  simp only
  rw [← Real.exp_nat_mul]
  have : ((n + 1 : ℕ) : ℝ) * (-2 * Real.sqrt (k ^ 2 + κ ^ 2) * L) = -(2 * L * (n + 1)) * Real.sqrt (k ^ 2 + κ ^ 2) := by
    push_cast; ring
  rw [this]
  ring

/-- decay of the mirror integral -/
theorem mirror_bound {κ L : ℝ} (hκ : 0 < κ) (hL : 0 < L) :
    ∫ k in Ioi (0:ℝ), k * -Real.log (1 - Real.exp (-2 * Real.sqrt (k ^ 2 + κ ^ 2) * L)) ≤
      Real.exp (-(L / 2) * κ) / L ^ 2 := by
  have hb : IntegrableOn (fun k => Real.exp (-(L / 2) * κ) / (2 * L) * Real.exp (-(L / 2) * k)) (Ioi 0) :=
    (integrableOn_exp_mul_Ioi (by linarith) 0).const_mul _
  have h := setIntegral_mono_on (mirror_integrable hκ hL) hb measurableSet_Ioi (fun k hk => by
    have hk : 0 < k := hk
    have hs : 0 < Real.sqrt (k ^ 2 + κ ^ 2) := Real.sqrt_pos.2 (by positivity)
    have hks : k ≤ Real.sqrt (k ^ 2 + κ ^ 2) := by
      apply Real.le_sqrt_of_sq_le; nlinarith
    have hks' : κ ≤ Real.sqrt (k ^ 2 + κ ^ 2) := by
      apply Real.le_sqrt_of_sq_le; nlinarith
    have hl := mlog_pos hL hs
    refine (mul_le_mul_of_nonneg_right hks hl.le).trans ((mlog_bound hL hs).trans ?_)
    rw [div_mul_eq_mul_div, ← Real.exp_add]
    gcongr
    nlinarith)
  refine h.trans (le_of_eq ?_)
  rw [integral_const_mul, integral_exp_mul_Ioi (by linarith)]
  simp only [mul_zero, Real.exp_zero]
  field_simp

theorem deriv_term2 {b k : ℝ} (hb : 0 < b) :
    HasDerivAt (fun k => -((k / b ^ 2 + 2 / b ^ 3) * Real.exp (-b * k))) ((k / b + 1 / b ^ 2) * Real.exp (-b * k)) k := by
  have h1 := ((((hasDerivAt_id k).div_const (b ^ 2)).add_const (2 / b ^ 3)).mul
    (((hasDerivAt_id k).const_mul (-b)).exp)).neg
  refine h1.congr_deriv ?_
  simp only [id]
  field_simp
  ring

theorem term2_integrable {a b : ℝ} (ha : 0 ≤ a) (hb : 0 < b) :
    IntegrableOn (fun k => (k / b + 1 / b ^ 2) * Real.exp (-b * k)) (Ioi a) ∧
    ∫ k in Ioi a, (k / b + 1 / b ^ 2) * Real.exp (-b * k) = (a / b ^ 2 + 2 / b ^ 3) * Real.exp (-b * a) := by
  have hl : Tendsto (fun k => -((k / b ^ 2 + 2 / b ^ 3) * Real.exp (-b * k))) atTop (𝓝 0) := by
    have := ((lin_exp_tendsto (c := 2 / b ^ 2) hb).const_mul (-1 / b))
    rw [mul_zero] at this
    refine this.congr fun k => ?_
    field_simp
  have hn : ∀ x ∈ Ioi a, 0 ≤ (x / b + 1 / b ^ 2) * Real.exp (-b * x) := fun x hx => by
    have : 0 < x := lt_of_le_of_lt ha hx
    positivity
  refine ⟨integrableOn_Ioi_deriv_of_nonneg' (fun x _ => deriv_term2 hb) hn hl, ?_⟩
  rw [integral_Ioi_of_hasDerivAt_of_nonneg' (fun x _ => deriv_term2 hb) hn hl]
  ring

/-- the mirror integral over all frequencies above `a` -/
theorem mirror_total {a L : ℝ} (ha : 0 < a) (hL : 0 < L) :
    HasSum (fun n : ℕ => 1 / (n + 1 : ℝ) * ((a / (2 * L * (n + 1)) ^ 2 + 2 / (2 * L * (n + 1)) ^ 3) *
      Real.exp (-(2 * L * (n + 1)) * a)))
      (∫ κ in Ioi a, (κ / (2 * L) * li 2 (Real.exp (-2 * κ * L)) + li 3 (Real.exp (-2 * κ * L)) / (4 * L ^ 2))) := by
  have hb : ∀ n : ℕ, 0 < 2 * L * (n + 1 : ℝ) := fun n => by positivity
  set F : ℕ → ℝ → ℝ := fun n κ => 1 / (n + 1 : ℝ) * ((κ / (2 * L * (n + 1)) + 1 / (2 * L * (n + 1)) ^ 2) *
      Real.exp (-(2 * L * (n + 1)) * κ)) with hF
  have hint : ∀ n, Integrable (F n) (volume.restrict (Ioi a)) := fun n =>
    ((term2_integrable ha.le (hb n)).1).const_mul _
  have hval : ∀ n, ∫ k in Ioi a, F n k = 1 / (n + 1 : ℝ) * ((a / (2 * L * (n + 1)) ^ 2 + 2 / (2 * L * (n + 1)) ^ 3) *
      Real.exp (-(2 * L * (n + 1)) * a)) := by
    intro n
    rw [hF]
    simp only
    rw [integral_const_mul, (term2_integrable ha.le (hb n)).2]
  have hnorm : ∀ n, ∫ k in Ioi a, ‖F n k‖ = ∫ k in Ioi a, F n k := by
    intro n
    refine setIntegral_congr_fun measurableSet_Ioi fun k hk => ?_
    have hk : 0 < k := ha.trans hk
    rw [hF]
    simp only
    rw [Real.norm_eq_abs, abs_of_nonneg (by positivity)]
  have hsum : Summable fun n : ℕ => 1 / (n + 1 : ℝ) * ((a / (2 * L * (n + 1)) ^ 2 + 2 / (2 * L * (n + 1)) ^ 3) *
      Real.exp (-(2 * L * (n + 1)) * a)) := by
    have h : Summable fun n : ℕ => 1 / ((n + 1 : ℕ) : ℝ) ^ 2 :=
      (summable_nat_add_iff 1).2 (Real.summable_one_div_nat_pow.2 (by norm_num))
    refine Summable.of_nonneg_of_le (fun n => by positivity) (fun n => ?_)
      (h.mul_left (a / (2 * L) ^ 2 + 2 / (2 * L) ^ 3))
    have he : Real.exp (-(2 * L * (n + 1)) * a) ≤ 1 := by
      rw [Real.exp_le_one_iff]; have := mul_pos (hb n) ha; linarith
    have hn : (1:ℝ) ≤ n + 1 := by have : (0:ℝ) ≤ n := Nat.cast_nonneg n; linarith
    have h1 : a / (2 * L * (n + 1)) ^ 2 ≤ a / (2 * L) ^ 2 / (n + 1) := by
      rw [div_div, mul_pow]
      gcongr
      nlinarith
    have h2 : 2 / (2 * L * (n + 1)) ^ 3 ≤ 2 / (2 * L) ^ 3 / (n + 1) := by
      rw [div_div, mul_pow]
      gcongr
      exact le_self_pow₀ hn (by norm_num)
    push_cast
    calc 1 / (n + 1 : ℝ) * ((a / (2 * L * (n + 1)) ^ 2 + 2 / (2 * L * (n + 1)) ^ 3) *
          Real.exp (-(2 * L * (n + 1)) * a))
        ≤ 1 / (n + 1 : ℝ) * ((a / (2 * L) ^ 2 / (n + 1) + 2 / (2 * L) ^ 3 / (n + 1)) * 1) := by gcongr
      _ = _ := by field_simp
  have h := hasSum_integral_of_summable_integral_norm hint (by simp_rw [hnorm, hval]; exact hsum)
  simp_rw [hval] at h
  have e : ∫ κ in Ioi a, (κ / (2 * L) * li 2 (Real.exp (-2 * κ * L)) + li 3 (Real.exp (-2 * κ * L)) / (4 * L ^ 2)) =
      ∫ κ in Ioi a, ∑' n, F n κ :=
    setIntegral_congr_fun measurableSet_Ioi fun k hk => (mirror_series (ha.trans hk) hL).tsum_eq.symm
  rw [e]
  exact h

theorem exp_quad {t : ℝ} (ht : 0 ≤ t) : (t + 2) * Real.exp (-t) ≤ 2 ∧ 2 - t ≤ (t + 2) * Real.exp (-t) := by
  constructor
  · have := Real.add_one_le_exp t
    rw [Real.exp_neg, ← div_eq_mul_inv, div_le_iff₀ (Real.exp_pos t)]
    linarith
  · -- g(t) = (t+2) e^{-t} - 2 + t is increasing
    have hd : ∀ x : ℝ, HasDerivAt (fun t => (t + 2) * Real.exp (-t) - 2 + t) (1 - (x + 1) * Real.exp (-x)) x := by
      intro x
      have h := (((((hasDerivAt_id x).add_const 2).mul ((hasDerivAt_id x).neg.exp)).sub_const 2).add (hasDerivAt_id x))
      refine h.congr_deriv ?_
      simp only [id, Pi.neg_apply]
      ring
    have hm : MonotoneOn (fun t => (t + 2) * Real.exp (-t) - 2 + t) (Ici 0) := by
      apply monotoneOn_of_deriv_nonneg (convex_Ici (0:ℝ))
      · exact fun x _ => (hd x).continuousAt.continuousWithinAt
      · exact fun x _ => (hd x).differentiableAt.differentiableWithinAt
      · intro x _
        rw [(hd x).deriv]
        have := Real.add_one_le_exp x
        have h2 : (x + 1) * Real.exp (-x) ≤ 1 := by
          rw [Real.exp_neg, ← div_eq_mul_inv, div_le_iff₀ (Real.exp_pos x)]; linarith
        linarith
    have := hm (self_mem_Ici) ht ht
    simp at this
    linarith

theorem hasSum_shift (s : ℕ) (hs : 1 < s) {v : ℝ} (h : HasSum (fun n : ℕ => (1 : ℝ) / (n : ℝ) ^ s) v) :
    HasSum (fun n : ℕ => 1 / (n + 1 : ℝ) ^ s) v := by
  have h1 := (hasSum_nat_add_iff' 1).2 h
  simp only [Finset.range_one, Finset.sum_singleton, Nat.cast_zero] at h1
  rw [zero_pow (by omega), div_zero, sub_zero] at h1
  refine h1.congr_fun fun n => ?_
  push_cast
  rfl

/-- Casimir's result, with the effect of the lower cut-off -/
theorem mirror_total_bounds {a L : ℝ} (ha : 0 < a) (hL : 0 < L) :
    let I := ∫ κ in Ioi a, (κ / (2 * L) * li 2 (Real.exp (-2 * κ * L)) + li 3 (Real.exp (-2 * κ * L)) / (4 * L ^ 2))
    I ≤ Real.pi ^ 4 / (360 * L ^ 3) ∧ Real.pi ^ 4 / (360 * L ^ 3) - a / (4 * L ^ 2) * li 3 1 ≤ I := by
  intro I
  have hI := mirror_total ha hL
  have h4 := (hasSum_shift 4 (by norm_num) hasSum_zeta_four).mul_left (1 / (4 * L ^ 3))
  have h3 : HasSum (fun n : ℕ => 1 / (n + 1 : ℝ) ^ 3) (li 3 1) := by
    have := (summable_li (z := 1) (by norm_num) le_rfl (s := 3) (by norm_num)).hasSum
    simpa [li] using this
  have h34 := h4.sub (h3.mul_left (a / (4 * L ^ 2)))
  have e : 1 / (4 * L ^ 3) * (Real.pi ^ 4 / 90) = Real.pi ^ 4 / (360 * L ^ 3) := by field_simp; norm_num
  rw [e] at h4 h34
  have key : ∀ n : ℕ, (a / (2 * L * (n + 1)) ^ 2 + 2 / (2 * L * (n + 1)) ^ 3) * Real.exp (-(2 * L * (n + 1)) * a) =
      1 / (2 * L * (n + 1)) ^ 3 * ((2 * L * (n + 1) * a + 2) * Real.exp (-(2 * L * (n + 1) * a))) := by
    intro n
    have hb : 0 < 2 * L * (n + 1 : ℝ) := by positivity
    rw [neg_mul]
    generalize Real.exp (-(2 * L * (n + 1) * a)) = E
    field_simp
  constructor
  · refine hasSum_le (fun n => ?_) hI h4
    have hb : 0 < 2 * L * (n + 1 : ℝ) := by positivity
    rw [key]
    have := (exp_quad (mul_pos hb ha).le).1
    calc _ ≤ 1 / (n + 1 : ℝ) * (1 / (2 * L * (n + 1)) ^ 3 * 2) := by gcongr
      _ = _ := by field_simp; norm_num
  · refine hasSum_le (fun n => ?_) h34 hI
    have hb : 0 < 2 * L * (n + 1 : ℝ) := by positivity
    rw [key]
    have := (exp_quad (mul_pos hb ha).le).2
    calc _ = 1 / (n + 1 : ℝ) * (1 / (2 * L * (n + 1)) ^ 3 * (2 - 2 * L * (n + 1) * a)) := by field_simp; ring
      _ ≤ _ := by gcongr

/-- the mirror integral at small frequency -/
theorem mirror_small {κ L : ℝ} (hκ : 0 < κ) (hL : 0 < L) :
    let I := κ / (2 * L) * li 2 (Real.exp (-2 * κ * L)) + li 3 (Real.exp (-2 * κ * L)) / (4 * L ^ 2)
    I ≤ li 3 1 / (4 * L ^ 2) ∧ li 3 1 / (4 * L ^ 2) - κ * Real.pi ^ 2 / (12 * L) ≤ I := by
  intro I
  have hI := mirror_series hκ hL
  have h2 := (hasSum_shift 2 (by norm_num) hasSum_zeta_two).mul_left (κ / (2 * L))
  have h3 : HasSum (fun n : ℕ => 1 / (n + 1 : ℝ) ^ 3) (li 3 1) := by
    have := (summable_li (z := 1) (by norm_num) le_rfl (s := 3) (by norm_num)).hasSum
    simpa [li] using this
  have h3' := h3.div_const (4 * L ^ 2)
  have e : κ / (2 * L) * (Real.pi ^ 2 / 6) = κ * Real.pi ^ 2 / (12 * L) := by field_simp; norm_num
  rw [e] at h2
  have key : ∀ n : ℕ, (κ / (2 * L * (n + 1)) + 1 / (2 * L * (n + 1)) ^ 2) * Real.exp (-(2 * L * (n + 1)) * κ) =
      1 / (2 * L * (n + 1)) ^ 2 * ((2 * L * (n + 1) * κ + 1) * Real.exp (-(2 * L * (n + 1) * κ))) := by
    intro n
    have hb : 0 < 2 * L * (n + 1 : ℝ) := by positivity
    rw [neg_mul]
    generalize Real.exp (-(2 * L * (n + 1) * κ)) = E
    field_simp
  constructor
  · refine hasSum_le (fun n => ?_) hI h3'
    have hb : 0 < 2 * L * (n + 1 : ℝ) := by positivity
    rw [key]
    have h1 : (2 * L * (n + 1) * κ + 1) * Real.exp (-(2 * L * (n + 1) * κ)) ≤ 1 := by
      have := Real.add_one_le_exp (2 * L * (n + 1) * κ)
      rw [Real.exp_neg, ← div_eq_mul_inv, div_le_iff₀ (Real.exp_pos _)]; linarith
    calc _ ≤ 1 / (n + 1 : ℝ) * (1 / (2 * L * (n + 1)) ^ 2 * 1) := by gcongr
      _ = _ := by field_simp; norm_num
  · refine hasSum_le (fun n => ?_) (h3'.sub h2) hI
    have hb : 0 < 2 * L * (n + 1 : ℝ) := by positivity
    have ht := mul_pos hb hκ
    rw [key]
    have h1 : 1 - 2 * L * (n + 1) * κ ≤ (2 * L * (n + 1) * κ + 1) * Real.exp (-(2 * L * (n + 1) * κ)) := by
      have := Real.add_one_le_exp (-(2 * L * (n + 1) * κ))
      have := Real.exp_pos (-(2 * L * (n + 1) * κ))
      nlinarith
    calc _ = 1 / (n + 1 : ℝ) * (1 / (2 * L * (n + 1)) ^ 2 * (1 - 2 * L * (n + 1) * κ)) := by field_simp; ring
      _ ≤ _ := by gcongr

end CasSph
