import Verif.Props.FreeEnergy
import Mathlib.Analysis.SpecialFunctions.Trigonometric.DerivHyp
import Mathlib.Analysis.SpecialFunctions.Trigonometric.InverseDeriv
import Mathlib.MeasureTheory.Integral.IntegralEqImproper

/-! # A bound of `ln det(1 - M)` that is integrable in the wavenumber -/

namespace CasSph

open Spec Filter Topology Matrix MeasureTheory Set

/-- `-ln(1 - x) ≤ x/√(1 - x)`. -/
theorem neg_log_le {x : ℝ} (h0 : 0 ≤ x) (h1 : x < 1) : -Real.log (1 - x) ≤ x / Real.sqrt (1 - x) := by
  have hu : 0 < Real.sqrt (1 - x) := Real.sqrt_pos.mpr (by linarith)
  have hsq : Real.sqrt (1 - x) ^ 2 = 1 - x := Real.sq_sqrt (by linarith)
  have hu1 : Real.sqrt (1 - x) ≤ 1 := (Real.sqrt_le_sqrt (by linarith : 1 - x ≤ 1)).trans_eq Real.sqrt_one
  have hx : x = 1 - Real.sqrt (1 - x) ^ 2 := by linarith
  have hy : 0 ≤ -Real.log (Real.sqrt (1 - x)) := by have := Real.log_nonpos hu.le hu1; linarith
  have hs := Real.self_le_sinh_iff.mpr hy
  rw [Real.sinh_eq, neg_neg, Real.exp_neg, Real.exp_log hu] at hs
  rw [← hsq, Real.log_pow]
  have e : x / Real.sqrt (1 - x) = (Real.sqrt (1 - x))⁻¹ - Real.sqrt (1 - x) := by
    rw [div_eq_iff hu.ne', sub_mul, inv_mul_cancel₀ hu.ne']
    linarith [hsq]
  rw [Real.sqrt_sq hu.le, e]
  push_cast
  linarith

/-- `∑ x^j/(j + 1) ≤ 1/√(1 - x)`. -/
theorem sum_pow_div_le {x : ℝ} (h0 : 0 < x) (h1 : x < 1) (n : ℕ) :
    ∑ j ∈ Finset.range n, x ^ j / (j + 1) ≤ 1 / Real.sqrt (1 - x) := by
  have hs := Real.hasSum_pow_div_log_of_abs_lt_one (by rwa [abs_of_pos h0])
  have := sum_le_hasSum (Finset.range n) (fun j _ => by positivity) hs
  have e : ∑ j ∈ Finset.range n, x ^ (j + 1) / ((j : ℝ) + 1) = x * ∑ j ∈ Finset.range n, x ^ j / (j + 1) := by
    rw [Finset.mul_sum]
    refine Finset.sum_congr rfl fun j _ => ?_
    rw [_root_.pow_succ]; ring
  rw [e] at this
  have h2 := this.trans (neg_log_le h0.le h1)
  rw [div_eq_mul_one_div] at h2
  exact le_of_mul_le_mul_left h2 h0

theorem sum_Icc_one (f : ℕ → ℝ) (n : ℕ) : ∑ j ∈ Finset.Icc 1 n, f j = ∑ j ∈ Finset.range n, f (j + 1) := by
  induction n with
  | zero => simp
  | succ n ih => rw [Finset.sum_Icc_succ_top (by omega), ih, Finset.sum_range_succ]

section
variable {mA mB md : Material} {r1 r2 L k : ℝ} {med : Medium} {a b : MieCoef} {σa σb : ℝ} {lmax lssmax m : ℕ} {B : Blocks (lmax + 1 - transLmin m)}

theorem pairTrace_nonneg (S : FinitePair mA mB md r1 r2 L k med a b) (m : ℕ) : 0 ≤ pairTrace med r1 r2 L k m := by
  have hsm := Real.sqrt_pos.mpr S.med_pos.2
  have hd : 0 < L - (r1 + r2) * Real.sqrt med.mu := by linarith [S.sep]
  obtain ⟨p1, l1⟩ := gapRatio_mem (mul_pos S.h1 hsm) hd
  obtain ⟨p2, l2⟩ := gapRatio_mem (mul_pos S.h2 hsm) hd
  have := sub_pos.mpr l1
  have := sub_pos.mpr l2
  unfold pairTrace
  positivity

/-- Bound of the contribution of one `m` which is integrable at small wavenumbers. -/
theorem lnDet_sharp (S : FinitePair mA mB md r1 r2 L k med a b) (ea : DenseSign mA md k σa) (eb : DenseSign mB md k σb)
    (hB : BlocksAt md L k lmax lssmax m a b B) :
    |Real.log (1 - B.full).det| ≤ pairTrace med r1 r2 L k m / Real.sqrt (1 - Real.exp (-(2 * optGap med r1 r2 L k))) := by
  have hg := S.gap_pos
  have t0 := pairTrace_nonneg S m
  have x1 : Real.exp (-(2 * optGap med r1 r2 L k)) < 1 := by rw [Real.exp_lt_one_iff]; linarith
  have hx0 := Real.exp_pos (-(2 * optGap med r1 r2 L k))
  have htr : ∀ j : ℕ, |(B.full ^ (j + 1)).trace| ≤ Real.exp (-(2 * optGap med r1 r2 L k)) ^ j * pairTrace med r1 r2 L k m := by
    intro j
    obtain ⟨c1, c2⟩ := C96_traces S ea eb hB j
    rw [show -(2 * (j : ℝ) * optGap med r1 r2 L k) = j * -(2 * optGap med r1 r2 L k) by ring, Real.exp_nat_mul] at c2
    rw [← abs_of_nonneg c1, abs_mul, abs_pow] at c2
    have : |σa * σb| = 1 := by rcases ea.prod eb with h | h <;> rw [h] <;> norm_num
    rwa [this, one_pow, one_mul] at c2
  have hsum : ∀ n : ℕ, |∑ j ∈ Finset.Icc 1 n, (B.full ^ j).trace / (j : ℝ)| ≤
      pairTrace med r1 r2 L k m / Real.sqrt (1 - Real.exp (-(2 * optGap med r1 r2 L k))) := by
    intro n
    rw [sum_Icc_one]
    calc _ ≤ ∑ j ∈ Finset.range n, pairTrace med r1 r2 L k m * (Real.exp (-(2 * optGap med r1 r2 L k)) ^ j / (j + 1)) := by
          refine (Finset.abs_sum_le_sum_abs _ _).trans (Finset.sum_le_sum fun j _ => ?_)
          rw [abs_div, Nat.cast_add, Nat.cast_one, abs_of_pos (by positivity : (0 : ℝ) < j + 1), mul_div_assoc', mul_comm (pairTrace _ _ _ _ _ _)]
          exact div_le_div_of_nonneg_right (htr j) (by positivity)
      _ ≤ _ := by
        rw [← Finset.mul_sum, div_eq_mul_one_div]
        exact mul_le_mul_of_nonneg_left (sum_pow_div_le hx0 x1 n) t0
  have hlim : Tendsto (fun n : ℕ => pairTrace med r1 r2 L k m / Real.sqrt (1 - Real.exp (-(2 * optGap med r1 r2 L k))) +
      pairBound med r1 r2 L k m * (1 / ((n : ℝ) + 1))) atTop
      (𝓝 (pairTrace med r1 r2 L k m / Real.sqrt (1 - Real.exp (-(2 * optGap med r1 r2 L k))) + pairBound med r1 r2 L k m * 0)) :=
    (tendsto_one_div_add_atTop_nhds_zero_nat.const_mul _).const_add _
  rw [mul_zero, add_zero] at hlim
  have pb : 0 ≤ pairBound med r1 r2 L k m := div_nonneg t0 (by linarith)
  refine ge_of_tendsto' hlim fun n => ?_
  have h1 := (C97_expansion S ea eb hB n).1
  have h2 : pairBound med r1 r2 L k m * Real.exp (-(2 * n * optGap med r1 r2 L k)) / (n + 1) ≤ pairBound med r1 r2 L k m * (1 / ((n : ℝ) + 1)) := by
    rw [mul_div_assoc]
    refine mul_le_mul_of_nonneg_left (div_le_div_of_nonneg_right ?_ (by positivity)) pb
    rw [Real.exp_le_one_iff]
    have : 0 ≤ 2 * (n : ℝ) * optGap med r1 r2 L k := by positivity
    linarith
  have h3 := hsum n
  rw [abs_le] at h1 h3 ⊢
  constructor <;> linarith [h1.1, h1.2, h3.1, h3.2]

end

/-! ## The bound as a function of the wavenumber -/

/-- `exp(-x)/√(1 - exp(-2x))` -/
noncomputable def sharpExp (x : ℝ) : ℝ := Real.exp (-x) / Real.sqrt (1 - Real.exp (-(2 * x)))

theorem sharpExp_nonneg (x : ℝ) : 0 ≤ sharpExp x := div_nonneg (Real.exp_pos _).le (Real.sqrt_nonneg _)

theorem sharpExp_anti {x y : ℝ} (hx : 0 < x) (hxy : x ≤ y) : sharpExp y ≤ sharpExp x := by
  have e1 : Real.exp (-(2 * x)) < 1 := by rw [Real.exp_lt_one_iff]; linarith
  have e2 : Real.exp (-(2 * y)) ≤ Real.exp (-(2 * x)) := Real.exp_le_exp.mpr (by linarith)
  exact div_le_div₀ (Real.exp_pos _).le (Real.exp_le_exp.mpr (by linarith)) (Real.sqrt_pos.mpr (by linarith)) (Real.sqrt_le_sqrt (by linarith))

/-- Antiderivative of the bound: `-arcsin(exp(-kd))/d`. -/
theorem sharpExp_deriv {d : ℝ} (hd : 0 < d) {x : ℝ} (hx : 0 < x) :
    HasDerivAt (fun k => -Real.arcsin (Real.exp (-(k * d))) / d) (sharpExp (x * d)) x := by
  have h1 : Real.exp (-(x * d)) < 1 := by rw [Real.exp_lt_one_iff]; nlinarith [mul_pos hx hd]
  have h0 := Real.exp_pos (-(x * d))
  have hin : HasDerivAt (fun k : ℝ => Real.exp (-(k * d))) (Real.exp (-(x * d)) * -d) x := by
    have : HasDerivAt (fun k : ℝ => -(k * d)) (-d) x := by
      have := ((hasDerivAt_id x).mul_const d).neg
      rw [one_mul] at this
      exact this
    exact this.exp
  have := (((Real.hasDerivAt_arcsin (by linarith) h1.ne).comp x hin).neg).div_const d
  refine this.congr_deriv ?_
  unfold sharpExp
  rw [show Real.exp (-(2 * (x * d))) = Real.exp (-(x * d)) ^ 2 by rw [← Real.exp_nat_mul]; congr 1; push_cast; ring]
  field_simp

theorem sharpExp_cont {d : ℝ} (hd : 0 < d) : ContinuousWithinAt (fun k => -Real.arcsin (Real.exp (-(k * d))) / d) (Ici 0) 0 := by
  have : Continuous fun k : ℝ => -Real.arcsin (Real.exp (-(k * d))) / d :=
    ((Real.continuous_arcsin.comp (by fun_prop)).neg).div_const d
  exact this.continuousWithinAt

theorem sharpExp_lim {d : ℝ} (hd : 0 < d) : Tendsto (fun k => -Real.arcsin (Real.exp (-(k * d))) / d) atTop (𝓝 0) := by
  have h1 : Tendsto (fun k : ℝ => Real.exp (-(k * d))) atTop (𝓝 0) :=
    Real.tendsto_exp_neg_atTop_nhds_zero.comp (tendsto_id.atTop_mul_const hd)
  have := ((Real.continuous_arcsin.tendsto 0).comp h1).neg.div_const d
  simpa using this

theorem sharpExp_integrable {d : ℝ} (hd : 0 < d) : IntegrableOn (fun k => sharpExp (k * d)) (Ioi 0) :=
  integrableOn_Ioi_deriv_of_nonneg (sharpExp_cont hd) (fun x hx => sharpExp_deriv hd hx) (fun x _ => sharpExp_nonneg _) (sharpExp_lim hd)

/-- `∫_0^∞ exp(-kd)/√(1 - exp(-2kd)) dk = π/(2d)`. -/
theorem sharpExp_integral {d : ℝ} (hd : 0 < d) : ∫ k in Ioi (0 : ℝ), sharpExp (k * d) = Real.pi / (2 * d) := by
  rw [integral_Ioi_of_hasDerivAt_of_nonneg (sharpExp_cont hd) (fun x hx => sharpExp_deriv hd hx) (fun x _ => sharpExp_nonneg _) (sharpExp_lim hd)]
  simp only [zero_mul, neg_zero, Real.exp_zero, Real.arcsin_one]
  field_simp
  ring

theorem pair_le_sharp {r1 r2 L k ε : ℝ} (h1 : 0 < r1) (h2 : 0 < r2) (hs : r1 + r2 < L) (hk : 0 < k) (hε : 1 ≤ ε) :
    3 * (pairTrace ⟨ε, 1⟩ r1 r2 L k 0 / Real.sqrt (1 - Real.exp (-(2 * optGap ⟨ε, 1⟩ r1 r2 L k)))) / (1 - pairRatio ⟨ε, 1⟩ r1 r2 L) ≤
      freeC r1 r2 L * sharpExp (k * (L - (r1 + r2))) := by
  have hd : 0 < L - (r1 + r2) := sub_pos.mpr hs
  have hC := freeC_pos h1 h2 hs
  have hg : k * (L - (r1 + r2)) ≤ optGap ⟨ε, 1⟩ r1 r2 L k := by
    unfold optGap
    rw [Real.sqrt_one, mul_one, mul_assoc]
    have : 1 ≤ Real.sqrt ε := Real.one_le_sqrt.mpr hε
    exact mul_le_mul_of_nonneg_left (le_mul_of_one_le_left hd.le this) hk.le
  have e : 3 * (pairTrace ⟨ε, 1⟩ r1 r2 L k 0 / Real.sqrt (1 - Real.exp (-(2 * optGap ⟨ε, 1⟩ r1 r2 L k)))) / (1 - pairRatio ⟨ε, 1⟩ r1 r2 L) =
      freeC r1 r2 L * sharpExp (optGap ⟨ε, 1⟩ r1 r2 L k) := by
    unfold pairTrace pairRatio freeC sharpExp
    simp only [Real.sqrt_one, mul_one]
    rw [show (0 : ℕ) - 1 = 0 from rfl, pow_zero, pow_zero]
    simp only [div_eq_mul_inv, mul_inv]
    ring
  rw [e]
  exact mul_le_mul_of_nonneg_left (sharpExp_anti (by positivity) hg) hC.le

end CasSph
