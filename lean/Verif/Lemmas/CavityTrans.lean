import Verif.Lemmas.InnerTrans

/-! The translation coefficients of the code for a sphere inside a cavity, as coefficients between regular waves. -/

namespace CasSph

open Spec

/-- a term of `common_ab`, unscaled -/
theorem vCommon_int {x : ℝ} (hx : 0 < x) {bes : List ℝ} {a b : ℕ} (m : ℕ) (hbes : ∀ p ≤ a + b, bes.getD p 0 = Real.log (sphI p x))
    {i : ℕ} (hi : i ≤ min a b) :
    vCommon false m bes a b i * Real.exp (besNorm false bes a b) =
      (-1) ^ m * (2 * Real.pi * gK a b m / Real.sqrt ((a : ℝ) * (a + 1) * (b * (b + 1)))) *
        (gC a b m (lppMin a b + 2 * i) * ((-1) ^ (lppMin a b + 2 * i) * sphI (lppMin a b + 2 * i) x)) := by
  have hle := lppMin_le a b
  have hpi := Real.pi_pos
  unfold vCommon
  rw [hbes _ (by omega), Real.exp_sub, Real.exp_log (sphI_pos _ hx), gnt_integral_nat a b m hi, gauntIntegral_gC]
  set p := lppMin a b + 2 * i with hp
  unfold commonFac
  simp only [Bool.false_eq_true, if_false, mul_zero, sub_zero, zpow_zero, mul_one]
  have he := (Real.exp_pos (besNorm false bes a b)).ne'
  have c1 : (0 : ℝ) < 2 * p + 1 := by positivity
  rw [Real.sqrt_div c1.le, show (4 : ℝ) * Real.pi = 2 ^ 2 * Real.pi by norm_num, Real.sqrt_mul (by norm_num),
    Real.sqrt_sq (by norm_num), zpow_natCast, zpow_natCast]
  have s1 := (Real.sqrt_pos.mpr c1).ne'
  have s2 := Real.mul_self_sqrt hpi.le
  generalize Real.sqrt (2 * (p : ℝ) + 1) = S at *
  generalize Real.sqrt ((a : ℝ) * (a + 1) * (b * (b + 1))) = U at *
  generalize Real.exp (besNorm false bes a b) = W at *
  generalize Real.sqrt Real.pi = Q at *
  generalize (-1 : ℝ) ^ p = e1 at *
  generalize (-1 : ℝ) ^ m = e2 at *
  have : sphI p x / W * (2 * Q * gK a b m * gC a b m p / S) * (e1 * e2 * Q * (S / U)) * W =
      sphI p x * (2 * (Q * Q) * gK a b m * gC a b m p) * (e1 * e2 * (1 / U)) := by
    field_simp
  rw [this, s2]
  ring

theorem vVal_EE_int {x : ℝ} (hx : 0 < x) {bes : List ℝ} {a b : ℕ} (ha : 1 ≤ a) (hb : 1 ≤ b) (m : ℕ)
    (hbes : ∀ p ≤ a + b, bes.getD p 0 = Real.log (sphI p x)) :
    (vVal false m x bes a b).EEab * Real.exp (vVal false m x bes a b).sk = tI m x false false a b := by
  have hsgn : ((-1 : ℝ) ^ m) * (-1) ^ m = 1 := by rw [← mul_pow]; simp
  have key := lapI_eePol x a b m
  have hg := gK_nV ha hb m
  unfold vVal
  simp only [Finset.sum_mul]
  calc _ = ∑ i ∈ Finset.range (min a b + 1), (-1) ^ m * (2 * Real.pi * gK a b m / Real.sqrt ((a : ℝ) * (a + 1) * (b * (b + 1)))) *
        (((a * (a + 1) + b * (b + 1) : ℝ) -
        ((lppMin a b + 2 * i : ℕ) : ℝ) * (((lppMin a b + 2 * i : ℕ) : ℝ) + 1)) *
          (gC a b m (lppMin a b + 2 * i) * ((-1) ^ (lppMin a b + 2 * i) * sphI (lppMin a b + 2 * i) x))) := by
        refine Finset.sum_congr rfl fun i hi => ?_
        rw [mul_assoc, vCommon_int hx m hbes (by have := Finset.mem_range.mp hi; omega)]
        ring
    _ = (-1) ^ m * (2 * Real.pi * gK a b m / Real.sqrt ((a : ℝ) * (a + 1) * (b * (b + 1)))) * (-2 * (-1) ^ m * lapI x (eePol a b m)) := by
        rw [← Finset.mul_sum, ← key]
    _ = -(4 * Real.pi * gK a b m / Real.sqrt ((a : ℝ) * (a + 1) * (b * (b + 1)))) * lapI x (eePol a b m) * ((-1) ^ m * (-1) ^ m) := by ring
    _ = _ := by rw [hg, hsgn]; unfold tI; rw [if_pos rfl]; ring

theorem vVal_EM_int {x : ℝ} (hx : 0 < x) {bes : List ℝ} {a b : ℕ} (ha : 1 ≤ a) (hb : 1 ≤ b) (m : ℕ)
    (hbes : ∀ p ≤ a + b, bes.getD p 0 = Real.log (sphI p x)) :
    (vVal false m x bes a b).EMab * Real.exp (vVal false m x bes a b).sk = -tI m x false true a b := by
  have hsgn : ((-1 : ℝ) ^ m) * (-1) ^ m = 1 := by rw [← mul_pow]; simp
  have key := lapI_gF x a b m
  have e2 := lapI_emPol x a b m
  have hg := gK_nV ha hb m
  unfold vVal
  simp only [Finset.sum_mul]
  calc _ = ∑ i ∈ Finset.range (min a b + 1), 2 * (m : ℝ) * x * ((-1) ^ m * (2 * Real.pi * gK a b m / Real.sqrt ((a : ℝ) * (a + 1) * (b * (b + 1))))) *
          (gC a b m (lppMin a b + 2 * i) * ((-1) ^ (lppMin a b + 2 * i) * sphI (lppMin a b + 2 * i) x)) := by
        refine Finset.sum_congr rfl fun i hi => ?_
        rw [mul_assoc, vCommon_int hx m hbes (by have := Finset.mem_range.mp hi; omega)]
        push_cast
        ring
    _ = 2 * (m : ℝ) * x * ((-1) ^ m * (2 * Real.pi * gK a b m / Real.sqrt ((a : ℝ) * (a + 1) * (b * (b + 1))))) * lapI x (gF a b m) := by
        rw [← Finset.mul_sum, ← key]
    _ = (-1) ^ m * (4 * Real.pi * gK a b m / Real.sqrt ((a : ℝ) * (a + 1) * (b * (b + 1)))) * (m * x * lapI x (gF a b m)) := by ring
    _ = _ := by
      rw [hg, ← e2]
      unfold tI
      rw [if_neg (by simp)]
      linear_combination ((-1) ^ m * nV a m * nV b m * lapI x (emPol a b m)) * hsgn

end CasSph
