import Verif.Model.FloatTransArr
import Verif.Spec.FlTransArr
import Verif.Props.FloatGaunt

/-! # Lemmas for C147 -/

namespace CasSph

open Spec

theorem sphK_below (p : ℕ) {x : ℝ} (hx : 0 < x) : (2 * p + 1) * sphK p x ≤ x * sphK (p + 1) x := by
  cases p with
  | zero =>
    rw [sphK_zero, sphK_one hx.ne']
    have e : x * (Real.pi / 2 * Real.exp (-x) * (x + 1) / x ^ 2) = Real.pi / 2 * Real.exp (-x) / x * (x + 1) := by field_simp
    rw [e]
    have : 0 ≤ Real.pi / 2 * Real.exp (-x) / x := by positivity
    norm_num
    nlinarith
  | succ c =>
    have h := sphK_rec c hx.ne'
    have h0 := sphK_pos c hx
    have e : x * (sphK c x + (2 * c + 3) / x * sphK (c + 1) x) = x * sphK c x + (2 * c + 3) * sphK (c + 1) x := by field_simp
    rw [show c + 1 + 1 = c + 2 by rfl, h, e]
    push_cast
    nlinarith

theorem sphK_below2 (N : ℕ) {x : ℝ} (hx : 0 < x) : (2 * N + 3) * (2 * N + 1) * sphK N x ≤ x ^ 2 * sphK (N + 2) x := by
  have h1 := sphK_below N hx
  have h2 := sphK_below (N + 1) hx
  push_cast at h2
  have a := mul_le_mul_of_nonneg_left h1 (show (0 : ℝ) ≤ 2 * N + 3 by positivity)
  have b := mul_le_mul_of_nonneg_left h2 hx.le
  rw [show N + 1 + 1 = N + 2 by rfl] at b
  nlinarith

/-- The unscaled coefficients as sums. -/
theorem vVal_flat (ext : Bool) (m : ℤ) (nL : ℝ) (bes : List ℝ) (l1 l2 : ℕ) :
    (vVal ext m nL bes l1 l2).EEab * Real.exp (vVal ext m nL bes l1 l2).sk = ∑ i ∈ Finset.range (min l1 l2 + 1), weightEE l1 l2 (lppMin l1 l2 + 2 * i) *
      (Real.exp (bes.getD (lppMin l1 l2 + 2 * i) 0) * gnt l1 l2 m i * commonFac ext m l1 l2 (lppMin l1 l2 + 2 * i)) ∧
    (vVal ext m nL bes l1 l2).EMab * Real.exp (vVal ext m nL bes l1 l2).sk = ∑ i ∈ Finset.range (min l1 l2 + 1), weightEM m nL (lppMin l1 l2 + 2 * i) *
      (Real.exp (bes.getD (lppMin l1 l2 + 2 * i) 0) * gnt l1 l2 m i * commonFac ext m l1 l2 (lppMin l1 l2 + 2 * i)) := by
  have b : ∀ i, vCommon ext m bes l1 l2 i * Real.exp (besNorm ext bes l1 l2) =
      Real.exp (bes.getD (lppMin l1 l2 + 2 * i) 0) * gnt l1 l2 m i * commonFac ext m l1 l2 (lppMin l1 l2 + 2 * i) := fun i => by
    have b : Real.exp (bes.getD (lppMin l1 l2 + 2 * i) 0 - besNorm ext bes l1 l2) * Real.exp (besNorm ext bes l1 l2) = Real.exp (bes.getD (lppMin l1 l2 + 2 * i) 0) := by
      rw [← Real.exp_add, sub_add_cancel]
    unfold vCommon
    rw [← b]
    ring
  constructor
  all_goals
    simp only [vVal, Finset.sum_mul]
    refine Finset.sum_congr rfl fun i _ => ?_
    rw [← b i]
    simp only [weightEE, weightEM]
    ring

theorem commonFac_abs_ext (m : ℤ) (l1 l2 p : ℕ) : |commonFac true m l1 l2 p| =
    Real.sqrt Real.pi * (2 / Real.pi) / Real.sqrt (l1 * (l1 + 1) * (l2 * (l2 + 1))) * Real.sqrt (2 * p + 1) := by
  have hp := Real.pi_pos
  unfold commonFac
  simp only [if_true, zpow_one, abs_mul, abs_zpow, abs_neg, abs_one, one_zpow, one_mul]
  rw [abs_of_nonneg (Real.sqrt_nonneg _), abs_of_nonneg (Real.sqrt_nonneg _), abs_of_pos (show (0 : ℝ) < 2 / Real.pi by positivity), Real.sqrt_div (by positivity)]
  ring

/-- One term: the modulus with the bound of the Gaunt coefficient. -/
theorem size_term (m : ℤ) (bes : List ℝ) (l1 l2 : ℕ) (top : ℝ) (i : ℕ) :
    Real.exp (bes.getD (lppMin l1 l2 + 2 * i) 0) * gauntSize l1 l2 m top i * |commonFac true m l1 l2 (lppMin l1 l2 + 2 * i)| =
      |top| * Real.sqrt (2 * (l1 + l2) + 1) * (Real.sqrt Real.pi * (2 / Real.pi) / Real.sqrt (l1 * (l1 + 1) * (l2 * (l2 + 1)))) *
        (Real.exp (bes.getD (lppMin l1 l2 + 2 * i) 0) * gauntMajor l1 l2 m (min l1 l2 - i)) := by
  rw [commonFac_abs_ext]
  unfold gauntSize
  have hs : 0 < Real.sqrt (2 * ((lppMin l1 l2 : ℝ) + 2 * i) + 1) := Real.sqrt_pos.2 (by positivity)
  have e : ((((l1 : ℤ) - l2).natAbs : ℝ)) = lppMin l1 l2 := rfl
  rw [e]
  push_cast
  field_simp

theorem gnt_le_size (l1 l2 : ℕ) (m : ℤ) {i : ℕ} (hi : i ≤ min l1 l2) : |gnt l1 l2 m i| ≤ gauntSize l1 l2 m (gnt l1 l2 m (min l1 l2)) i := by
  obtain ⟨g, g', a, -, -, -, d⟩ := C146_gaunt roundDown_relErrZ l1 l2 m
  rw [gaunt_ok] at a
  cases a
  have := (d i hi).1
  rwa [getD_row _ hi, getD_row _ le_rfl] at this

theorem lower_weight (f : ℕ → ℝ) (hf : ∀ i, 0 ≤ f i) {n : ℕ} {C S : ℝ} (h : ∑ i ∈ Finset.range n, f i ≤ S / 3) (hn : f n = S)
    {t : ℕ → ℝ} (ht : ∀ i < n, |t i| ≤ f i) (htn : |t n| = S) (hC : C = ∑ i ∈ Finset.range (n + 1), f i) : C ≤ 2 * |∑ i ∈ Finset.range (n + 1), t i| := by
  rw [hC, Finset.sum_range_succ, Finset.sum_range_succ]
  have h1 : |∑ i ∈ Finset.range n, t i| ≤ ∑ i ∈ Finset.range n, f i :=
    (Finset.abs_sum_le_sum_abs _ _).trans (Finset.sum_le_sum fun i hi => ht i (Finset.mem_range.1 hi))
  have h2 := abs_sub_abs_le_abs_sub (t n) (-∑ i ∈ Finset.range n, t i)
  rw [abs_neg, sub_neg_eq_add, add_comm (t n)] at h2
  linarith

end CasSph
