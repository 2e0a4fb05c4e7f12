import Mathlib.Analysis.SpecialFunctions.Trigonometric.DerivHyp
import Verif.Spec.DipoleEntropy

/-! # The temperature derivative of the free energy of two dipoles -/

namespace CasSph

open Spec

/-- The free energy of two perfectly conducting dipoles in terms of `a = ν coth ν` and `q = (ν/sinh ν)²`. -/
noncomputable def pecPoly (a q : ℝ) : ℝ :=
  5 / 4 * (2 * a + 2 * q + q * a) + 5 / 4 * (a + q + 3 / 2 * (q * a) + 1 / 2 * (2 * a ^ 2 * q + q ^ 2) + 1 / 2 * (a ^ 3 * q + 2 * a * q ^ 2)) +
    1 / 2 * (q * a + (2 * a ^ 2 * q + q ^ 2) + (a ^ 3 * q + 2 * a * q ^ 2))

/-- Positive and negative parts of `ν` times its derivative. -/
noncomputable def pecPos (a q : ℝ) : ℝ :=
  5 / 4 * (2 * a + 2 * q) + 5 / 4 * (a + q + 5 / 2 * (q * a) + 1 / 2 * (2 * a ^ 2 * q + q ^ 2) + 1 / 2 * (a ^ 3 * q + 2 * a * q ^ 2)) +
    1 / 2 * (3 * (q * a) + 3 * (2 * a ^ 2 * q + q ^ 2) + (a ^ 3 * q + 2 * a * q ^ 2))

noncomputable def pecNeg (a q : ℝ) : ℝ :=
  5 / 4 * (q * a + (2 * a ^ 2 * q + q ^ 2)) + 5 / 8 * (2 * a ^ 4 * q + 11 * a ^ 2 * q ^ 2 + 2 * q ^ 3) + 1 / 2 * (2 * a ^ 4 * q + 11 * a ^ 2 * q ^ 2 + 2 * q ^ 3)

theorem pecPoly_mono {a b q r : ℝ} (ha : 0 ≤ a) (hq : 0 ≤ q) (h : a ≤ b) (h' : q ≤ r) : pecPoly a q ≤ pecPoly b r := by
  unfold pecPoly
  have hb := ha.trans h
  have hr := hq.trans h'
  gcongr

theorem pecPos_mono {a b q r : ℝ} (ha : 0 ≤ a) (hq : 0 ≤ q) (h : a ≤ b) (h' : q ≤ r) : pecPos a q ≤ pecPos b r := by
  unfold pecPos
  have hb := ha.trans h
  have hr := hq.trans h'
  gcongr

theorem pecNeg_mono {a b q r : ℝ} (ha : 0 ≤ a) (hq : 0 ≤ q) (h : a ≤ b) (h' : q ≤ r) : pecNeg a q ≤ pecNeg b r := by
  unfold pecNeg
  have hb := ha.trans h
  have hr := hq.trans h'
  gcongr

theorem dipoleFree_pecPoly (ν : ℝ) : dipoleFree (5 / 4) (-1) ν = pecPoly (ν / Real.sinh ν * Real.cosh ν) ((ν / Real.sinh ν) ^ 2) := by
  unfold dipoleFree ftmtm0 ftmtm1 ftmte1 pecPoly
  norm_num
  ring

/-- The derivative of the free energy of two dipoles is what tests/test_functional.py expects for the entropy. -/
theorem dipoleFree_hasDerivAt (s x : ℝ) {ν : ℝ} (hν : 0 < ν) :
    HasDerivAt (dipoleFree s x) (s * (stmtm0 (ν / Real.sinh ν) (Real.cosh ν) ν + stmtm1 (ν / Real.sinh ν) (Real.cosh ν) ν) -
      2 * x * stmte1 (ν / Real.sinh ν) (Real.cosh ν) ν) ν := by
  have hs : Real.sinh ν ≠ 0 := (Real.sinh_pos_iff.mpr hν).ne'
  have hν' := hν.ne'
  have hc : Real.cosh ν ^ 2 = 1 + Real.sinh ν ^ 2 := by have := Real.cosh_sq ν; linarith
  have dg : HasDerivAt (fun y => y / Real.sinh y) ((ν / Real.sinh ν - ν / Real.sinh ν * (ν / Real.sinh ν * Real.cosh ν)) / ν) ν := by
    have := (hasDerivAt_id ν).div (Real.hasDerivAt_sinh ν) hs
    refine this.congr_deriv ?_
    simp only [id]
    field_simp
  have da : HasDerivAt (fun y => y / Real.sinh y * Real.cosh y) ((ν / Real.sinh ν * Real.cosh ν - (ν / Real.sinh ν) ^ 2) / ν) ν := by
    have := dg.mul (Real.hasDerivAt_cosh ν)
    refine this.congr_deriv ?_
    field_simp
    linear_combination (-ν) * hc
  generalize hga : ν / Real.sinh ν = g at dg da ⊢
  have key : ∀ y, dipoleFree s x y = s * (2 * (y / Real.sinh y * Real.cosh y) + 2 * (y / Real.sinh y) ^ 2 + (y / Real.sinh y) ^ 2 * (y / Real.sinh y * Real.cosh y) +
      ((y / Real.sinh y * Real.cosh y) + (y / Real.sinh y) ^ 2 + 1.5 * ((y / Real.sinh y) ^ 2 * (y / Real.sinh y * Real.cosh y)) +
        0.5 * (2 * (y / Real.sinh y * Real.cosh y) ^ 2 * (y / Real.sinh y) ^ 2 + (y / Real.sinh y) ^ 4) +
        0.5 * ((y / Real.sinh y * Real.cosh y) ^ 3 * (y / Real.sinh y) ^ 2 + 2 * (y / Real.sinh y * Real.cosh y) * (y / Real.sinh y) ^ 4))) -
      2 * x * (0.25 * ((y / Real.sinh y) ^ 2 * (y / Real.sinh y * Real.cosh y) + (2 * (y / Real.sinh y * Real.cosh y) ^ 2 * (y / Real.sinh y) ^ 2 + (y / Real.sinh y) ^ 4) +
        ((y / Real.sinh y * Real.cosh y) ^ 3 * (y / Real.sinh y) ^ 2 + 2 * (y / Real.sinh y * Real.cosh y) * (y / Real.sinh y) ^ 4))) := by
    intro y
    unfold dipoleFree ftmtm0 ftmtm1 ftmte1
    ring
  have hga' : (fun y => y / Real.sinh y) ν = g := hga
  rw [funext key]
  have t1 := (((da.const_mul 2).add ((dg.pow 2).const_mul 2)).add ((dg.pow 2).mul da))
  have t2 := ((((da.add (dg.pow 2)).add (((dg.pow 2).mul da).const_mul 1.5)).add ((((da.pow 2).const_mul 2).mul (dg.pow 2)).add (dg.pow 4) |>.const_mul 0.5)).add
    ((((da.pow 3).mul (dg.pow 2)).add ((da.const_mul 2).mul (dg.pow 4))).const_mul 0.5))
  have t3 := (((((dg.pow 2).mul da).add ((((da.pow 2).const_mul 2).mul (dg.pow 2)).add (dg.pow 4))).add
    (((da.pow 3).mul (dg.pow 2)).add ((da.const_mul 2).mul (dg.pow 4)))).const_mul 0.25).const_mul (2 * x)
  refine (((t1.add t2).const_mul s).sub t3).congr_deriv ?_
  simp only [Pi.pow_apply, hga]
  unfold stmtm0 stmtm1 stmte1
  field_simp
  push_cast
  ring

/-- Bounds on the exponential function. -/
theorem exp_two_fifths : (1.4918246976 : ℝ) ≤ Real.exp 0.4 ∧ Real.exp 0.4 ≤ 1.4918246977 := by
  constructor
  · refine le_trans ?_ (Real.sum_le_exp_of_nonneg (by norm_num) 12)
    simp only [Finset.sum_range_succ, Finset.sum_range_zero, Nat.factorial]
    norm_num
  · refine (Real.exp_bound' (by norm_num) (by norm_num) (n := 12) (by norm_num)).trans ?_
    simp only [Finset.sum_range_succ, Finset.sum_range_zero, Nat.factorial]
    norm_num

/-- `ν coth ν` and `(ν/sinh ν)²` by `exp (2ν)`. -/
theorem coth_exp {ν : ℝ} (hν : 0 < ν) :
    ν / Real.sinh ν * Real.cosh ν = ν * (1 + 2 / (Real.exp (2 * ν) - 1)) ∧
    (ν / Real.sinh ν) ^ 2 = ν ^ 2 * (4 / (Real.exp (2 * ν) - 1) * (1 + 1 / (Real.exp (2 * ν) - 1))) := by
  have h1 : 1 < Real.exp ν := Real.one_lt_exp_iff.mpr hν
  have e2 : Real.exp (2 * ν) = Real.exp ν ^ 2 := by rw [← Real.exp_nat_mul]; push_cast; rfl
  rw [Real.sinh_eq, Real.cosh_eq, Real.exp_neg, e2]
  generalize Real.exp ν = E at h1
  have hE : E ≠ 0 := by linarith
  have h2 : E ^ 2 - 1 ≠ 0 := by nlinarith
  have h3 : E - E⁻¹ ≠ 0 := by
    have : E - E⁻¹ = (E ^ 2 - 1) / E := by field_simp
    rw [this]; exact div_ne_zero h2 hE
  have h3' : E - E⁻¹ = (E ^ 2 - 1) / E := by field_simp
  rw [h3']
  constructor
  · field_simp
    ring
  · field_simp
    ring

/-- The values at the first two temperatures of the test. -/
theorem pec_values : 0.0008 ≤ dipoleFree (5 / 4) (-1) 0.8 - dipoleFree (5 / 4) (-1) 0.4 ∧
    0 < pecPos (0.4 / Real.sinh 0.4 * Real.cosh 0.4) ((0.4 / Real.sinh 0.4) ^ 2) - pecNeg (0.4 / Real.sinh 0.4 * Real.cosh 0.4) ((0.4 / Real.sinh 0.4) ^ 2) ∧
    pecPos (0.4 / Real.sinh 0.4 * Real.cosh 0.4) ((0.4 / Real.sinh 0.4) ^ 2) - pecNeg (0.4 / Real.sinh 0.4 * Real.cosh 0.4) ((0.4 / Real.sinh 0.4) ^ 2) ≤ 0.0002 := by
  obtain ⟨l, u⟩ := exp_two_fifths
  rw [dipoleFree_pecPoly, dipoleFree_pecPoly]
  obtain ⟨a1, q1⟩ := coth_exp (ν := 0.4) (by norm_num)
  obtain ⟨a2, q2⟩ := coth_exp (ν := 0.8) (by norm_num)
  have e1 : Real.exp (2 * 0.4) = Real.exp 0.4 ^ 2 := by rw [← Real.exp_nat_mul]; norm_num
  have e2 : Real.exp (2 * 0.8) = Real.exp 0.4 ^ 4 := by rw [← Real.exp_nat_mul]; norm_num
  rw [e1] at a1 q1
  rw [e2] at a2 q2
  rw [a1, q1, a2, q2]
  generalize Real.exp 0.4 = E at l u
  have x1 : (1.4918246976 : ℝ) ^ 2 - 1 ≤ E ^ 2 - 1 := by gcongr
  have x2 : E ^ 2 - 1 ≤ (1.4918246977 : ℝ) ^ 2 - 1 := by gcongr
  have y1 : (1.4918246976 : ℝ) ^ 4 - 1 ≤ E ^ 4 - 1 := by gcongr
  have y2 : E ^ 4 - 1 ≤ (1.4918246977 : ℝ) ^ 4 - 1 := by gcongr
  generalize E ^ 2 - 1 = x at x1 x2
  generalize E ^ 4 - 1 = y at y1 y2
  have px : 0 < x := lt_of_lt_of_le (by norm_num) x1
  have py : 0 < y := lt_of_lt_of_le (by norm_num) y1
  have ub : ∀ {ν z lo : ℝ}, 0 < ν → 0 < lo → lo ≤ z → ν * (1 + 2 / z) ≤ ν * (1 + 2 / lo) ∧ ν ^ 2 * (4 / z * (1 + 1 / z)) ≤ ν ^ 2 * (4 / lo * (1 + 1 / lo)) := by
    intro ν z lo h1 h2 h3
    have hz := h2.trans_le h3
    constructor <;> gcongr
  have nn : ∀ {ν z : ℝ}, 0 < ν → 0 < z → 0 ≤ ν * (1 + 2 / z) ∧ 0 ≤ ν ^ 2 * (4 / z * (1 + 1 / z)) := fun h1 h2 => ⟨by positivity, by positivity⟩
  have n4 : (0 : ℝ) < 0.4 := by norm_num
  have n8 : (0 : ℝ) < 0.8 := by norm_num
  have p1 : (0 : ℝ) < 1.4918246976 ^ 2 - 1 := by norm_num
  have p2 : (0 : ℝ) < 1.4918246977 ^ 2 - 1 := by norm_num
  have p4 : (0 : ℝ) < 1.4918246977 ^ 4 - 1 := by norm_num
  have U1 := ub n4 p1 x1
  have L1 := ub n4 px x2
  have L2 := ub n8 py y2
  have f1 := pecPoly_mono (nn n4 px).1 (nn n4 px).2 U1.1 U1.2
  have f2 := pecPoly_mono (nn n8 p4).1 (nn n8 p4).2 L2.1 L2.2
  have P1 := pecPos_mono (nn n4 px).1 (nn n4 px).2 U1.1 U1.2
  have P2 := pecPos_mono (nn n4 p2).1 (nn n4 p2).2 L1.1 L1.2
  have N1 := pecNeg_mono (nn n4 px).1 (nn n4 px).2 U1.1 U1.2
  have N2 := pecNeg_mono (nn n4 p2).1 (nn n4 p2).2 L1.1 L1.2
  refine ⟨?_, ?_, ?_⟩
  · refine le_trans ?_ (sub_le_sub f2 f1)
    unfold pecPoly
    norm_num
  · refine lt_of_lt_of_le ?_ (sub_le_sub P2 N1)
    unfold pecPos pecNeg
    norm_num
  · refine le_trans (sub_le_sub P1 N2) ?_
    unfold pecPos pecNeg
    norm_num

end CasSph
