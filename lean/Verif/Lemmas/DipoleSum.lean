import Mathlib.Analysis.SpecificLimits.Normed
import Verif.Lemmas.SharpBound
import Verif.Spec.Dipole

/-! # The Matsubara sum and the integral of the dipole interaction in closed form (independent of the model) -/

namespace CasSph

open Spec Filter Topology MeasureTheory Set
open scoped Nat

theorem sharpExp_summable {a : ℝ} (ha : 0 < a) : Summable fun j : ℕ => sharpExp (((j : ℝ) + 1) * a) := by
  have h1 : Real.exp (-a) < 1 := by rw [Real.exp_lt_one_iff]; linarith
  have e1 : Real.exp (-(2 * a)) < 1 := by rw [Real.exp_lt_one_iff]; linarith
  have hg := (summable_geometric_of_lt_one (Real.exp_pos (-a)).le h1).mul_left (1 / Real.sqrt (1 - Real.exp (-(2 * a))))
  refine Summable.of_nonneg_of_le (fun j => sharpExp_nonneg _) (fun j => ?_) hg
  unfold sharpExp
  have hj : a ≤ ((j : ℝ) + 1) * a := by nlinarith [Nat.cast_nonneg (α := ℝ) j]
  have h2 : Real.exp (-(2 * (((j : ℝ) + 1) * a))) ≤ Real.exp (-(2 * a)) := Real.exp_le_exp.mpr (by linarith)
  have h3 : Real.exp (-(((j : ℝ) + 1) * a)) ≤ Real.exp (-a) ^ j := by
    rw [← Real.exp_nat_mul]
    exact Real.exp_le_exp.mpr (by nlinarith)
  rw [one_div_mul_eq_div]
  exact div_le_div₀ (by positivity) h3 (Real.sqrt_pos.mpr (by linarith)) (Real.sqrt_le_sqrt (by linarith))

/-- `y (Φ(0)/2 + Σ_{n≥1} Φ(n y))` in closed form. -/
theorem dipolePhi_sum (s x : ℝ) {y : ℝ} (hy : 0 < y) :
    HasSum (fun j : ℕ => dipolePhi s x (((j : ℝ) + 1) * y))
      ((s * (ftmtm0 (y / Real.sinh y) (Real.cosh y) + ftmtm1 (y / Real.sinh y) (Real.cosh y)) - 2 * x * ftmte1 (y / Real.sinh y) (Real.cosh y)) / y - 3 * s) := by
  set u := Real.exp (-y) with hu
  have u0 : 0 < u := Real.exp_pos _
  have u1 : u < 1 := by rw [hu, Real.exp_lt_one_iff]; linarith
  have q1 : u ^ 2 < 1 := by nlinarith
  have hq : ‖u ^ 2‖ < 1 := by rw [Real.norm_eq_abs, abs_of_pos (by positivity)]; exact q1
  have hS : ∀ k : ℕ, HasSum (fun j : ℕ => ((j + k).choose k : ℝ) * (u ^ 2) ^ j) (1 / (1 - u ^ 2) ^ (k + 1)) :=
    fun k => hasSum_choose_mul_geometric_of_norm_lt_one k hq
  have hsum := (((((hS 0).mul_left (6 * s)).add ((hS 1).mul_left (12 * s * y - (10 * s - 2 * x) * y ^ 2 + (4 * s - 4 * x) * y ^ 3 - (2 * s - 2 * x) * y ^ 4))).add
    ((hS 2).mul_left (2 * (10 * s - 2 * x) * y ^ 2 - 6 * (4 * s - 4 * x) * y ^ 3 + 14 * (2 * s - 2 * x) * y ^ 4))).add
    ((hS 3).mul_left (6 * (4 * s - 4 * x) * y ^ 3 - 36 * (2 * s - 2 * x) * y ^ 4))).add ((hS 4).mul_left (24 * (2 * s - 2 * x) * y ^ 4)) |>.mul_left (u ^ 2)
  have e1 : Real.sinh y = (1 - u ^ 2) / (2 * u) := by
    rw [Real.sinh_eq, ← hu]
    have : Real.exp y = 1 / u := by rw [hu, Real.exp_neg]; simp
    rw [this]; field_simp
  have e2 : Real.cosh y = (1 + u ^ 2) / (2 * u) := by
    rw [Real.cosh_eq, ← hu]
    have : Real.exp y = 1 / u := by rw [hu, Real.exp_neg]; simp
    rw [this]; field_simp
  have c1 : ∀ j : ℕ, ((j + 1).choose 1 : ℝ) = j + 1 := fun j => by rw [Nat.choose_one_right]; push_cast; ring
  have step : ∀ j k : ℕ, ((j + (k + 1)).choose (k + 1) : ℝ) * (k + 1) = (j + k + 1) * ((j + k).choose k : ℝ) := by
    intro j k
    have := Nat.add_one_mul_choose_eq (j + k) k
    have h2 := congrArg (Nat.cast (R := ℝ)) this
    push_cast at h2
    rw [← add_assoc]
    linarith
  have c2 : ∀ j : ℕ, ((j + 2).choose 2 : ℝ) = (j + 2) * (j + 1) / 2 := fun j => by
    have := step j 1; rw [c1] at this; norm_num at this ⊢; linarith
  have c3 : ∀ j : ℕ, ((j + 3).choose 3 : ℝ) = (j + 3) * (j + 2) * (j + 1) / 6 := fun j => by
    have := step j 2; rw [c2] at this; norm_num at this ⊢; linarith
  have c4 : ∀ j : ℕ, ((j + 4).choose 4 : ℝ) = (j + 4) * (j + 3) * (j + 2) * (j + 1) / 24 := fun j => by
    have := step j 3; rw [c3] at this; norm_num at this ⊢; linarith
  convert hsum using 1
  · rfl
  · funext j
    rw [c1, c2, c3, c4, add_zero, Nat.choose_zero_right]
    unfold dipolePhi
    have e : Real.exp (-(2 * (((j : ℝ) + 1) * y))) = u ^ 2 * (u ^ 2) ^ j := by
      rw [hu, ← pow_mul, ← _root_.pow_add, ← Real.exp_nat_mul]
      congr 1
      push_cast
      ring
    rw [e]
    push_cast
    ring
  · rw [e1, e2]
    unfold ftmtm0 ftmtm1 ftmte1
    have h1 : 1 - u ^ 2 ≠ 0 := by linarith
    norm_num
    field_simp
    ring

/-! ## large arguments -/

theorem sharpExp_zero : Tendsto sharpExp atTop (𝓝 0) := by
  have h1 : Tendsto (fun x : ℝ => Real.exp (-x)) atTop (𝓝 0) := Real.tendsto_exp_neg_atTop_nhds_zero
  have h2 : Tendsto (fun x : ℝ => Real.exp (-(2 * x))) atTop (𝓝 0) := Real.tendsto_exp_neg_atTop_nhds_zero.comp (tendsto_id.const_mul_atTop (by norm_num))
  have h3 : Tendsto (fun x : ℝ => Real.sqrt (1 - Real.exp (-(2 * x)))) atTop (𝓝 1) := by
    have := (Real.continuous_sqrt.tendsto _).comp (h2.const_sub 1)
    rwa [sub_zero, Real.sqrt_one] at this
  have := h1.div h3 one_ne_zero
  rw [zero_div] at this
  exact this

/-! ## zero temperature -/

theorem dipole_poly_lim (a b c d e : ℝ) :
    Tendsto (fun y : ℝ => -(Real.exp (-(2 * y)) * (a + b * y + c * y ^ 2 + d * y ^ 3 + e * y ^ 4))) atTop (𝓝 0) := by
  have h : ∀ n : ℕ, Tendsto (fun y : ℝ => y ^ n * Real.exp (-(2 * y))) atTop (𝓝 0) := by
    intro n
    have h1 := Real.tendsto_pow_mul_exp_neg_atTop_nhds_zero n
    refine squeeze_zero' ?_ ?_ h1
    · filter_upwards [eventually_ge_atTop 0] with y hy; positivity
    · filter_upwards [eventually_ge_atTop 0] with y hy
      exact mul_le_mul_of_nonneg_left (Real.exp_le_exp.mpr (by linarith)) (by positivity)
  have := (((((h 0).const_mul a).add ((h 1).const_mul b)).add ((h 2).const_mul c)).add ((h 3).const_mul d)).add ((h 4).const_mul e) |>.neg
  simp only [mul_zero, add_zero, neg_zero] at this
  refine this.congr fun y => ?_
  ring

theorem dipole_poly_integral {a b c d e A B C D E : ℝ} (hA : 2 * A - B = a) (hB : 2 * B - 2 * C = b) (hC : 2 * C - 3 * D = c) (hD : 2 * D - 4 * E = d)
    (hE : 2 * E = e) (h0 : 0 ≤ a ∧ 0 ≤ b ∧ 0 ≤ c ∧ 0 ≤ d ∧ 0 ≤ e) :
    IntegrableOn (fun y : ℝ => Real.exp (-(2 * y)) * (a + b * y + c * y ^ 2 + d * y ^ 3 + e * y ^ 4)) (Ioi 0) ∧
    ∫ y in Ioi (0 : ℝ), Real.exp (-(2 * y)) * (a + b * y + c * y ^ 2 + d * y ^ 3 + e * y ^ 4) = A := by
  obtain ⟨a0, b0, c0, d0, e0⟩ := h0
  have hd : ∀ y : ℝ, HasDerivAt (fun y : ℝ => -(Real.exp (-(2 * y)) * (A + B * y + C * y ^ 2 + D * y ^ 3 + E * y ^ 4)))
      (Real.exp (-(2 * y)) * (a + b * y + c * y ^ 2 + d * y ^ 3 + e * y ^ 4)) y := by
    intro y
    have h1 : HasDerivAt (fun y : ℝ => Real.exp (-(2 * y))) (Real.exp (-(2 * y)) * -(2 * 1)) y := ((hasDerivAt_id y).const_mul 2).neg.exp
    have h2 : HasDerivAt (fun y : ℝ => A + B * y + C * y ^ 2 + D * y ^ 3 + E * y ^ 4) (B * 1 + C * (2 * y) + D * (3 * y ^ 2) + E * (4 * y ^ 3)) y := by
      refine (((((hasDerivAt_id y).const_mul B).const_add A).add ((hasDerivAt_pow 2 y).const_mul C)).add ((hasDerivAt_pow 3 y).const_mul D)).add
        ((hasDerivAt_pow 4 y).const_mul E) |>.congr_deriv ?_
      norm_num
    refine (h1.mul h2).neg.congr_deriv ?_
    rw [← hA, ← hB, ← hC, ← hD, ← hE]
    ring
  have hpos : ∀ y ∈ Ioi (0 : ℝ), 0 ≤ Real.exp (-(2 * y)) * (a + b * y + c * y ^ 2 + d * y ^ 3 + e * y ^ 4) := by
    intro y hy
    have : (0 : ℝ) < y := hy
    positivity
  have hlim := dipole_poly_lim A B C D E
  refine ⟨integrableOn_Ioi_deriv_of_nonneg (hd 0).continuousAt.continuousWithinAt (fun y _ => hd y) hpos hlim, ?_⟩
  rw [integral_Ioi_of_hasDerivAt_of_nonneg (hd 0).continuousAt.continuousWithinAt (fun y _ => hd y) hpos hlim]
  norm_num

theorem dipolePhi_integral (s x : ℝ) {κ : ℝ} (hκ : 0 < κ) : ∫ y in Ioi (0 : ℝ), dipolePhi s x (κ * y) = (23 / 2 * s - 7 / 2 * x) / κ := by
  obtain ⟨i1, v1⟩ := dipole_poly_integral (a := 6) (b := 12) (c := 10) (d := 4) (e := 2) (A := 23 / 2) (B := 17) (C := 11) (D := 4) (E := 1)
    (by norm_num) (by norm_num) (by norm_num) (by norm_num) (by norm_num) (by norm_num)
  obtain ⟨i2, v2⟩ := dipole_poly_integral (a := 0) (b := 0) (c := 2) (d := 4) (e := 2) (A := 7 / 2) (B := 7) (C := 7) (D := 4) (E := 1)
    (by norm_num) (by norm_num) (by norm_num) (by norm_num) (by norm_num) (by norm_num)
  rw [integral_comp_mul_left_Ioi (fun y => dipolePhi s x y) 0 hκ, mul_zero, smul_eq_mul]
  have e : (fun y : ℝ => dipolePhi s x y) = fun y => s * (Real.exp (-(2 * y)) * (6 + 12 * y + 10 * y ^ 2 + 4 * y ^ 3 + 2 * y ^ 4)) -
      x * (Real.exp (-(2 * y)) * (0 + 0 * y + 2 * y ^ 2 + 4 * y ^ 3 + 2 * y ^ 4)) := by
    funext y; unfold dipolePhi; ring
  rw [e, integral_sub (i1.const_mul s) (i2.const_mul x), integral_const_mul, integral_const_mul, v1, v2]
  ring

end CasSph
