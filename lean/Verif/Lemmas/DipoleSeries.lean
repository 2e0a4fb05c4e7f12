import Mathlib.NumberTheory.ModularForms.EisensteinSeries.QExpansion
import Verif.Lemmas.DipoleSum

/-! # The free energy of two dipoles as a series over the poles of the Matsubara sum (independent of the model) -/

namespace CasSph

open Spec Filter Topology Complex
open scoped Nat

/-- `ν²/(ν² + π² n²)`. -/
noncomputable def pole (ν : ℝ) (n : ℤ) : ℝ := ν ^ 2 / (ν ^ 2 + Real.pi ^ 2 * n ^ 2)

/-- Contribution of one pole to `dipoleFree`. -/
noncomputable def dipoleTerm (s x u : ℝ) : ℝ :=
  s * (11 / 2 * u ^ 3 - 18 * u ^ 4 + 24 * u ^ 5) - x * (-(5 / 2) * u ^ 3 - 18 * u ^ 4 + 24 * u ^ 5)

variable {ν : ℝ}

theorem pole_den (hν : 0 < ν) (n : ℤ) : 0 < ν ^ 2 + Real.pi ^ 2 * (n : ℝ) ^ 2 := by positivity

theorem pole_nonneg (ν : ℝ) (n : ℤ) : 0 ≤ pole ν n := by unfold pole; positivity

theorem pole_le_one (hν : 0 < ν) (n : ℤ) : pole ν n ≤ 1 := by
  rw [pole, div_le_one (pole_den hν n)]
  have : 0 ≤ Real.pi ^ 2 * (n : ℝ) ^ 2 := by positivity
  linarith

theorem pole_neg (ν : ℝ) (n : ℤ) : pole ν (-n) = pole ν n := by unfold pole; push_cast; rw [neg_sq]

theorem pole_zero (hν : 0 < ν) : pole ν 0 = 1 := by unfold pole; norm_num; exact hν.ne'

/-- The point `iν/π` of the upper half-plane. -/
noncomputable def polePt (hν : 0 < ν) : UpperHalfPlane := ⟨Complex.I * ((ν / Real.pi : ℝ) : ℂ), by
  rw [Complex.I_mul_im, Complex.ofReal_re]; exact div_pos hν Real.pi_pos⟩

theorem polePt_coe (hν : 0 < ν) : (polePt hν : ℂ) = Complex.I * ((ν / Real.pi : ℝ) : ℂ) := rfl

/-- `iν/(iν + πn)` in terms of its real and imaginary part. -/
theorem ratio_eq (hν : 0 < ν) (n : ℤ) :
    (polePt hν : ℂ) / (polePt hν + n) = ((pole ν n : ℝ) : ℂ) + ((ν * Real.pi * n / (ν ^ 2 + Real.pi ^ 2 * n ^ 2) : ℝ) : ℂ) * Complex.I := by
  have hd : ((ν : ℂ) ^ 2 + (Real.pi : ℂ) ^ 2 * (n : ℂ) ^ 2) ≠ 0 := by
    have := (pole_den hν n).ne'
    exact_mod_cast this
  have hpi : (Real.pi : ℂ) ≠ 0 := by exact_mod_cast Real.pi_ne_zero
  have hz : (polePt hν : ℂ) + n ≠ 0 := by
    have := Complex.integerComplement_add_ne_zero (UpperHalfPlane.coe_mem_integerComplement (polePt hν)) n
    exact this
  rw [div_eq_iff hz, polePt_coe, pole]
  push_cast
  field_simp
  linear_combination (-(ν : ℂ) ^ 2 * Real.pi * n) * Complex.I_sq

theorem pole_sq (hν : 0 < ν) (n : ℤ) :
    (ν * Real.pi * n / (ν ^ 2 + Real.pi ^ 2 * n ^ 2)) ^ 2 = pole ν n - pole ν n ^ 2 := by
  have := (pole_den hν n).ne'
  unfold pole
  field_simp
  ring

theorem ratio_re (hν : 0 < ν) (n : ℤ) : ((polePt hν : ℂ) / (polePt hν + n)).re = pole ν n := by
  have r : ∀ a b : ℝ, ((a : ℂ) + (b : ℂ) * Complex.I).re = a := fun a b => by simp
  rw [ratio_eq]; exact r _ _

theorem pow_re_aux (u v : ℝ) (h : v ^ 2 = u - u ^ 2) :
    (((u : ℂ) + v * Complex.I) ^ 2).re = u * (2 * u - 1) ∧ (((u : ℂ) + v * Complex.I) ^ 3).re = u ^ 2 * (4 * u - 3) ∧
    (((u : ℂ) + v * Complex.I) ^ 4).re = u ^ 2 * (8 * u ^ 2 - 8 * u + 1) ∧ (((u : ℂ) + v * Complex.I) ^ 5).re = u ^ 3 * (16 * u ^ 2 - 20 * u + 5) := by
  have e2 : ((u : ℂ) + v * Complex.I) ^ 2 = ((u ^ 2 - v ^ 2 : ℝ) : ℂ) + ((2 * u * v : ℝ) : ℂ) * Complex.I := by
    push_cast; linear_combination ((v : ℂ) ^ 2) * Complex.I_sq
  have e3 : ((u : ℂ) + v * Complex.I) ^ 3 = ((u ^ 3 - 3 * u * v ^ 2 : ℝ) : ℂ) + ((3 * u ^ 2 * v - v ^ 3 : ℝ) : ℂ) * Complex.I := by
    rw [_root_.pow_succ, e2]; push_cast; linear_combination (2 * (u : ℂ) * v ^ 2) * Complex.I_sq
  have e4 : ((u : ℂ) + v * Complex.I) ^ 4 = ((u ^ 4 - 6 * u ^ 2 * v ^ 2 + v ^ 4 : ℝ) : ℂ) + ((4 * u ^ 3 * v - 4 * u * v ^ 3 : ℝ) : ℂ) * Complex.I := by
    rw [_root_.pow_succ, e3]; push_cast; linear_combination (3 * (u : ℂ) ^ 2 * v ^ 2 - v ^ 4) * Complex.I_sq
  have e5 : ((u : ℂ) + v * Complex.I) ^ 5 = ((u ^ 5 - 10 * u ^ 3 * v ^ 2 + 5 * u * v ^ 4 : ℝ) : ℂ) +
      ((5 * u ^ 4 * v - 10 * u ^ 2 * v ^ 3 + v ^ 5 : ℝ) : ℂ) * Complex.I := by
    rw [_root_.pow_succ, e4]; push_cast; linear_combination (4 * (u : ℂ) ^ 3 * v ^ 2 - 4 * u * v ^ 4) * Complex.I_sq
  have r : ∀ a b : ℝ, ((a : ℂ) + (b : ℂ) * Complex.I).re = a := fun a b => by simp
  have v4 : v ^ 4 = (u - u ^ 2) ^ 2 := by rw [← h]; ring
  rw [e2, e3, e4, e5, r, r, r, r, v4, h]
  refine ⟨by ring, by ring, by ring, by ring⟩

theorem ratio_norm (hν : 0 < ν) (n : ℤ) {k : ℕ} (hk : 1 ≤ k) : ‖((polePt hν : ℂ) / (polePt hν + n)) ^ (k + 1)‖ ≤ pole ν n := by
  have h2 : ‖(polePt hν : ℂ) / (polePt hν + n)‖ ^ 2 = pole ν n := by
    rw [← Complex.normSq_eq_norm_sq, ratio_eq, Complex.normSq_add_mul_I, pole_sq hν]; ring
  have h1 : ‖(polePt hν : ℂ) / (polePt hν + n)‖ ≤ 1 := by
    have := pole_le_one hν n
    rw [← h2] at this
    exact (sq_le_one_iff₀ (norm_nonneg _)).mp this
  rw [norm_pow, ← h2]
  exact pow_le_pow_of_le_one (norm_nonneg _) h1 (by omega)

theorem pole_summable (hν : 0 < ν) : Summable (pole ν) := by
  have h : Summable fun n : ℤ => 1 / (n : ℝ) ^ 2 := Real.summable_one_div_int_pow.mpr one_lt_two
  refine Summable.of_norm_bounded_eventually (g := fun n : ℤ => ν ^ 2 / Real.pi ^ 2 * (1 / (n : ℝ) ^ 2)) (h.mul_left _) ?_
  filter_upwards [(Set.finite_singleton (0 : ℤ)).compl_mem_cofinite] with n hn
  have hn0 : (n : ℝ) ≠ 0 := by exact_mod_cast hn
  rw [Real.norm_eq_abs, abs_of_nonneg (pole_nonneg _ _), pole, div_mul_div_comm, mul_one]
  refine div_le_div_of_nonneg_left (by positivity) (by positivity) (by linarith [sq_nonneg ν])

theorem ratio_pow_hasSum (hν : 0 < ν) {k : ℕ} (hk : 1 ≤ k) :
    HasSum (fun n : ℤ => (((polePt hν : ℂ) / (polePt hν + n)) ^ (k + 1)).re) ((2 * ν) ^ (k + 1) / k ! * ∑' j : ℕ, (j : ℝ) ^ k * Real.exp (-(2 * ν)) ^ j) := by
  have hs : Summable fun n : ℤ => ((polePt hν : ℂ) / (polePt hν + n)) ^ (k + 1) :=
    Summable.of_norm_bounded (pole_summable hν) fun n => ratio_norm hν n hk
  have hq := EisensteinSeries.qExpansion_identity hk (polePt hν)
  have hz := UpperHalfPlane.ne_zero (polePt hν)
  have hpi : (Real.pi : ℂ) ≠ 0 := by exact_mod_cast Real.pi_ne_zero
  have hexp : Complex.exp (2 * Real.pi * Complex.I * (polePt hν : ℂ)) = ((Real.exp (-(2 * ν)) : ℝ) : ℂ) := by
    rw [polePt_coe, Complex.ofReal_exp]
    congr 1
    push_cast
    field_simp
    linear_combination (ν : ℂ) * Complex.I_sq
  have ht : ∑' n : ℤ, ((polePt hν : ℂ) / (polePt hν + n)) ^ (k + 1) = (((2 * ν) ^ (k + 1) / k ! * ∑' j : ℕ, (j : ℝ) ^ k * Real.exp (-(2 * ν)) ^ j : ℝ) : ℂ) := by
    have e1 : ∀ n : ℤ, ((polePt hν : ℂ) / (polePt hν + n)) ^ (k + 1) = (polePt hν : ℂ) ^ (k + 1) * (1 / ((polePt hν : ℂ) + n) ^ (k + 1)) := fun n => by
      rw [div_pow, mul_one_div]
    simp only [e1]
    rw [tsum_mul_left, hq, hexp]
    push_cast
    rw [← mul_assoc]
    congr 1
    have e2 : (polePt hν : ℂ) * (-2 * Real.pi * Complex.I) = 2 * ν := by
      rw [polePt_coe]; push_cast; field_simp; linear_combination (-(ν : ℂ)) * Complex.I_sq
    rw [mul_div_assoc', ← mul_pow, e2]
  have := hs.hasSum
  rw [ht] at this
  have := Complex.hasSum_re this
  rwa [Complex.ofReal_re] at this

/-- `ν coth ν` as a series. -/
theorem pole_hasSum (hν : 0 < ν) : HasSum (fun n : ℕ => 2 * pole ν (n + 1 : ℕ)) (ν * (Real.cosh ν / Real.sinh ν) - 1) := by
  set x : ℂ := (polePt hν : ℂ) with hx
  have hx0 : x ≠ 0 := UpperHalfPlane.ne_zero (polePt hν)
  have hc := cot_series_rep' (UpperHalfPlane.coe_mem_integerComplement (polePt hν))
  rw [← hx] at hc
  have hS : Summable fun n : ℕ => 2 * pole ν (n + 1 : ℕ) := by
    have h1 : Function.Injective fun n : ℕ => ((n + 1 : ℕ) : ℤ) := fun a b h => by simpa using h
    exact ((pole_summable hν).comp_injective h1).mul_left 2
  have e : ∀ n : ℕ, x * (1 / (x - (n + 1)) + 1 / (x + (n + 1))) = ((2 * pole ν (n + 1 : ℕ) : ℝ) : ℂ) := fun n => by
    have h1 := ratio_eq hν ((n + 1 : ℕ) : ℤ)
    have h2 := ratio_eq hν (-((n + 1 : ℕ) : ℤ))
    rw [pole_neg] at h2
    rw [← hx] at h1 h2
    push_cast at h1 h2 ⊢
    rw [mul_add, mul_one_div, mul_one_div, h1, sub_eq_add_neg, h2]
    ring
  have hpi : (Real.pi : ℂ) ≠ 0 := by exact_mod_cast Real.pi_ne_zero
  have hsh : (Real.sinh ν : ℂ) ≠ 0 := by exact_mod_cast (Real.sinh_pos_iff.mpr hν).ne'
  have hcot : x * (Real.pi * Complex.cot (Real.pi * x) - 1 / x) = ((ν * (Real.cosh ν / Real.sinh ν) - 1 : ℝ) : ℂ) := by
    have e1 : (Real.pi : ℂ) * x = ν * Complex.I := by rw [hx, polePt_coe]; push_cast; field_simp
    have e2 : x * (Real.pi * Complex.cot (Real.pi * x) - 1 / x) = (Real.pi * x) * Complex.cot (Real.pi * x) - 1 := by field_simp
    rw [e2, e1, Complex.cot, Complex.cos_mul_I, Complex.sin_mul_I]
    push_cast
    have hI := Complex.I_ne_zero
    rw [Complex.ofReal_sinh] at hsh
    field_simp
  have ht : ∑' n : ℕ, 2 * pole ν (n + 1 : ℕ) = ν * (Real.cosh ν / Real.sinh ν) - 1 := by
    have := congrArg (x * ·) hc
    simp only [← tsum_mul_left, e] at this
    rw [hcot, ← Complex.ofReal_tsum] at this
    exact_mod_cast this.symm
  rw [← ht]
  exact hS.hasSum

theorem dipolePhi_expand (s x : ℝ) (j : ℕ) : dipolePhi s x (((j : ℝ) + 1) * ν) = Real.exp (-(2 * ν)) ^ (j + 1) * (6 * s) + 12 * s * ν * ((((j + 1 : ℕ) : ℝ)) ^ 1 * Real.exp (-(2 * ν)) ^ (j + 1)) +
    (10 * s - 2 * x) * ν ^ 2 * ((((j + 1 : ℕ) : ℝ)) ^ 2 * Real.exp (-(2 * ν)) ^ (j + 1)) + (4 * s - 4 * x) * ν ^ 3 * ((((j + 1 : ℕ) : ℝ)) ^ 3 * Real.exp (-(2 * ν)) ^ (j + 1)) +
    (2 * s - 2 * x) * ν ^ 4 * ((((j + 1 : ℕ) : ℝ)) ^ 4 * Real.exp (-(2 * ν)) ^ (j + 1)) := by
  have e : Real.exp (-(2 * (((j : ℝ) + 1) * ν))) = Real.exp (-(2 * ν)) ^ (j + 1) := by
    rw [← Real.exp_nat_mul]; congr 1; push_cast; ring
  unfold dipolePhi
  rw [e]
  push_cast
  ring

theorem expPow_lt (hν : 0 < ν) : ‖Real.exp (-(2 * ν))‖ < 1 := by
  rw [Real.norm_eq_abs, abs_of_pos (Real.exp_pos _), Real.exp_lt_one_iff]; linarith

theorem powGeom_hasSum (hν : 0 < ν) {k : ℕ} (hk : 1 ≤ k) :
    HasSum (fun j : ℕ => ((j + 1 : ℕ) : ℝ) ^ k * Real.exp (-(2 * ν)) ^ (j + 1)) (∑' j : ℕ, (j : ℝ) ^ k * Real.exp (-(2 * ν)) ^ j) := by
  have := (hasSum_nat_add_iff' 1).mpr (summable_pow_mul_geometric_of_norm_lt_one k (expPow_lt hν)).hasSum
  rw [Finset.sum_range_one, Nat.cast_zero, zero_pow (by omega), zero_mul, sub_zero] at this
  exact this

theorem geom_hasSum (hν : 0 < ν) : HasSum (fun j : ℕ => Real.exp (-(2 * ν)) ^ (j + 1)) ((Real.cosh ν / Real.sinh ν - 1) / 2) := by
  have h := (hasSum_geometric_of_norm_lt_one (expPow_lt hν)).mul_left (Real.exp (-(2 * ν)))
  have e : (Real.cosh ν / Real.sinh ν - 1) / 2 = Real.exp (-(2 * ν)) * (1 - Real.exp (-(2 * ν)))⁻¹ := by
    have hs := (Real.sinh_pos_iff.mpr hν).ne'
    have h1 : Real.exp (-(2 * ν)) < 1 := by rw [Real.exp_lt_one_iff]; linarith
    have h2 : 1 - Real.exp (-(2 * ν)) ≠ 0 := by linarith
    have h3 : Real.exp (-(2 * ν)) = Real.exp (-ν) * Real.exp (-ν) := by rw [← Real.exp_add]; congr 1; ring
    have h4 : Real.exp ν * Real.exp (-ν) = 1 := by rw [← Real.exp_add]; simp
    rw [div_sub_one hs, div_div, ← div_eq_mul_inv, div_eq_div_iff (by positivity) h2, Real.cosh_eq, Real.sinh_eq, h3]
    linear_combination (-Real.exp (-ν)) * h4
  rw [e]
  refine h.congr_fun ?_ 
  intro j
  rw [_root_.pow_succ]; ring

/-- The free energy of two dipoles is a series over the poles. -/
theorem dipoleFree_series (s x : ℝ) (hν : 0 < ν) : HasSum (fun n : ℕ => 2 * dipoleTerm s x (pole ν (n + 1 : ℕ))) (dipoleFree s x ν - (23 / 2 * s - 7 / 2 * x)) := by
  have hsum := dipolePhi_sum s x hν
  have hval : dipoleFree s x ν = ν * (3 * s + ∑' j : ℕ, dipolePhi s x (((j : ℝ) + 1) * ν)) := by
    rw [hsum.tsum_eq, dipoleFree]; field_simp; ring
  have hphi := (((((geom_hasSum hν).mul_right (6 * s)).add ((powGeom_hasSum hν (k := 1) le_rfl).mul_left (12 * s * ν))).add
    ((powGeom_hasSum hν (k := 2) (by norm_num)).mul_left ((10 * s - 2 * x) * ν ^ 2))).add
    ((powGeom_hasSum hν (k := 3) (by norm_num)).mul_left ((4 * s - 4 * x) * ν ^ 3))).add
    ((powGeom_hasSum hν (k := 4) (by norm_num)).mul_left ((2 * s - 2 * x) * ν ^ 4))
  simp only [← dipolePhi_expand] at hphi
  rw [hphi.tsum_eq] at hval
  have pair : ∀ (g : ℝ → ℝ) (k : ℕ) (c : ℝ), (∀ n : ℤ, (((polePt hν : ℂ) / (polePt hν + n)) ^ (k + 1)).re = g (pole ν n)) → g 1 = 1 →
      HasSum (fun n : ℤ => (((polePt hν : ℂ) / (polePt hν + n)) ^ (k + 1)).re) c → HasSum (fun n : ℕ => 2 * g (pole ν (n + 1 : ℕ))) (c - 1) := by
    intro g k c hg g1 hc
    simp only [hg] at hc
    have h1 := hc.nat_add_neg
    have h2 := (hasSum_nat_add_iff' 1).mpr h1
    simp only [Finset.sum_range_one, pole_neg, Nat.cast_zero, pole_zero hν, g1] at h2
    have e : c + 1 - (1 + 1) = c - 1 := by ring
    rw [e] at h2
    refine h2.congr_fun fun n => ?_
    ring
  have hre : ∀ n : ℤ, _ := fun n => pow_re_aux (pole ν n) _ (pole_sq hν n)
  have p2 := pair (fun u => u * (2 * u - 1)) 1 _ (fun n => by rw [ratio_eq]; exact (hre n).1) (by norm_num) (ratio_pow_hasSum hν (by norm_num))
  have p3 := pair (fun u => u ^ 2 * (4 * u - 3)) 2 _ (fun n => by rw [ratio_eq]; exact (hre n).2.1) (by norm_num) (ratio_pow_hasSum hν (by norm_num))
  have p4 := pair (fun u => u ^ 2 * (8 * u ^ 2 - 8 * u + 1)) 3 _ (fun n => by rw [ratio_eq]; exact (hre n).2.2.1) (by norm_num) (ratio_pow_hasSum hν (by norm_num))
  have p5 := pair (fun u => u ^ 3 * (16 * u ^ 2 - 20 * u + 5)) 4 _ (fun n => by rw [ratio_eq]; exact (hre n).2.2.2) (by norm_num) (ratio_pow_hasSum hν (by norm_num))
  have tot := (((((pole_hasSum hν).mul_left (3 * s)).add (p2.mul_left (3 * s))).add (p3.mul_left ((10 * s - 2 * x) / 4))).add
    (p4.mul_left ((4 * s - 4 * x) * 3 / 8))).add (p5.mul_left ((2 * s - 2 * x) * 3 / 4))
  convert tot using 1
  · rfl
  · funext n
    unfold dipoleTerm
    ring
  · rw [hval]
    simp only [Nat.factorial]
    push_cast
    ring

/-! ## Monotonicity -/

theorem pole_lt {ν' : ℝ} (hν : 0 < ν) (h : ν < ν') {n : ℤ} (hn : n ≠ 0) : pole ν n < pole ν' n := by
  have hn0 : (0 : ℝ) < Real.pi ^ 2 * (n : ℝ) ^ 2 := by
    have : (n : ℝ) ≠ 0 := by exact_mod_cast hn
    positivity
  unfold pole
  rw [div_lt_div_iff₀ (by positivity) (by positivity)]
  have : ν ^ 2 < ν' ^ 2 := by nlinarith
  nlinarith

theorem pole_lt_one (hν : 0 < ν) {n : ℤ} (hn : n ≠ 0) : pole ν n < 1 := by
  have hn0 : (0 : ℝ) < Real.pi ^ 2 * (n : ℝ) ^ 2 := by
    have : (n : ℝ) ≠ 0 := by exact_mod_cast hn
    positivity
  rw [pole, div_lt_one (by positivity)]
  linarith

theorem dipoleTerm_deriv (s x u : ℝ) :
    HasDerivAt (dipoleTerm s x) (u ^ 2 * (s * (33 / 2 - 72 * u + 120 * u ^ 2) - x * (-(15 / 2) - 72 * u + 120 * u ^ 2))) u := by
  have h : ∀ n : ℕ, HasDerivAt (fun u : ℝ => u ^ n) (n * u ^ (n - 1)) u := fun n => hasDerivAt_pow n u
  have := (((((h 3).const_mul (11 / 2)).sub ((h 4).const_mul 18)).add ((h 5).const_mul 24)).const_mul s).sub
    (((((h 3).const_mul (-(5 / 2))).sub ((h 4).const_mul 18)).add ((h 5).const_mul 24)).const_mul x)
  refine (this.congr_deriv ?_).congr_of_eventuallyEq (.of_forall fun u => ?_)
  · push_cast; ring
  · simp only [dipoleTerm, Pi.sub_apply, Pi.add_apply]

theorem dipoleTerm_mono : StrictMonoOn (dipoleTerm 1 0) (Set.Icc 0 1) := by
  refine strictMonoOn_of_deriv_pos (convex_Icc 0 1) (fun u _ => (dipoleTerm_deriv 1 0 u).continuousAt.continuousWithinAt) fun u hu => ?_
  rw [interior_Icc] at hu
  rw [(dipoleTerm_deriv 1 0 u).deriv]
  have := hu.1
  refine mul_pos (by positivity) ?_
  nlinarith [sq_nonneg (u - 3 / 10)]

/-- Without magnetic polarisabilities the free energy of two dipoles of the same sign falls with the temperature. -/
theorem dipoleFree_mono {ν' : ℝ} (hν : 0 < ν) (h : ν < ν') : dipoleFree 1 0 ν < dipoleFree 1 0 ν' := by
  have h1 := dipoleFree_series 1 0 hν
  have h2 := dipoleFree_series 1 0 (hν.trans h)
  have key : ∀ n : ℕ, 2 * dipoleTerm 1 0 (pole ν (n + 1 : ℕ)) < 2 * dipoleTerm 1 0 (pole ν' (n + 1 : ℕ)) := fun n => by
    have hn : ((n + 1 : ℕ) : ℤ) ≠ 0 := by positivity
    have := dipoleTerm_mono ⟨pole_nonneg ν _, pole_le_one hν _⟩ ⟨pole_nonneg ν' _, pole_le_one (hν.trans h) _⟩ (pole_lt hν h hn)
    linarith
  have := hasSum_lt (fun n => (key n).le) (key 0) h1 h2
  linarith

theorem dipoleFree_smul (c s x ν : ℝ) : dipoleFree (c * s) (c * x) ν = c * dipoleFree s x ν := by
  unfold dipoleFree; ring

/-! ### with magnetic polarisabilities -/

/-- All poles in terms of the first one. -/
theorem pole_mobius (hν : 0 < ν) (n : ℕ) :
    pole ν (n : ℕ) = pole ν (1 : ℕ) / (pole ν (1 : ℕ) + (n : ℝ) ^ 2 * (1 - pole ν (1 : ℕ))) := by
  have h1 := (pole_den hν 1).ne'
  have hn := (pole_den hν n).ne'
  have hpi := Real.pi_pos
  unfold pole
  push_cast at *
  have e : ν ^ 2 / (ν ^ 2 + Real.pi ^ 2 * 1 ^ 2) + (n : ℝ) ^ 2 * (1 - ν ^ 2 / (ν ^ 2 + Real.pi ^ 2 * 1 ^ 2)) =
      (ν ^ 2 + Real.pi ^ 2 * (n : ℝ) ^ 2) / (ν ^ 2 + Real.pi ^ 2 * 1 ^ 2) := by field_simp; ring
  rw [e]
  field_simp

theorem mobius_cube {u u' N : ℝ} (h0 : 0 ≤ u) (h : u ≤ u') (h1 : u' ≤ 1 / 2) (hN : 1 ≤ N) :
    0 ≤ u / (u + N * (1 - u)) ∧ u / (u + N * (1 - u)) ≤ u' / (u' + N * (1 - u')) ∧ u' / (u' + N * (1 - u')) ≤ 1 / 2 ∧
    (u' / (u' + N * (1 - u'))) ^ 3 - (u / (u + N * (1 - u))) ^ 3 ≤ 16 * N / (1 + N) ^ 4 * (u' ^ 3 - u ^ 3) := by
  have d : (1 + N) / 2 ≤ u + N * (1 - u) := by nlinarith
  have d' : (1 + N) / 2 ≤ u' + N * (1 - u') := by nlinarith
  have dp : 0 < u + N * (1 - u) := by linarith
  have dp' : 0 < u' + N * (1 - u') := by linarith
  have b : ∀ v : ℝ, 0 ≤ v → v ≤ 1 / 2 → v / (v + N * (1 - v)) ≤ 2 / (1 + N) * v := fun v hv hv1 => by
    have dv : (1 + N) / 2 ≤ v + N * (1 - v) := by nlinarith
    rw [div_le_iff₀ (by linarith), mul_assoc, div_mul_eq_mul_div, le_div_iff₀ (by linarith)]
    nlinarith
  have hm : u' / (u' + N * (1 - u')) - u / (u + N * (1 - u)) = N * (u' - u) / ((u' + N * (1 - u')) * (u + N * (1 - u))) := by
    rw [div_sub_div _ _ dp'.ne' dp.ne']; congr 1; ring
  have hm0 : 0 ≤ u' / (u' + N * (1 - u')) - u / (u + N * (1 - u)) := by
    rw [hm]; have : 0 ≤ u' - u := by linarith
    positivity
  have hm1 : u' / (u' + N * (1 - u')) - u / (u + N * (1 - u)) ≤ 4 * N / (1 + N) ^ 2 * (u' - u) := by
    rw [hm, div_le_iff₀ (by positivity), div_mul_eq_mul_div, div_mul_eq_mul_div, le_div_iff₀ (by positivity)]
    have : (1 + N) ^ 2 ≤ 4 * ((u' + N * (1 - u')) * (u + N * (1 - u))) := by nlinarith
    have h3 : 0 ≤ N * (u' - u) := mul_nonneg (by linarith) (by linarith)
    nlinarith
  have b1 := b u h0 (h.trans h1)
  have b2 := b u' (h0.trans h) h1
  refine ⟨by positivity, by linarith, ?_, ?_⟩
  · refine b2.trans ?_
    rw [div_mul_eq_mul_div, div_le_iff₀ (by linarith)]
    linarith
  · set m := u / (u + N * (1 - u))
    set m' := u' / (u' + N * (1 - u'))
    have m0 : 0 ≤ m := by positivity
    have m0' : 0 ≤ m' := by linarith
    have c0 : 0 ≤ 2 / (1 + N) := by positivity
    have e : m' ^ 3 - m ^ 3 = (m' - m) * (m' ^ 2 + m' * m + m ^ 2) := by ring
    have e' : 16 * N / (1 + N) ^ 4 * (u' ^ 3 - u ^ 3) = (4 * N / (1 + N) ^ 2 * (u' - u)) * ((2 / (1 + N) * u') ^ 2 + (2 / (1 + N) * u') * (2 / (1 + N) * u) + (2 / (1 + N) * u) ^ 2) := by
      field_simp; ring
    rw [e, e']
    have p1 := pow_le_pow_left₀ m0 b1 2
    have p2 := pow_le_pow_left₀ m0' b2 2
    have p3 := mul_le_mul b2 b1 m0 (mul_nonneg c0 (h0.trans h))
    exact mul_le_mul hm1 (by linarith) (by positivity) (hm0.trans hm1)

theorem quintic_anti : AntitoneOn (fun m : ℝ => -m ^ 4 + 4 / 3 * m ^ 5) (Set.Icc 0 (1 / 2)) := by
  refine antitoneOn_of_deriv_nonpos (convex_Icc _ _) (by fun_prop) (by fun_prop) fun u hu => ?_
  rw [interior_Icc] at hu
  have hd : HasDerivAt (fun m : ℝ => -m ^ 4 + 4 / 3 * m ^ 5) (-(4 * u ^ 3) + 4 / 3 * (5 * u ^ 4)) u := by
    have := ((hasDerivAt_pow 4 u).neg).add ((hasDerivAt_pow 5 u).const_mul (4 / 3))
    refine this.congr_deriv ?_
    push_cast; ring
  rw [hd.deriv]
  have h3 : 0 < u ^ 3 := pow_pos hu.1 3
  have e : -(4 * u ^ 3) + 4 / 3 * (5 * u ^ 4) = u ^ 3 * (20 / 3 * u - 4) := by ring
  rw [e]
  exact mul_nonpos_of_nonneg_of_nonpos h3.le (by linarith [hu.2])

theorem head_anti {A B lo hi : ℝ} (hlo : 0 < lo) (hh : ∀ u, lo < u → u < hi → 3 * (A * (753 / 625)) - 4 * B * u + 20 / 3 * B * u ^ 2 < 0) :
    StrictAntiOn (fun u : ℝ => A * (753 / 625) * u ^ 3 - B * u ^ 4 + 4 / 3 * B * u ^ 5) (Set.Icc lo hi) := by
  refine strictAntiOn_of_deriv_neg (convex_Icc _ _) (by fun_prop) fun u hu => ?_
  rw [interior_Icc] at hu
  have hd : HasDerivAt (fun u : ℝ => A * (753 / 625) * u ^ 3 - B * u ^ 4 + 4 / 3 * B * u ^ 5)
      (u ^ 2 * (3 * (A * (753 / 625)) - 4 * B * u + 20 / 3 * B * u ^ 2)) u := by
    have := (((hasDerivAt_pow 3 u).const_mul (A * (753 / 625))).sub ((hasDerivAt_pow 4 u).const_mul B)).add ((hasDerivAt_pow 5 u).const_mul (4 / 3 * B))
    refine this.congr_deriv ?_
    push_cast; ring
  rw [hd.deriv]
  have : 0 < u := hlo.trans hu.1
  exact mul_neg_of_pos_of_neg (by positivity) (hh u hu.1 hu.2)

theorem telescope_hasSum : HasSum (fun j : ℕ => 1 / (((j : ℝ) + 1) * (j + 2))) 1 := by
  rw [hasSum_iff_tendsto_nat_of_nonneg (fun j => by positivity)]
  have e : ∀ n : ℕ, ∑ j ∈ Finset.range n, 1 / (((j : ℝ) + 1) * (j + 2)) = 1 - 1 / ((n : ℝ) + 1) := fun n => by
    induction n with
    | zero => simp
    | succ n ih => rw [Finset.sum_range_succ, ih]; push_cast; field_simp; ring
  simp only [e]
  simpa using (tendsto_one_div_add_atTop_nhds_zero_nat (𝕜 := ℝ)).const_sub 1

theorem kappa_le (j : ℕ) : 16 * ((j + 2 : ℕ) : ℝ) ^ 2 / (1 + ((j + 2 : ℕ) : ℝ) ^ 2) ^ 4 ≤ 128 / 625 * (1 / (((j : ℝ) + 1) * (j + 2))) := by
  have hj : (0 : ℝ) ≤ j := Nat.cast_nonneg j
  rw [mul_one_div, div_le_div_iff₀ (by positivity) (by positivity)]
  push_cast
  generalize (j : ℝ) = t at hj
  have p1 : 25 / 4 * (t + 2) ^ 2 ≤ (1 + (t + 2) ^ 2) ^ 2 := by nlinarith [mul_nonneg hj hj, mul_nonneg hj (mul_nonneg hj hj), mul_nonneg (mul_nonneg hj hj) (mul_nonneg hj hj)]
  have p2 : 25 / 2 * ((t + 1) * (t + 2)) ≤ (1 + (t + 2) ^ 2) ^ 2 := by
    nlinarith [mul_nonneg hj hj, mul_nonneg hj (mul_nonneg hj hj), mul_nonneg (mul_nonneg hj hj) (mul_nonneg hj hj)]
  have p3 := mul_le_mul p1 p2 (by positivity) (by positivity)
  nlinarith

/-- With magnetic polarisabilities the free energy may rise with the temperature. -/
theorem dipoleFree_anti {s x ν' lo hi : ℝ} (hA : 0 ≤ 11 / 2 * s + 5 / 2 * x) (hB : 0 ≤ s - x) (hlo : 0 < lo) (hhi : hi ≤ 1 / 2)
    (hh : ∀ u, lo < u → u < hi → 3 * ((11 / 2 * s + 5 / 2 * x) * (753 / 625)) - 4 * (18 * (s - x)) * u + 20 / 3 * (18 * (s - x)) * u ^ 2 < 0)
    (hν : 0 < ν) (h : ν < ν') (h1 : lo ≤ pole ν (1 : ℕ)) (h2 : pole ν' (1 : ℕ) ≤ hi) : dipoleFree s x ν' < dipoleFree s x ν := by
  have hν' := hν.trans h
  set u := pole ν (1 : ℕ) with hu
  set u' := pole ν' (1 : ℕ) with hu'
  have huu : u < u' := pole_lt hν h (by norm_num)
  set A := 11 / 2 * s + 5 / 2 * x with hAd
  set B := 18 * (s - x) with hBd
  have hT : ∀ v, dipoleTerm s x v = A * v ^ 3 + B * (-v ^ 4 + 4 / 3 * v ^ 5) := fun v => by rw [dipoleTerm, hAd, hBd]; ring
  have s1 := (hasSum_nat_add_iff' 1).mpr (dipoleFree_series s x hν)
  have s2 := (hasSum_nat_add_iff' 1).mpr (dipoleFree_series s x hν')
  rw [Finset.sum_range_one] at s1 s2
  have hdiff := s2.sub s1
  have hc0 : 0 ≤ u' ^ 3 - u ^ 3 := by
    have := pow_le_pow_left₀ (pole_nonneg ν (1 : ℕ)) huu.le 3
    linarith
  have htel := telescope_hasSum.mul_left (2 * A * (128 / 625 * (u' ^ 3 - u ^ 3)))
  have hle := hasSum_le (fun j : ℕ => ?_) hdiff htel
  · have hd := head_anti (A := A) (B := B) hlo hh ⟨h1, huu.le.trans h2⟩ ⟨h1.trans huu.le, h2⟩ huu
    simp only at hd
    rw [show ((0 + 1 : ℕ) : ℤ) = ((1 : ℕ) : ℤ) from rfl, ← hu, ← hu', hT, hT, mul_one] at hle
    nlinarith
  · have m := pole_mobius hν (j + 2)
    have m' := pole_mobius hν' (j + 2)
    rw [← hu] at m
    rw [← hu'] at m'
    obtain ⟨q0, q1, q2, q3⟩ := mobius_cube (N := ((j + 2 : ℕ) : ℝ) ^ 2) (pole_nonneg ν (1 : ℕ)) huu.le (h2.trans hhi) (by
      have : (1 : ℝ) ≤ ((j + 2 : ℕ) : ℝ) := by exact_mod_cast (by omega : 1 ≤ j + 2)
      nlinarith)
    rw [← hu, ← m] at q0 q1 q3
    rw [← m'] at q1 q2 q3
    have qa := quintic_anti ⟨q0, q1.trans q2⟩ ⟨q0.trans q1, q2⟩ q1
    simp only at qa
    have k := mul_le_mul_of_nonneg_right (kappa_le j) hc0
    have k2 := mul_le_mul_of_nonneg_left (q3.trans k) hA
    have k3 := mul_le_mul_of_nonneg_left qa (show 0 ≤ B by rw [hBd]; linarith)
    rw [hT, hT]
    nlinarith

end CasSph
