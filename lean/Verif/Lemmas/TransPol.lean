import Verif.Lemmas.RowBounds
import Verif.Lemmas.GauntIntegral
import Verif.Lemmas.Translation
import Verif.Lemmas.Bessel

/-! # The translation coefficients as Laplace integrals of polynomials -/

namespace CasSph

open Polynomial Spec Nat

local notation "D" => Polynomial.derivative

theorem gF_uPol (a b m : ℕ) : gF a b m = C ((-1) ^ m) * (uPol ^ m * (dl a m * dl b m)) := by
  unfold gF dl
  have : wPol = C (-1) * uPol := by unfold wPol uPol; simp
  rw [this, mul_pow, C_pow]
  ring

/-- the product expanded in the Legendre polynomials of the degrees that occur in `gaunt` -/
theorem gF_expansion (l lp m : ℕ) :
    gF l lp m = ∑ i ∈ Finset.range (min l lp + 1), C (gC l lp m (lppMin l lp + 2 * i)) * legendre (lppMin l lp + 2 * i) := by
  have hF : gF l lp m = ∑ k ∈ Finset.range (l + lp + 1), C (gC l lp m k) * legendre k := by
    unfold gC
    refine legendre_expansion fun k hk => ?_
    by_cases hm : m ≤ min l lp
    · exact coeff_eq_zero_of_natDegree_lt (by have := gF_natDegree (l := l) (lp := lp) (m := m) (by omega) (by omega); omega)
    · rw [gF_none (by omega), coeff_zero]
  have hle := lppMin_le l lp
  have hz : ∀ p, (∀ i ≤ min l lp, p ≠ lppMin l lp + 2 * i) → gC l lp m p = 0 := by
    intro p hp
    have h := gauntIntegral_other_nat m hp
    rw [gauntIntegral_gC] at h
    by_cases hm : m ≤ min l lp
    · have hk : gK l lp m ≠ 0 := by
        have hpi := Real.pi_pos
        unfold gK
        have e1 : (0 : ℝ) < ((l - m).factorial : ℝ) := by positivity
        refine mul_ne_zero (mul_ne_zero (mul_ne_zero (pow_ne_zero _ (by norm_num)) ?_) ?_) (by positivity)
        · exact (Real.sqrt_pos.mpr (by positivity)).ne'
        · exact (Real.sqrt_pos.mpr (by positivity)).ne'
      have h4 : Real.sqrt (4 * Real.pi) ≠ 0 := (Real.sqrt_pos.mpr (by positivity)).ne'
      have h5 : Real.sqrt (2 * (p : ℝ) + 1) ≠ 0 := (Real.sqrt_pos.mpr (by positivity)).ne'
      rw [div_eq_zero_iff] at h
      rcases h with h | h
      · exact (mul_eq_zero.mp h).resolve_left (mul_ne_zero h4 hk)
      · exact absurd h h5
    · unfold gC
      rw [gF_none (by omega), zero_mul]
      simp [pint]
  conv_lhs => rw [hF]
  symm
  calc _ = ∑ p ∈ (Finset.range (min l lp + 1)).image (fun i => lppMin l lp + 2 * i), C (gC l lp m p) * legendre p := by
        rw [Finset.sum_image]
        intro a _ b _ hab
        simp only at hab
        omega
    _ = _ := by
        refine Finset.sum_subset ?_ ?_
        · intro p hp
          obtain ⟨i, hi, rfl⟩ := Finset.mem_image.mp hp
          have := Finset.mem_range.mp hi
          exact Finset.mem_range.mpr (by omega)
        · intro p _ hp
          rw [hz, C_0, zero_mul]
          intro i hi he
          exact hp (Finset.mem_image.mpr ⟨i, Finset.mem_range.mpr (by omega), he.symm⟩)

/-- Legendre's operator `((t²-1) p')'` -/
theorem legendre_op (n : ℕ) : D (uPol * D (legendre n)) = C ((n : ℝ) * (n + 1)) * legendre n := by
  have h := legendre_ode n
  unfold legL at h
  have e : uPol * D (legendre n) = -((1 - X ^ 2) * D (legendre n)) := by unfold uPol; ring
  rw [e, derivative_neg, h]
  ring

theorem dl_ode2 (l m : ℕ) : uPol * dl l (m + 2) + C (2 * ((m : ℝ) + 1)) * X * dl l (m + 1) =
    C ((l : ℝ) * (l + 1) - m * (m + 1)) * dl l m := by
  have h := legendre_assoc_ode l m
  rw [dl_succ, dl_succ]
  have e : wPol = -uPol := by unfold wPol uPol; ring
  rw [e] at h
  unfold dl
  linear_combination -h

/-- the polarisation-conserving integrand -/
theorem eePol_ode (a b m : ℕ) :
    C ((a : ℝ) * (a + 1) + b * (b + 1)) * (uPol ^ m * (dl a m * dl b m)) - D (uPol * D (uPol ^ m * (dl a m * dl b m))) =
      -(2 * eePol a b m) := by
  have ha := dl_ode2 a m
  have hb := dl_ode2 b m
  have hu : (X : ℝ[X]) ^ 2 = uPol + 1 := by unfold uPol; ring
  cases m with
  | zero =>
    simp only [eePol, pow_zero, one_mul, derivative_mul, duPol, ← dl_succ, map_add]
    simp only [zero_add, Nat.cast_zero, sub_zero, mul_one] at *
    simp only [map_mul, map_add, map_one, map_ofNat, map_natCast] at *
    linear_combination -dl b 0 * ha - dl a 0 * hb
  | succ m =>
    have e1 : uPol * D (uPol ^ (m + 1) * (dl a (m + 1) * dl b (m + 1))) =
        C (2 * ((m : ℝ) + 1)) * (X * (uPol ^ (m + 1) * (dl a (m + 1) * dl b (m + 1)))) +
          uPol ^ (m + 1 + 1) * (dl a (m + 2) * dl b (m + 1) + dl a (m + 1) * dl b (m + 2)) := by
      rw [derivative_mul, duPol_pow, derivative_mul, ← dl_succ, ← dl_succ]
      ring
    have e2 : D (uPol ^ (m + 1) * (dl a (m + 1) * dl b (m + 1))) =
        C (2 * ((m : ℝ) + 1)) * X * uPol ^ m * (dl a (m + 1) * dl b (m + 1)) +
          uPol ^ (m + 1) * (dl a (m + 2) * dl b (m + 1) + dl a (m + 1) * dl b (m + 2)) := by
      rw [derivative_mul, duPol_pow, derivative_mul, ← dl_succ, ← dl_succ]
    rw [e1, derivative_add, derivative_C_mul, derivative_mul (f := X), derivative_X, e2, derivative_mul, duPol_pow]
    simp only [eePol, derivative_mul, ← dl_succ, map_add, tP]
    simp only [Nat.cast_add, Nat.cast_one, map_mul, map_sub, map_add, map_one, map_ofNat, map_natCast, map_pow] at *
    linear_combination (-uPol ^ (m + 1) * dl b (m + 1)) * ha - uPol ^ (m + 1) * dl a (m + 1) * hb -
      2 * ((m : ℝ[X]) + 1) ^ 2 * uPol ^ m * dl a (m + 1) * dl b (m + 1) * hu

/-- the polarisation-changing integrand -/
theorem emPol_ode (a b m : ℕ) : C (m : ℝ) * D (uPol ^ m * (dl a m * dl b m)) = emPol a b m := by
  cases m with
  | zero => simp [emPol]
  | succ m =>
    simp only [emPol, derivative_mul, duPol_pow, ← dl_succ, tP]
    simp only [Nat.cast_add, Nat.cast_one, map_mul, map_add, map_one, map_ofNat, map_natCast]
    ring

/-- normalisation of the vector spherical harmonics -/
noncomputable def nV (l m : ℕ) : ℝ := Real.sqrt ((2 * l + 1) / (l * (l + 1) * nn l m))

theorem nV_pos {l : ℕ} (hl : 1 ≤ l) (m : ℕ) : 0 < nV l m := by
  unfold nV
  have := nn_pos l m
  have : (0 : ℝ) < l := by exact_mod_cast hl
  exact Real.sqrt_pos.mpr (by positivity)

theorem nV_sq {l : ℕ} (hl : 1 ≤ l) (m : ℕ) : nV l m ^ 2 * nn l m = (2 * l + 1) / (l * (l + 1)) := by
  unfold nV
  have := nn_pos l m
  have : (0 : ℝ) < l := by exact_mod_cast hl
  rw [Real.sq_sqrt (by positivity)]
  field_simp

theorem gK_nV {a b : ℕ} (ha : 1 ≤ a) (hb : 1 ≤ b) (m : ℕ) :
    4 * Real.pi * gK a b m / Real.sqrt ((a : ℝ) * (a + 1) * (b * (b + 1))) = (-1) ^ m * nV a m * nV b m := by
  have hpi := Real.pi_pos
  have ha' : (0 : ℝ) < a := by exact_mod_cast ha
  have hb' : (0 : ℝ) < b := by exact_mod_cast hb
  have na := nn_pos a m
  have nb := nn_pos b m
  have e1 : ((a - m).factorial : ℝ) / (a + m).factorial = 1 / nn a m := by unfold nn; rw [one_div_div]
  have e2 : ((b + m).factorial : ℝ) / (b - m).factorial = nn b m := rfl
  have e3 : ((b - m).factorial : ℝ) / (b + m).factorial = 1 / nn b m := by unfold nn; rw [one_div_div]
  unfold gK nV
  rw [e1, e2, e3]
  have s1 : Real.sqrt ((2 * (a : ℝ) + 1) / (4 * Real.pi) * (1 / nn a m)) * Real.sqrt ((2 * (b : ℝ) + 1) / (4 * Real.pi) * nn b m) =
      Real.sqrt (((2 * a + 1) / (a * (a + 1) * nn a m) * ((2 * b + 1) / (b * (b + 1) * nn b m))) * ((a : ℝ) * (a + 1) * (b * (b + 1))) *
        (nn b m / (4 * Real.pi)) ^ 2) := by
    rw [← Real.sqrt_mul (by positivity)]
    congr 1
    field_simp
  rw [mul_assoc ((-1 : ℝ) ^ m), s1, Real.sqrt_mul (by positivity), Real.sqrt_mul (by positivity), Real.sqrt_sq (by positivity),
    Real.sqrt_mul (x := (2 * (a : ℝ) + 1) / (a * (a + 1) * nn a m)) (by positivity)]
  have s2 : 0 < Real.sqrt ((a : ℝ) * (a + 1) * (b * (b + 1))) := Real.sqrt_pos.mpr (by positivity)
  generalize Real.sqrt ((a : ℝ) * (a + 1) * (b * (b + 1))) = S at *
  field_simp

/-- a term of `common_ab`, unscaled -/
theorem vCommon_ext {x : ℝ} (hx : 0 < x) {bes : List ℝ} {a b : ℕ} (m : ℕ) (hbes : ∀ p ≤ a + b, bes.getD p 0 = lnk1 x p)
    {i : ℕ} (hi : i ≤ min a b) :
    vCommon true m bes a b i * Real.exp (besNorm true bes a b) =
      -((-1) ^ m * (2 * Real.pi * gK a b m / Real.sqrt ((a : ℝ) * (a + 1) * (b * (b + 1))))) *
        (gC a b m (lppMin a b + 2 * i) * (2 / Real.pi * sphK (lppMin a b + 2 * i) x)) := by
  have hle := lppMin_le a b
  have hpi := Real.pi_pos
  unfold vCommon
  rw [hbes _ (by omega), Real.exp_sub, exp_lnk1 hx, gnt_integral_nat a b m hi, gauntIntegral_gC]
  set p := lppMin a b + 2 * i with hp
  unfold commonFac
  simp only [if_true, zpow_one, mul_one, sub_sub_cancel]
  have he := (Real.exp_pos (besNorm true bes a b)).ne'
  have c1 : (0 : ℝ) < 2 * p + 1 := by positivity
  rw [Real.sqrt_div c1.le, show (4 : ℝ) * Real.pi = 2 ^ 2 * Real.pi by norm_num, Real.sqrt_mul (by norm_num),
    Real.sqrt_sq (by norm_num), zpow_natCast]
  have s1 := (Real.sqrt_pos.mpr c1).ne'
  have s2 := Real.mul_self_sqrt hpi.le
  generalize Real.sqrt (2 * (p : ℝ) + 1) = S at *
  generalize Real.sqrt ((a : ℝ) * (a + 1) * (b * (b + 1))) = U at *
  generalize Real.exp (besNorm true bes a b) = W at *
  generalize Real.sqrt Real.pi = Q at *
  have : sphK p x / W * (2 * Q * gK a b m * gC a b m p / S) * (-1 * (-1) ^ m * Q * (S / U) * (2 / Real.pi)) * W =
      sphK p x * (2 * (Q * Q) * gK a b m * gC a b m p) * (-1 * (-1) ^ m * (1 / U) * (2 / Real.pi)) := by
    field_simp
  rw [this, s2]
  ring

theorem vVal_EE_lap {x : ℝ} (hx : 0 < x) {bes : List ℝ} {a b : ℕ} (ha : 1 ≤ a) (hb : 1 ≤ b) (m : ℕ)
    (hbes : ∀ p ≤ a + b, bes.getD p 0 = lnk1 x p) :
    (vVal true m x bes a b).EEab * Real.exp (vVal true m x bes a b).sk = (-1) ^ m * (nV a m * nV b m * lap x (eePol a b m)) := by
  have key : lap x (C ((a : ℝ) * (a + 1) + b * (b + 1)) * gF a b m - D (uPol * D (gF a b m))) =
      ∑ i ∈ Finset.range (min a b + 1), ((a * (a + 1) + b * (b + 1) : ℝ) -
        ((lppMin a b + 2 * i : ℕ) : ℝ) * (((lppMin a b + 2 * i : ℕ) : ℝ) + 1)) *
          (gC a b m (lppMin a b + 2 * i) * (2 / Real.pi * sphK (lppMin a b + 2 * i) x)) := by
    have e : C ((a : ℝ) * (a + 1) + b * (b + 1)) * gF a b m - D (uPol * D (gF a b m)) =
        ∑ i ∈ Finset.range (min a b + 1), C (((a * (a + 1) + b * (b + 1) : ℝ) -
          ((lppMin a b + 2 * i : ℕ) : ℝ) * (((lppMin a b + 2 * i : ℕ) : ℝ) + 1)) * gC a b m (lppMin a b + 2 * i)) *
            legendre (lppMin a b + 2 * i) := by
      rw [gF_expansion, derivative_sum, Finset.mul_sum, Finset.mul_sum, derivative_sum, ← Finset.sum_sub_distrib]
      refine Finset.sum_congr rfl fun i _ => ?_
      rw [derivative_C_mul, mul_left_comm uPol, derivative_C_mul, legendre_op]
      simp only [map_mul, map_sub]
      ring
    rw [e, lap_sum hx]
    refine Finset.sum_congr rfl fun i _ => ?_
    rw [lap_C_mul, lap_legendre hx]
    ring
  have hsgn : ((-1 : ℝ) ^ m) * (-1) ^ m = 1 := by rw [← mul_pow]; simp
  have e2 : C ((a : ℝ) * (a + 1) + b * (b + 1)) * gF a b m - D (uPol * D (gF a b m)) = C (-2 * (-1) ^ m) * eePol a b m := by
    have h := eePol_ode a b m
    rw [gF_uPol, derivative_C_mul, mul_left_comm uPol, derivative_C_mul]
    simp only [map_mul, map_neg, map_ofNat] at *
    linear_combination C ((-1 : ℝ) ^ m) * h
  rw [e2, lap_C_mul] at key
  unfold vVal
  simp only [Finset.sum_mul]
  have hg := gK_nV ha hb m
  calc _ = ∑ i ∈ Finset.range (min a b + 1), -((-1) ^ m * (2 * Real.pi * gK a b m / Real.sqrt ((a : ℝ) * (a + 1) * (b * (b + 1))))) *
        (((a * (a + 1) + b * (b + 1) : ℝ) -
        ((lppMin a b + 2 * i : ℕ) : ℝ) * (((lppMin a b + 2 * i : ℕ) : ℝ) + 1)) *
          (gC a b m (lppMin a b + 2 * i) * (2 / Real.pi * sphK (lppMin a b + 2 * i) x))) := by
        refine Finset.sum_congr rfl fun i hi => ?_
        rw [mul_assoc, vCommon_ext hx m hbes (by have := Finset.mem_range.mp hi; omega)]
        ring
    _ = -((-1) ^ m * (2 * Real.pi * gK a b m / Real.sqrt ((a : ℝ) * (a + 1) * (b * (b + 1))))) * (-2 * (-1) ^ m * lap x (eePol a b m)) := by
        rw [← Finset.mul_sum, ← key]
    _ = (4 * Real.pi * gK a b m / Real.sqrt ((a : ℝ) * (a + 1) * (b * (b + 1)))) * lap x (eePol a b m) * ((-1) ^ m * (-1) ^ m) := by ring
    _ = _ := by rw [hg, hsgn]; ring

theorem vVal_EM_lap {x : ℝ} (hx : 0 < x) {bes : List ℝ} {a b : ℕ} (ha : 1 ≤ a) (hb : 1 ≤ b) (m : ℕ)
    (hbes : ∀ p ≤ a + b, bes.getD p 0 = lnk1 x p) :
    (vVal true m x bes a b).EMab * Real.exp (vVal true m x bes a b).sk = -((-1) ^ m * (nV a m * nV b m * lap x (emPol a b m))) := by
  have key : lap x (gF a b m) = ∑ i ∈ Finset.range (min a b + 1), gC a b m (lppMin a b + 2 * i) *
      (2 / Real.pi * sphK (lppMin a b + 2 * i) x) := by
    conv_lhs => rw [gF_expansion]
    rw [lap_sum hx]
    refine Finset.sum_congr rfl fun i _ => ?_
    rw [lap_C_mul, lap_legendre hx]
  have e2 : lap x (emPol a b m) = m * x * ((-1) ^ m * lap x (gF a b m)) := by
    have hsgn : ((-1 : ℝ) ^ m) * (-1) ^ m = 1 := by rw [← mul_pow]; simp
    rw [← emPol_ode, lap_C_mul, lap_derivative hx, gF_uPol, lap_C_mul, ← mul_assoc ((-1 : ℝ) ^ m), hsgn]
    cases m with
    | zero => simp
    | succ m =>
      have : (uPol ^ (m + 1) * (dl a (m + 1) * dl b (m + 1))).eval 1 = 0 := by
        rw [eval_mul, eval_pow, uPol_eval]; simp
      rw [this]
      ring
  unfold vVal
  simp only [Finset.sum_mul]
  have hg := gK_nV ha hb m
  calc _ = ∑ i ∈ Finset.range (min a b + 1), 2 * (m : ℝ) * x * -((-1) ^ m * (2 * Real.pi * gK a b m / Real.sqrt ((a : ℝ) * (a + 1) * (b * (b + 1))))) *
          (gC a b m (lppMin a b + 2 * i) * (2 / Real.pi * sphK (lppMin a b + 2 * i) x)) := by
        refine Finset.sum_congr rfl fun i hi => ?_
        rw [mul_assoc, vCommon_ext hx m hbes (by have := Finset.mem_range.mp hi; omega)]
        push_cast
        ring
    _ = 2 * (m : ℝ) * x * -((-1) ^ m * (2 * Real.pi * gK a b m / Real.sqrt ((a : ℝ) * (a + 1) * (b * (b + 1))))) * lap x (gF a b m) := by
        rw [← Finset.mul_sum, ← key]
    _ = -((4 * Real.pi * gK a b m / Real.sqrt ((a : ℝ) * (a + 1) * (b * (b + 1)))) * (m * x * ((-1) ^ m * lap x (gF a b m)))) := by ring
    _ = _ := by rw [hg, ← e2]; ring

end CasSph
