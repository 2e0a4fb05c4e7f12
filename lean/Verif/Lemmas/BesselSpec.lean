import Verif.Spec.Bessel
import Mathlib.Analysis.SpecialFunctions.Trigonometric.Series
import Mathlib.Analysis.SpecialFunctions.Trigonometric.Deriv
import Mathlib.Analysis.SpecialFunctions.Trigonometric.DerivHyp
import Mathlib.Analysis.Calculus.Deriv.MeanValue
import Mathlib.Analysis.Calculus.Deriv.Inv
import Mathlib.Analysis.Calculus.Deriv.Pow
import Mathlib.Analysis.SpecialFunctions.ExpDeriv
import Mathlib.Tactic.FieldSimp
import Mathlib.Tactic.LinearCombination
import Mathlib.Data.Nat.Factorial.Basic

/-! # Facts about the modified spherical Bessel functions -/

namespace CasSph

open Spec Nat

/-! ## `k_l` -/

/-- Coefficients of the Bessel polynomial. -/
noncomputable def besC (l j : ℕ) : ℝ := ((l + j).descFactorial (2 * j) : ℝ) / (j ! : ℝ)

theorem besC_zero (l : ℕ) : besC l 0 = 1 := by simp [besC]

theorem besC_gt {l j : ℕ} (h : l < j) : besC l j = 0 := by
  have : (l + j).descFactorial (2 * j) = 0 := Nat.descFactorial_eq_zero_iff_lt.mpr (by omega)
  simp [besC, this]

theorem besC_eq {l j : ℕ} (h : j ≤ l) : besC l j = ((l + j)! : ℝ) / ((j ! : ℝ) * ((l - j)! : ℝ)) := by
  have h1 : (l - j)! * (l + j).descFactorial (2 * j) = (l + j)! := by
    have := Nat.factorial_mul_descFactorial (n := l + j) (k := 2 * j) (by omega)
    rwa [show l + j - 2 * j = l - j by omega] at this
  have h2 : ((l - j)! : ℝ) * ((l + j).descFactorial (2 * j) : ℝ) = ((l + j)! : ℝ) := by exact_mod_cast h1
  have h3 : ((l - j)! : ℝ) ≠ 0 := by exact_mod_cast (Nat.factorial_ne_zero _)
  have h4 : (j ! : ℝ) ≠ 0 := by exact_mod_cast (Nat.factorial_ne_zero _)
  unfold besC
  rw [← h2]
  field_simp

theorem besC_nonneg (l j : ℕ) : 0 ≤ besC l j := by unfold besC; positivity

theorem besC_rec (l j : ℕ) : besC (l + 2) (j + 1) = besC l (j + 1) + 2 * (2 * l + 3) * besC (l + 1) j := by
  have e1 : ((l + 2 + (j + 1)).descFactorial (2 * (j + 1)) : ℝ) =
      (l + j + 3) * (l + j + 2) * ((l + 1 + j).descFactorial (2 * j) : ℝ) := by
    rw [show l + 2 + (j + 1) = l + 1 + j + 1 + 1 by omega, show 2 * (j + 1) = 2 * j + 1 + 1 by omega,
      Nat.succ_descFactorial_succ, Nat.succ_descFactorial_succ]
    push_cast; ring
  have e2 : ((l + (j + 1)).descFactorial (2 * (j + 1)) : ℝ) =
      ((l : ℝ) - j) * (l - j + 1) * ((l + 1 + j).descFactorial (2 * j) : ℝ) := by
    rw [show l + (j + 1) = l + 1 + j by omega, show 2 * (j + 1) = 2 * j + 1 + 1 by omega,
      Nat.descFactorial_succ, Nat.descFactorial_succ]
    rcases lt_trichotomy j (l + 1) with h | h | h
    · rw [Nat.cast_mul, Nat.cast_mul, Nat.cast_sub (by omega), Nat.cast_sub (by omega)]
      push_cast; ring
    · subst h
      rw [show l + 1 + (l + 1) - (2 * (l + 1) + 1) = 0 by omega]
      push_cast; ring
    · have : (l + 1 + j).descFactorial (2 * j) = 0 := Nat.descFactorial_eq_zero_iff_lt.mpr (by omega)
      simp [this]
  have h4 : (j ! : ℝ) ≠ 0 := by exact_mod_cast (Nat.factorial_ne_zero _)
  have h5 : ((j : ℝ) + 1) ≠ 0 := by positivity
  unfold besC
  rw [e1, e2, Nat.factorial_succ]
  push_cast
  field_simp
  ring

/-- The Bessel polynomial in `y = 1/(2x)`. -/
noncomputable def besP (l : ℕ) (y : ℝ) : ℝ := ∑ j ∈ Finset.range (l + 1), besC l j * y ^ j

theorem besP_ext (l n : ℕ) (h : l + 1 ≤ n) (y : ℝ) : ∑ j ∈ Finset.range n, besC l j * y ^ j = besP l y := by
  unfold besP
  refine (Finset.sum_subset (Finset.range_mono h) ?_).symm
  intro j _ hj
  rw [besC_gt (by simp at hj; omega), zero_mul]

theorem besP_rec (l : ℕ) (y : ℝ) : besP (l + 2) y = besP l y + 2 * (2 * l + 3) * y * besP (l + 1) y := by
  rw [← besP_ext l (l + 3) (by omega), besP, Finset.sum_range_succ' _ (l + 2),
    Finset.sum_range_succ' _ (l + 2), ← besP_ext (l + 1) (l + 2) le_rfl, Finset.mul_sum]
  simp only [besC_rec, besC_zero]
  have : ∀ j, (besC l (j + 1) + 2 * (2 * (l : ℝ) + 3) * besC (l + 1) j) * y ^ (j + 1)
      = besC l (j + 1) * y ^ (j + 1) + 2 * (2 * l + 3) * y * (besC (l + 1) j * y ^ j) := by
    intro j; ring
  simp only [this, Finset.sum_add_distrib]
  ring

theorem besP_pos (l : ℕ) {y : ℝ} (hy : 0 ≤ y) : 0 < besP l y := by
  unfold besP
  rw [Finset.sum_range_succ']
  have : 0 ≤ ∑ j ∈ Finset.range l, besC l (j + 1) * y ^ (j + 1) :=
    Finset.sum_nonneg (fun j _ => mul_nonneg (besC_nonneg _ _) (by positivity))
  rw [besC_zero]; simp; linarith

theorem sphK_eq (l : ℕ) (x : ℝ) : sphK l x = Real.pi / 2 * Real.exp (-x) / x * besP l (1 / (2 * x)) := by
  unfold sphK besP
  congr 1
  refine Finset.sum_congr rfl (fun j hj => ?_)
  have hj' : j ≤ l := by simp at hj; omega
  rw [besC_eq hj', one_div, inv_pow, div_mul_eq_div_div _ _ ((2 * x) ^ j), div_eq_mul_inv _ ((2 * x) ^ j)]

theorem sphK_zero (x : ℝ) : sphK 0 x = Real.pi / 2 * Real.exp (-x) / x := by
  rw [sphK_eq]; simp [besP, besC_zero]

theorem sphK_one {x : ℝ} (hx : x ≠ 0) : sphK 1 x = Real.pi / 2 * Real.exp (-x) * (x + 1) / x ^ 2 := by
  rw [sphK_eq]
  have : besC 1 1 = 2 := by simp [besC, Nat.descFactorial]
  simp only [besP, Finset.sum_range_succ, besC_zero, this]
  simp
  field_simp

theorem sphK_rec (l : ℕ) {x : ℝ} (hx : x ≠ 0) : sphK (l + 2) x = sphK l x + (2 * l + 3) / x * sphK (l + 1) x := by
  simp only [sphK_eq, besP_rec]
  field_simp

theorem sphK_pos (l : ℕ) {x : ℝ} (hx : 0 < x) : 0 < sphK l x := by
  rw [sphK_eq]
  have := besP_pos l (y := 1 / (2 * x)) (by positivity)
  positivity

theorem sphK_lt_succ (l : ℕ) {x : ℝ} (hx : 0 < x) : sphK l x < sphK (l + 1) x := by
  induction l with
  | zero =>
    rw [sphK_zero, sphK_one hx.ne', ← sub_pos]
    have : Real.pi / 2 * Real.exp (-x) * (x + 1) / x ^ 2 - Real.pi / 2 * Real.exp (-x) / x =
        Real.pi / 2 * Real.exp (-x) / x ^ 2 := by field_simp; ring
    rw [this]; positivity
  | succ l ih =>
    rw [sphK_rec l hx.ne']
    -- k_{l+2} - k_{l+1} = (2l+3)/x k_{l+1} - (k_{l+1} - k_l); use k_{l+1} ≥ ... via the polynomial
    have hP : besP (l + 1) (1 / (2 * x)) < besP (l + 2) (1 / (2 * x)) := by
      rw [← besP_ext (l + 1) (l + 3) (by omega)]
      unfold besP
      have hy : (0 : ℝ) < 1 / (2 * x) := by positivity
      refine Finset.sum_lt_sum (fun j hj => ?_) ⟨l + 2, by simp, ?_⟩
      · refine mul_le_mul_of_nonneg_right ?_ (by positivity)
        unfold besC
        refine div_le_div_of_nonneg_right ?_ (by positivity)
        exact_mod_cast Nat.descFactorial_le _ (by omega)
      · rw [besC_gt (by omega), zero_mul]
        refine mul_pos ?_ (by positivity)
        rw [besC_eq le_rfl]; positivity
    rw [← sphK_rec l hx.ne', sphK_eq, sphK_eq]
    exact mul_lt_mul_of_pos_left hP (by positivity)

theorem sphK_mono {l l' : ℕ} (h : l ≤ l') {x : ℝ} (hx : 0 < x) : sphK l x ≤ sphK l' x :=
  monotone_nat_of_le_succ (f := fun l => sphK l x) (fun l => (sphK_lt_succ l hx).le) h

/-! ## `i_l` -/

/-- Term of the power series. -/
noncomputable def iTerm (l : ℕ) (x : ℝ) (n : ℕ) : ℝ :=
  x ^ (l + 2 * n) / (2 ^ n * (n ! : ℝ) * ((2 * (l + n) + 1)‼ : ℝ))

theorem dfac_pos (n : ℕ) : (0 : ℝ) < (n‼ : ℝ) := by exact_mod_cast Nat.doubleFactorial_pos n

theorem one_le_dfac (n : ℕ) : (1 : ℝ) ≤ (n‼ : ℝ) := by exact_mod_cast Nat.doubleFactorial_pos n

theorem iTerm_abs_le (l : ℕ) (x : ℝ) (n : ℕ) : |iTerm l x n| ≤ |x| ^ l * ((x ^ 2) ^ n / (n ! : ℝ)) := by
  unfold iTerm
  have h1 := one_le_dfac (2 * (l + n) + 1)
  have h2 : (1 : ℝ) ≤ 2 ^ n := one_le_pow₀ (by norm_num)
  have hf : (0 : ℝ) < (n ! : ℝ) := by positivity
  rw [abs_div, abs_of_pos (by positivity : (0 : ℝ) < 2 ^ n * (n ! : ℝ) * ((2 * (l + n) + 1)‼ : ℝ)), abs_pow, pow_add,
    pow_mul, sq_abs, mul_div_assoc]
  refine mul_le_mul_of_nonneg_left ?_ (by positivity)
  refine div_le_div_of_nonneg_left (by positivity) hf ?_
  calc (n ! : ℝ) = 1 * (n ! : ℝ) * 1 := by ring
    _ ≤ _ := by gcongr

theorem iTerm_summable (l : ℕ) (x : ℝ) : Summable (iTerm l x) := by
  refine Summable.of_norm_bounded (g := fun n => |x| ^ l * ((x ^ 2) ^ n / (n ! : ℝ))) ?_ (fun n => iTerm_abs_le l x n)
  exact (Real.summable_pow_div_factorial (x ^ 2)).mul_left _

theorem sphI_hasSum (l : ℕ) (x : ℝ) : HasSum (iTerm l x) (sphI l x) := (iTerm_summable l x).hasSum

theorem iTerm_rec_zero (l : ℕ) (x : ℝ) : x * iTerm l x 0 = (2 * l + 3) * iTerm (l + 1) x 0 := by
  unfold iTerm
  rw [show 2 * (l + 1 + 0) + 1 = 2 * (l + 0) + 1 + 2 by omega, Nat.doubleFactorial_add_two]
  have := (dfac_pos (2 * (l + 0) + 1)).ne'
  push_cast
  field_simp
  simp
  ring

theorem iTerm_rec (l : ℕ) (x : ℝ) (n : ℕ) :
    x * iTerm l x (n + 1) - x * iTerm (l + 2) x n = (2 * l + 3) * iTerm (l + 1) x (n + 1) := by
  unfold iTerm
  rw [show 2 * (l + 2 + n) + 1 = 2 * (l + (n + 1)) + 1 + 2 by omega,
    show 2 * (l + 1 + (n + 1)) + 1 = 2 * (l + (n + 1)) + 1 + 2 by omega, Nat.doubleFactorial_add_two,
    Nat.factorial_succ]
  have := (dfac_pos (2 * (l + (n + 1)) + 1)).ne'
  have h4 : (n ! : ℝ) ≠ 0 := by exact_mod_cast (Nat.factorial_ne_zero _)
  have h5 : ((n : ℝ) + 1) ≠ 0 := by positivity
  push_cast
  field_simp
  ring

/-- `x (i_l - i_{l+2}) = (2l+3) i_{l+1}`. -/
theorem sphI_rec' (l : ℕ) (x : ℝ) : x * (sphI l x - sphI (l + 2) x) = (2 * l + 3) * sphI (l + 1) x := by
  have h0 := (sphI_hasSum l x)
  have h1 := (sphI_hasSum (l + 1) x)
  have h2 := (sphI_hasSum (l + 2) x)
  have a : HasSum (fun n => x * iTerm l x (n + 1)) (x * (sphI l x - iTerm l x 0)) := by
    refine HasSum.mul_left x ?_
    have := (hasSum_nat_add_iff' 1).mpr h0
    simpa using this
  have b : HasSum (fun n => (2 * (l : ℝ) + 3) * iTerm (l + 1) x (n + 1))
      ((2 * l + 3) * (sphI (l + 1) x - iTerm (l + 1) x 0)) := by
    refine HasSum.mul_left _ ?_
    have := (hasSum_nat_add_iff' 1).mpr h1
    simpa using this
  have c := (a.sub (h2.mul_left x))
  simp only [iTerm_rec] at c
  have := c.unique b
  have z := iTerm_rec_zero l x
  linarith

theorem sphI_rec (l : ℕ) {x : ℝ} (hx : x ≠ 0) : sphI (l + 2) x = sphI l x - (2 * l + 3) / x * sphI (l + 1) x := by
  have := sphI_rec' l x
  field_simp
  linarith

theorem dfac_fac (n : ℕ) : ((2 * n + 1)‼ : ℝ) * (2 ^ n * (n ! : ℝ)) = ((2 * n + 1)! : ℝ) := by
  have h := Nat.factorial_eq_mul_doubleFactorial (2 * n)
  rw [Nat.doubleFactorial_two_mul] at h
  exact_mod_cast h.symm

theorem sphI_zero {x : ℝ} (hx : x ≠ 0) : sphI 0 x = Real.sinh x / x := by
  have h := (Real.hasSum_sinh x).div_const x
  refine (sphI_hasSum 0 x).unique ?_
  have e : (fun i : ℕ => x ^ (2 * i + 1) / ((2 * i + 1)! : ℝ) / x) = iTerm 0 x := ?_
  · rw [← e]; exact h
  funext n
  unfold iTerm
  rw [← dfac_fac]
  simp only [zero_add]
  have := (dfac_pos (2 * n + 1)).ne'
  have h4 : (n ! : ℝ) ≠ 0 := by exact_mod_cast (Nat.factorial_ne_zero _)
  field_simp
  ring

theorem sphI_one {x : ℝ} (hx : x ≠ 0) : sphI 1 x = (x * Real.cosh x - Real.sinh x) / x ^ 2 := by
  -- x² i_1 = x cosh - sinh: compare series termwise, index shifted by one
  have hc := (Real.hasSum_cosh x).mul_left x
  have hs := Real.hasSum_sinh x
  have hd := hc.sub hs
  have h' := (hasSum_nat_add_iff' 1).mpr hd
  have h1 := (sphI_hasSum 1 x).mul_left (x ^ 2)
  have e : (fun n => x * (x ^ (2 * (n + 1)) / ((2 * (n + 1))! : ℝ)) - x ^ (2 * (n + 1) + 1) / ((2 * (n + 1) + 1)! : ℝ))
      = fun n => x ^ 2 * iTerm 1 x n := by
    funext n
    unfold iTerm
    have d : ((2 * (1 + n) + 1)‼ : ℝ) * (2 ^ (n + 1) * ((n + 1)! : ℝ)) = ((2 * (n + 1) + 1)! : ℝ) := by
      rw [← dfac_fac (n + 1), add_comm 1 n]
    have d2 : ((2 * (n + 1) + 1)! : ℝ) = (2 * (n + 1) + 1) * ((2 * (n + 1))! : ℝ) := by
      rw [Nat.factorial_succ]; push_cast; ring
    have p1 := (dfac_pos (2 * (1 + n) + 1)).ne'
    have p2 : ((2 * (n + 1))! : ℝ) ≠ 0 := by exact_mod_cast (Nat.factorial_ne_zero _)
    have p3 : ((2 * (n + 1) + 1)! : ℝ) ≠ 0 := by exact_mod_cast (Nat.factorial_ne_zero _)
    have p4 : (n ! : ℝ) ≠ 0 := by exact_mod_cast (Nat.factorial_ne_zero _)
    have p5 : (2 * ((n : ℝ) + 1) + 1) ≠ 0 := by positivity
    have p6 : ((n : ℝ) + 1) ≠ 0 := by positivity
    have d3 : ((2 * (1 + n) + 1)‼ : ℝ) * (2 ^ (n + 1) * ((n + 1 : ℝ) * (n ! : ℝ))) = (2 * (n + 1) + 1) * ((2 * (n + 1))! : ℝ) := by
      rw [← d2, ← d, Nat.factorial_succ]; push_cast; ring
    have d4 : ((2 * (n + 1))! : ℝ) = ((2 * (1 + n) + 1)‼ : ℝ) * (2 ^ (n + 1) * ((n + 1 : ℝ) * (n ! : ℝ))) / (2 * (n + 1) + 1) := by
      rw [eq_div_iff p5, d3]; ring
    rw [d2, d4]
    field_simp
    ring
  rw [e] at h'
  have := h1.unique h'
  simp at this
  field_simp
  rw [mul_comm]
  linarith

theorem sphI_pos (l : ℕ) {x : ℝ} (hx : 0 < x) : 0 < sphI l x := by
  refine (iTerm_summable l x).tsum_pos (fun n => ?_) 0 ?_
  · unfold iTerm; have := dfac_pos (2 * (l + n) + 1); positivity
  · unfold iTerm; have := dfac_pos (2 * (l + 0) + 1); positivity

/-- Wronskian. -/
theorem wronskian (l : ℕ) {x : ℝ} (hx : x ≠ 0) :
    sphI l x * sphK (l + 1) x + sphI (l + 1) x * sphK l x = Real.pi / (2 * x ^ 2) := by
  induction l with
  | zero =>
    rw [sphI_zero hx, sphI_one hx, sphK_zero, sphK_one hx, Real.sinh_eq, Real.cosh_eq]
    have : Real.exp x * Real.exp (-x) = 1 := by rw [← Real.exp_add]; simp
    have h2 : Real.exp (-x) ≠ 0 := (Real.exp_pos _).ne'
    field_simp
    ring_nf
    linear_combination (x * 2) * this
  | succ l ih =>
    rw [sphI_rec l hx, sphK_rec l hx, ← ih]
    ring

/-! ## Behaviour at the origin -/

theorem sphI_near_zero (l : ℕ) {x : ℝ} (hx : 0 < x) :
    0 ≤ sphI l x / x ^ l - 1 / ((2 * l + 1)‼ : ℝ) ∧
    sphI l x / x ^ l - 1 / ((2 * l + 1)‼ : ℝ) ≤ x ^ 2 * Real.exp (x ^ 2) := by
  have h := (sphI_hasSum l x).div_const (x ^ l)
  have h' := (hasSum_nat_add_iff' 1).mpr h
  have e0 : iTerm l x 0 / x ^ l = 1 / ((2 * l + 1)‼ : ℝ) := by
    unfold iTerm
    have := (dfac_pos (2 * l + 1)).ne'
    simp
    field_simp
  rw [Finset.sum_range_one, e0] at h'
  have he : HasSum (fun n : ℕ => x ^ 2 * ((x ^ 2) ^ n / (n ! : ℝ))) (x ^ 2 * Real.exp (x ^ 2)) := by
    refine HasSum.mul_left _ ?_
    rw [Real.exp_eq_exp_ℝ]
    exact NormedSpace.expSeries_div_hasSum_exp (x ^ 2)
  constructor
  · refine h'.nonneg (fun n => ?_)
    unfold iTerm
    have := dfac_pos (2 * (l + (n + 1)) + 1)
    positivity
  · refine hasSum_le (fun n => ?_) h' he
    have h1 := iTerm_abs_le l x (n + 1)
    rw [abs_of_pos hx] at h1
    rw [div_le_iff₀ (by positivity)]
    refine (le_abs_self _).trans (h1.trans ?_)
    rw [mul_comm]
    refine mul_le_mul_of_nonneg_right ?_ (by positivity)
    rw [pow_succ, mul_comm _ (x ^ 2), mul_div_assoc]
    refine mul_le_mul_of_nonneg_left ?_ (by positivity)
    refine div_le_div_of_nonneg_left (by positivity) (by positivity) ?_
    exact_mod_cast Nat.factorial_le (Nat.le_succ n)

open Filter Topology in
/-- `i_l(x)/x^l → 1/(2l+1)!!`. -/
theorem sphI_tendsto (l : ℕ) : Tendsto (fun x => sphI l x / x ^ l) (𝓝[>] 0) (𝓝 (1 / ((2 * l + 1)‼ : ℝ))) := by
  have hg : Tendsto (fun x : ℝ => x ^ 2 * Real.exp (x ^ 2)) (𝓝[>] 0) (𝓝 0) := by
    have : Continuous (fun x : ℝ => x ^ 2 * Real.exp (x ^ 2)) := by fun_prop
    have := this.tendsto 0
    simp at this
    exact this.mono_left nhdsWithin_le_nhds
  rw [tendsto_iff_norm_sub_tendsto_zero]
  refine squeeze_zero' (Eventually.of_forall fun _ => norm_nonneg _) ?_ hg
  filter_upwards [self_mem_nhdsWithin] with x hx
  obtain ⟨h1, h2⟩ := sphI_near_zero l hx
  rw [Real.norm_of_nonneg h1]; exact h2

/-- Top coefficient of the Bessel polynomial: `besC l l / 2^l = (2l-1)!!`. -/
theorem besC_top (l : ℕ) : besC l l = 2 ^ l * ((2 * l - 1)‼ : ℝ) := by
  rw [besC_eq le_rfl]
  cases l with
  | zero => simp
  | succ l =>
    have h := Nat.factorial_eq_mul_doubleFactorial (2 * l + 1)
    rw [show 2 * l + 1 + 1 = 2 * (l + 1) by omega, Nat.doubleFactorial_two_mul] at h
    have h' : ((l + 1 + (l + 1))! : ℝ) = (2 ^ (l + 1) * ((l + 1)! : ℝ)) * ((2 * l + 1)‼ : ℝ) := by
      rw [show l + 1 + (l + 1) = 2 * (l + 1) by omega]; exact_mod_cast h
    rw [h', show 2 * (l + 1) - 1 = 2 * l + 1 by omega]
    have h4 : ((l + 1)! : ℝ) ≠ 0 := by exact_mod_cast (Nat.factorial_ne_zero _)
    simp
    field_simp

open Filter Topology in
/-- `x^{l+1} k_l(x) → (π/2) (2l-1)!!`. -/
theorem sphK_tendsto (l : ℕ) :
    Tendsto (fun x => x ^ (l + 1) * sphK l x) (𝓝[>] 0) (𝓝 (Real.pi / 2 * ((2 * l - 1)‼ : ℝ))) := by
  have hP : Tendsto (fun x : ℝ => Real.pi / 2 * Real.exp (-x) *
      ∑ j ∈ Finset.range (l + 1), besC l j * (1 / 2) ^ j * x ^ (l - j)) (𝓝[>] 0)
      (𝓝 (Real.pi / 2 * ((2 * l - 1)‼ : ℝ))) := by
    have hc : Continuous (fun x : ℝ => Real.pi / 2 * Real.exp (-x) *
      ∑ j ∈ Finset.range (l + 1), besC l j * (1 / 2) ^ j * x ^ (l - j)) := by fun_prop
    have := (hc.tendsto 0).mono_left (nhdsWithin_le_nhds (s := Set.Ioi 0))
    have e : (∑ j ∈ Finset.range (l + 1), besC l j * (1 / 2 : ℝ) ^ j * (0 : ℝ) ^ (l - j)) = ((2 * l - 1)‼ : ℝ) := by
      rw [Finset.sum_range_succ, Finset.sum_eq_zero]
      · rw [besC_top]; simp; field_simp
      · intro j hj
        rw [zero_pow (by simp at hj; omega), mul_zero]
    rw [e] at this
    simpa using this
  refine hP.congr' ?_
  filter_upwards [self_mem_nhdsWithin] with x hx
  have hx' : x ≠ 0 := ne_of_gt hx
  rw [sphK_eq, besP, Finset.mul_sum, Finset.mul_sum, Finset.mul_sum]
  refine Finset.sum_congr rfl (fun j hj => ?_)
  have hj' : j ≤ l := by simp at hj; omega
  obtain ⟨d, rfl⟩ := Nat.exists_eq_add_of_le hj'
  rw [show j + d - j = d by omega, show j + d + 1 = d + 1 + j by omega, pow_add x (d + 1) j, div_pow, div_pow,
    mul_pow, one_pow]
  field_simp
  ring

/-! ## Derivatives -/

/-- Common recurrence of `i_l` and `(-1)^l k_l`. -/
theorem bes_deriv (f : ℕ → ℝ → ℝ)
    (hrec : ∀ (l : ℕ) (x : ℝ), 0 < x → f (l + 2) x = f l x - (2 * l + 3) / x * f (l + 1) x)
    (h0 : ∀ x : ℝ, 0 < x → HasDerivAt (f 0) (f 1 x) x)
    (h1 : ∀ x : ℝ, 0 < x → HasDerivAt (f 1) (f 0 x - 2 / x * f 1 x) x) (l : ℕ) :
    ∀ x : ℝ, 0 < x → HasDerivAt (f l) (f (l + 1) x + l / x * f l x) x := by
  induction l using Nat.twoStepInduction with
  | zero => intro x hx; simpa using h0 x hx
  | one =>
    intro x hx
    refine (h1 x hx).congr_deriv ?_
    have := hrec 0 x hx
    simp at this ⊢
    rw [this]; field_simp; ring
  | more l ih1 ih2 =>
    intro x hx
    have hd : HasDerivAt (fun y : ℝ => f l y - (2 * l + 3) / y * f (l + 1) y)
        (f (l + 1) x + l / x * f l x -
          (-(2 * l + 3) / x ^ 2 * f (l + 1) x + (2 * l + 3) / x * (f (l + 2) x + ((l + 1 : ℕ) : ℝ) / x * f (l + 1) x))) x := by
      refine (ih1 x hx).sub (HasDerivAt.mul ?_ (ih2 x hx))
      have := (hasDerivAt_inv hx.ne').const_mul (2 * (l : ℝ) + 3)
      exact this.congr_deriv (by ring)
    have := hd.congr_of_eventuallyEq (f₁ := f (l + 2)) (by
      filter_upwards [lt_mem_nhds hx] with y hy using hrec l y hy)
    refine this.congr_deriv ?_
    have e1 := hrec l x hx
    have e2 := hrec (l + 1) x hx
    rw [show l + 2 + 1 = l + 1 + 2 by rfl, e2, show l + 1 + 1 = l + 2 by rfl, e1]
    push_cast
    field_simp
    ring

theorem sphI_deriv (l : ℕ) {x : ℝ} (hx : 0 < x) : HasDerivAt (sphI l) (sphI (l + 1) x + l / x * sphI l x) x := by
  refine bes_deriv sphI (fun l x hx => sphI_rec l hx.ne') ?_ ?_ l x hx
  · intro x hx
    have hd : HasDerivAt (fun y => Real.sinh y / y) ((Real.cosh x * x - Real.sinh x * 1) / x ^ 2) x :=
      (Real.hasDerivAt_sinh x).div (hasDerivAt_id x) hx.ne'
    have := hd.congr_of_eventuallyEq (f₁ := sphI 0) (by
      filter_upwards [lt_mem_nhds hx] with y hy using sphI_zero hy.ne')
    refine this.congr_deriv ?_
    rw [sphI_one hx.ne']; ring
  · intro x hx
    have hd : HasDerivAt (fun y => (y * Real.cosh y - Real.sinh y) / y ^ 2)
        (((1 * Real.cosh x + x * Real.sinh x - Real.cosh x) * x ^ 2 -
          (x * Real.cosh x - Real.sinh x) * ((2 : ℕ) * x ^ 1)) / (x ^ 2) ^ 2) x := by
      refine HasDerivAt.div (((hasDerivAt_id x).mul (Real.hasDerivAt_cosh x)).sub (Real.hasDerivAt_sinh x))
        (hasDerivAt_pow 2 x) (by positivity)
    have := hd.congr_of_eventuallyEq (f₁ := sphI 1) (by
      filter_upwards [lt_mem_nhds hx] with y hy using sphI_one hy.ne')
    refine this.congr_deriv ?_
    rw [sphI_one hx.ne', sphI_zero hx.ne']
    field_simp
    ring

theorem sphK_deriv (l : ℕ) {x : ℝ} (hx : 0 < x) : HasDerivAt (sphK l) (-(sphK (l + 1) x) + l / x * sphK l x) x := by
  have key := bes_deriv (fun l x => (-1) ^ l * sphK l x) ?_ ?_ ?_ l x hx
  · have := key.const_mul ((-1 : ℝ) ^ l)
    have e : ((-1 : ℝ) ^ l) * (-1) ^ l = 1 := by rw [← mul_pow]; norm_num
    have e2 : (fun y => (-1 : ℝ) ^ l * ((-1) ^ l * sphK l y)) = sphK l := by
      funext y; rw [← mul_assoc, e, one_mul]
    rw [e2] at this
    refine this.congr_deriv ?_
    rw [pow_succ]; linear_combination (-sphK (l + 1) x + l / x * sphK l x) * e
  · intro l x hx
    simp only [sphK_rec l hx.ne']
    ring
  · intro x hx
    have hd : HasDerivAt (fun y => Real.pi / 2 * Real.exp (-y) / y)
        ((Real.pi / 2 * (Real.exp (-x) * -1) * x - Real.pi / 2 * Real.exp (-x) * 1) / x ^ 2) x := by
      refine HasDerivAt.div ?_ (hasDerivAt_id x) hx.ne'
      exact ((hasDerivAt_neg x).exp).const_mul _
    have h2 := hd.congr_of_eventuallyEq (f₁ := fun y => (-1) ^ 0 * sphK 0 y) (by
      filter_upwards with y; simp [sphK_zero])
    refine h2.congr_deriv ?_
    rw [sphK_one hx.ne']; ring
  · intro x hx
    have hd : HasDerivAt (fun y => Real.pi / 2 * Real.exp (-y) * (y + 1) / y ^ 2)
        (((Real.pi / 2 * (Real.exp (-x) * -1) * (x + 1) + Real.pi / 2 * Real.exp (-x) * 1) * x ^ 2 -
          Real.pi / 2 * Real.exp (-x) * (x + 1) * ((2 : ℕ) * x ^ 1)) / (x ^ 2) ^ 2) x := by
      refine HasDerivAt.div (HasDerivAt.mul ?_ ((hasDerivAt_id x).add_const 1)) (hasDerivAt_pow 2 x) (by positivity)
      exact ((hasDerivAt_neg x).exp).const_mul _
    have h2 := (hd.const_mul (-1)).congr_of_eventuallyEq (f₁ := fun y => (-1) ^ 1 * sphK 1 y) (by
      filter_upwards [lt_mem_nhds hx] with y hy
      rw [sphK_one hy.ne', pow_one])
    refine h2.congr_deriv ?_
    rw [sphK_one hx.ne', sphK_zero]
    field_simp
    ring

/-- `i_{l+1} < i_l` for positive arguments. -/
theorem sphI_succ_lt (l : ℕ) {x : ℝ} (hx : 0 < x) : sphI (l + 1) x < sphI l x := by
  set h : ℝ → ℝ := fun y => Real.exp y * (sphI l y - sphI (l + 1) y) / y ^ l with hh
  have hd : ∀ y : ℝ, 0 < y → HasDerivAt h (Real.exp y * ((2 * l + 2) / y * sphI (l + 1) y) / y ^ l) y := by
    intro y hy
    have h1 := (((Real.hasDerivAt_exp y).mul ((sphI_deriv l hy).sub (sphI_deriv (l + 1) hy))).div
      (hasDerivAt_pow l y) (by positivity))
    refine h1.congr_deriv ?_
    rw [sphI_rec l hy.ne']
    cases l with
    | zero => simp; field_simp; ring
    | succ l =>
      push_cast
      simp only [Pi.sub_apply, Pi.mul_apply]
      field_simp
      ring
  have hmono : MonotoneOn h (Set.Ioi 0) := by
    refine monotoneOn_of_deriv_nonneg (convex_Ioi 0) (fun y hy => (hd y hy).continuousAt.continuousWithinAt) ?_ ?_
    · intro y hy
      rw [interior_Ioi] at hy
      exact (hd y hy).differentiableAt.differentiableWithinAt
    · intro y hy
      rw [interior_Ioi] at hy
      rw [(hd y hy).deriv]
      have : (0 : ℝ) < y := hy
      have := sphI_pos (l + 1) hy
      positivity
  have hlim : Filter.Tendsto h (nhdsWithin 0 (Set.Ioi 0)) (nhds (Real.exp 0 * (1 / ((2 * l + 1)‼ : ℝ) - 1 / ((2 * (l + 1) + 1)‼ : ℝ) * 0))) := by
    have he : Filter.Tendsto (fun y : ℝ => Real.exp y) (nhdsWithin 0 (Set.Ioi 0)) (nhds (Real.exp 0)) :=
      (Real.continuous_exp.tendsto 0).mono_left nhdsWithin_le_nhds
    have hid : Filter.Tendsto (fun y : ℝ => y) (nhdsWithin 0 (Set.Ioi 0)) (nhds 0) :=
      (continuous_id.tendsto 0).mono_left nhdsWithin_le_nhds
    refine (he.mul ((sphI_tendsto l).sub ((sphI_tendsto (l + 1)).mul hid))).congr' ?_
    filter_upwards [self_mem_nhdsWithin] with y hy
    have : y ≠ 0 := ne_of_gt hy
    simp only [hh]
    rw [pow_succ]
    field_simp
  have hpos : 0 < h x := by
    have hle : Real.exp 0 * (1 / ((2 * l + 1)‼ : ℝ) - 1 / ((2 * (l + 1) + 1)‼ : ℝ) * 0) ≤ h x := by
      refine le_of_tendsto hlim ?_
      filter_upwards [Ioo_mem_nhdsGT hx] with y hy
      exact hmono hy.1 hx hy.2.le
    refine lt_of_lt_of_le ?_ hle
    have := dfac_pos (2 * l + 1)
    simp
    positivity
  have := Real.exp_pos x
  by_contra hcon
  push Not at hcon
  have : h x ≤ 0 := by
    simp only [hh]
    refine div_nonpos_of_nonpos_of_nonneg (mul_nonpos_of_nonneg_of_nonpos this.le (by linarith)) (by positivity)
  linarith

/-- Both functions solve the modified spherical Bessel equation: the derivative of `f'` (as given by
`sphI_deriv`, `sphK_deriv`) is `(1 + l(l+1)/x²) f - (2/x) f'`. -/
theorem sphI_ode (l : ℕ) {x : ℝ} (hx : 0 < x) :
    HasDerivAt (fun y => sphI (l + 1) y + l / y * sphI l y)
      ((1 + l * (l + 1) / x ^ 2) * sphI l x - 2 / x * (sphI (l + 1) x + l / x * sphI l x)) x := by
  have h1 : HasDerivAt (fun y : ℝ => (l : ℝ) / y) (l * -(x ^ 2)⁻¹) x := (hasDerivAt_inv hx.ne').const_mul (l : ℝ)
  refine ((sphI_deriv (l + 1) hx).add (h1.mul (sphI_deriv l hx))).congr_deriv ?_
  rw [show l + 1 + 1 = l + 2 by rfl, sphI_rec l hx.ne']
  push_cast
  field_simp
  ring

theorem sphK_ode (l : ℕ) {x : ℝ} (hx : 0 < x) :
    HasDerivAt (fun y => -(sphK (l + 1) y) + l / y * sphK l y)
      ((1 + l * (l + 1) / x ^ 2) * sphK l x - 2 / x * (-(sphK (l + 1) x) + l / x * sphK l x)) x := by
  have h1 : HasDerivAt (fun y : ℝ => (l : ℝ) / y) (l * -(x ^ 2)⁻¹) x := (hasDerivAt_inv hx.ne').const_mul (l : ℝ)
  refine ((sphK_deriv (l + 1) hx).neg.add (h1.mul (sphK_deriv l hx))).congr_deriv ?_
  rw [show l + 1 + 1 = l + 2 by rfl, sphK_rec l hx.ne']
  push_cast
  field_simp
  ring

theorem sphI_anti {l l' : ℕ} (h : l ≤ l') {x : ℝ} (hx : 0 < x) : sphI l' x ≤ sphI l x :=
  antitone_nat_of_succ_le (f := fun l => sphI l x) (fun l => (sphI_succ_lt l hx).le) h

end CasSph
