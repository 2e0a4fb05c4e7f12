import Verif.Lemmas.CavityGram
import Mathlib.MeasureTheory.Integral.DominatedConvergence
import Mathlib.Analysis.SpecialFunctions.Exponential

/-! # Signs and growth of the shift of regular multipoles (independent of the model)

With the signs `(-1)^(a+b)` and another minus sign for different polarisations, all Taylor coefficients of `tI m x P Q a b` are non-negative. -/

namespace CasSph

open Polynomial Spec Nat MeasureTheory

/-! ## Taylor series -/

theorem lapI_series (x : ℝ) (p : ℝ[X]) : HasSum (fun n : ℕ => x ^ n / n ! * lapI 0 ((-X) ^ n * p)) (lapI x p) := by
  obtain ⟨M, hM⟩ : ∃ M, ∀ t ∈ Set.Icc (-1 : ℝ) 1, |p.eval t| ≤ M := by
    obtain ⟨M, hM⟩ := (isCompact_Icc (a := (-1 : ℝ)) (b := 1)).exists_bound_of_continuousOn p.continuous.continuousOn
    exact ⟨M, fun t ht => by simpa using hM t ht⟩
  have key := intervalIntegral.hasSum_integral_of_dominated_convergence (μ := volume) (a := (-1 : ℝ)) (b := 1)
    (F := fun (n : ℕ) t => (-(x * t)) ^ n / n ! * p.eval t) (f := fun t => Real.exp (-(x * t)) * p.eval t)
    (fun n _ => |x| ^ n / n ! * M) (fun n => ?_) (fun n => .of_forall fun t ht => ?_) (.of_forall fun t _ => ?_) ?_ (.of_forall fun t _ => ?_)
  · have h2 := key.div_const 2
    have e : (fun n : ℕ => x ^ n / n ! * lapI 0 ((-X) ^ n * p)) = fun n : ℕ => (∫ t in (-1 : ℝ)..1, (-(x * t)) ^ n / n ! * p.eval t) / 2 := by
      funext n
      unfold lapI
      rw [mul_div_assoc', ← intervalIntegral.integral_const_mul]
      congr 1
      refine intervalIntegral.integral_congr fun t _ => ?_
      simp only [zero_mul, neg_zero, Real.exp_zero, one_mul, eval_mul, eval_pow, eval_neg, eval_X]
      rw [show -(x * t) = x * -t by ring, mul_pow]
      ring
    rw [e]
    exact h2
  · exact (Continuous.aestronglyMeasurable (by fun_prop))
  · rw [Set.uIoc_of_le (by norm_num)] at ht
    have ht' : t ∈ Set.Icc (-1 : ℝ) 1 := ⟨ht.1.le, ht.2⟩
    rw [Real.norm_eq_abs, abs_mul, abs_div, abs_pow, abs_neg, abs_mul, Nat.abs_cast]
    refine mul_le_mul (div_le_div_of_nonneg_right (pow_le_pow_left₀ (by positivity) ?_ n) (by positivity)) (hM t ht') (abs_nonneg _) (by positivity)
    exact mul_le_of_le_one_right (abs_nonneg _) (abs_le.mpr ht')
  · exact (Real.summable_pow_div_factorial |x|).mul_right M
  · exact intervalIntegrable_const
  · rw [Real.exp_eq_exp_ℝ]
    exact (NormedSpace.expSeries_div_hasSum_exp (-(x * t))).mul_right _

/-! ## Coefficients -/

/-- The coefficients `n!`-times. -/
noncomputable def tIn (m n : ℕ) (P Q : Bool) (a b : ℕ) : ℝ :=
  -((-1) ^ m * (nV a m * nV b m * lapI 0 ((-X) ^ n * (if P = Q then eePol a b m else emPol a b m))))

theorem tI_series (m : ℕ) (x : ℝ) (P Q : Bool) (a b : ℕ) : HasSum (fun n : ℕ => x ^ n / n ! * tIn m n P Q a b) (tI m x P Q a b) := by
  have h := (((lapI_series x (if P = Q then eePol a b m else emPol a b m)).mul_left (nV a m * nV b m)).mul_left ((-1 : ℝ) ^ m)).neg
  refine (congrArg (fun f => HasSum f (tI m x P Q a b)) (funext fun n => ?_)).mpr h
  unfold tIn
  ring

theorem tIn_none {m n : ℕ} {P Q : Bool} {a b : ℕ} (h : b < m) : tIn m n P Q a b = 0 := by
  unfold tIn
  rw [eePol_none h, emPol_none h]
  simp [lapI_zero]

theorem tIn_succ {m j : ℕ} (hm : m ≤ j + 1) (n : ℕ) (P Q : Bool) (a : ℕ) :
    tIn m (n + 1) P Q a (j + 1) = -(t1 m (j + 1) * tIn m n P Q a (j + 2) + t1 m j * tIn m n P Q a j + t2 m (j + 1) * tIn m n P (!Q) a (j + 1)) := by
  obtain ⟨L, hL⟩ : ∃ L : ℝ[X] → ℝ, L = fun p => lapI 0 ((-X) ^ n * p) := ⟨_, rfl⟩
  have ladd : ∀ p q, L (p + q) = L p + L q := fun p q => by rw [hL]; simp only; rw [mul_add, lapI_add]
  have lmul : ∀ (c : ℝ) p, L (C c * p) = c * L p := fun c p => by rw [hL]; simp only; rw [mul_left_comm, lapI_C_mul]
  have lzero : L 0 = 0 := by rw [hL]; simp only; rw [mul_zero, lapI_zero]
  have lX : ∀ p, lapI 0 ((-X) ^ (n + 1) * p) = -L (X * p) := fun p => by
    rw [hL]; simp only; rw [← lapI_neg]; congr 1; ring
  have key : ∀ p0 p1 p2 q1 : ℝ[X], (j < m → p0 = 0) → (j = 0 → m = 0 → p0 = 0) →
      C ((2 * (j : ℝ) + 3) * (j + 1) * (j + 2)) * (X * p1) =
        C (((j : ℝ) + 1) ^ 2 * (j + 2 - m)) * p2 + C (((j : ℝ) + 2) ^ 2 * (j + 1 + m)) * p0 + C ((2 * (j : ℝ) + 3) * m) * q1 →
      nV (j + 1) m * L (X * p1) = t1 m (j + 1) * (nV (j + 2) m * L p2) + t1 m j * (nV j m * L p0) +
        t2 m (j + 1) * (nV (j + 1) m * L q1) := by
    intro p0 p1 p2 q1 hz hz0 he
    have hl := congrArg L he
    rw [ladd, ladd, lmul, lmul, lmul, lmul] at hl
    have hu := (nV_step (m := m) (l := j + 1) (by omega) hm).1
    push_cast at hu
    have c0 : (0 : ℝ) ≤ j := Nat.cast_nonneg j
    have hz' : nV (j + 1) m * (((j : ℝ) + 2) * (j + 1 + m)) * L p0 = t1 m j * nV j m * ((2 * j + 3) * (j + 1)) * L p0 := by
      by_cases hlt : j < m
      · rw [hz hlt, lzero, mul_zero, mul_zero]
      · by_cases hn : j = 0
        · rw [hz0 hn (by omega), lzero, mul_zero, mul_zero]
        · rw [(nV_step (m := m) (l := j) (by omega) (by omega)).2]
    unfold t2
    push_cast
    have d1 : (2 * (j : ℝ) + 3) ≠ 0 := by positivity
    have d2 : ((j : ℝ) + 1) ≠ 0 := by positivity
    have d3 : ((j : ℝ) + 2) ≠ 0 := by positivity
    have d : (2 * (j : ℝ) + 3) * (j + 1) * (j + 2) ≠ 0 := by positivity
    refine mul_left_cancel₀ d ?_
    have e3 : (2 * (j : ℝ) + 3) * (j + 1) * (j + 2) * (m / ((j + 1) * (j + 1 + 1)) * (nV (j + 1) m * L q1)) =
        (2 * j + 3) * m * (nV (j + 1) m * L q1) := by
      rw [show (j : ℝ) + 1 + 1 = j + 2 by ring]
      field_simp
    linear_combination nV (j + 1) m * hl + ((j : ℝ) + 1) * L p2 * hu + ((j : ℝ) + 2) * hz' - e3
  have z1 : j = 0 → m = 0 → eePol a j m = 0 := by
    rintro rfl rfl
    simp only [eePol, dl_none (l := 0) (m := 1) (by omega)]
    simp
  have z2 : j = 0 → m = 0 → emPol a j m = 0 := by
    rintro rfl rfl
    simp only [emPol]
  have hL' : ∀ p, lapI 0 ((-X) ^ n * p) = L p := fun p => by rw [hL]
  unfold tIn
  rw [lX]
  simp only [hL']
  by_cases hPQ : P = Q
  · have hn : ¬ P = !Q := by subst hPQ; cases P <;> decide
    have k := key _ _ _ _ (fun h => eePol_none h) z1 (X_eePol a j m)
    simp only [if_pos hPQ, if_neg hn]
    linear_combination (-1) ^ m * nV a m * k
  · have hn : P = !Q := by cases P <;> cases Q <;> simp_all
    have k := key _ _ _ _ (fun h => emPol_none h) z2 (X_emPol a j m)
    simp only [if_neg hPQ, if_pos hn]
    linear_combination (-1) ^ m * nV a m * k

/-- sign of one multipole -/
noncomputable def sgI (P : Bool) (a : ℕ) : ℝ := (-1) ^ a * bif P then -1 else 1

theorem sgI_sq (P : Bool) (a : ℕ) : sgI P a * sgI P a = 1 := by
  unfold sgI
  have : ((-1 : ℝ) ^ a) * (-1) ^ a = 1 := by rw [← mul_pow]; simp
  cases P <;> simp <;> linarith

theorem sgI_succ (P : Bool) (a : ℕ) : sgI P (a + 1) = -sgI P a := by unfold sgI; rw [_root_.pow_succ]; ring

theorem sgI_not (P : Bool) (a : ℕ) : sgI (!P) a = -sgI P a := by unfold sgI; cases P <;> simp

theorem tIn_sign {m a : ℕ} (ha : 1 ≤ a) (hma : m ≤ a) (n : ℕ) : ∀ (P Q : Bool) (b : ℕ), 1 ≤ b → 0 ≤ sgI P a * sgI Q b * tIn m n P Q a b := by
  induction n with
  | zero =>
    intro P Q b hb
    by_cases hmb : m ≤ b
    · have h := tI_at_zero ha hb hma hmb P Q
      have e : tIn m 0 P Q a b = tI m 0 P Q a b := by unfold tIn tI; rw [pow_zero, one_mul]
      rw [e, h]
      split_ifs with hc
      · obtain ⟨rfl, rfl⟩ := hc
        rw [sgI_sq]; norm_num
      · rw [mul_zero]
    · rw [tIn_none (by omega), mul_zero]
  | succ n ih =>
    intro P Q b hb
    obtain ⟨j, rfl⟩ := Nat.exists_eq_add_of_le' hb
    by_cases hmb : m ≤ j + 1
    · rw [tIn_succ hmb]
      have i1 := ih P Q (j + 2) (by omega)
      have i2 := ih P (!Q) (j + 1) (by omega)
      have i3 : 0 ≤ t1 m j * (sgI P a * sgI Q j * tIn m n P Q a j) := by
        rcases Nat.eq_zero_or_pos j with rfl | hj
        · rw [t1_zero, zero_mul]
        · exact mul_nonneg (t1_nonneg m j) (ih P Q j hj)
      have h2 : 0 ≤ t2 m (j + 1) := by unfold t2; positivity
      have s1 := mul_nonneg (t1_nonneg m (j + 1)) i1
      have s2 := mul_nonneg h2 i2
      rw [sgI_succ, sgI_succ] at s1
      rw [sgI_not, sgI_succ] at s2
      rw [sgI_succ]
      linarith
    · rw [tIn_none (by omega), mul_zero]

/-- Signs, and growth with the distance. -/
theorem tI_sign_mono {m a b : ℕ} (ha : 1 ≤ a) (hma : m ≤ a) (hb : 1 ≤ b) (P Q : Bool) {x y : ℝ} (hx : 0 ≤ x) (hxy : x ≤ y) :
    0 ≤ sgI P a * sgI Q b * tI m x P Q a b ∧ sgI P a * sgI Q b * tI m x P Q a b ≤ sgI P a * sgI Q b * tI m y P Q a b := by
  have s1 := (tI_series m x P Q a b).mul_left (sgI P a * sgI Q b)
  have s2 := (tI_series m y P Q a b).mul_left (sgI P a * sgI Q b)
  have h := fun n => tIn_sign ha hma n P Q b hb
  refine ⟨s1.nonneg fun n => ?_, hasSum_le (fun n => ?_) s1 s2⟩
  · have := mul_nonneg (show 0 ≤ x ^ n / (n ! : ℝ) by positivity) (h n)
    linarith
  · have : x ^ n / (n ! : ℝ) ≤ y ^ n / (n ! : ℝ) := by gcongr
    have := mul_le_mul_of_nonneg_right this (h n)
    linarith

end CasSph
