import Verif.Spec.TransIntegral
import Verif.Lemmas.TransPol
import Verif.Props.TransLimit
import Mathlib.Analysis.SpecialFunctions.Sqrt

/-! # C95: the exterior translation coefficients as integrals over evanescent plane waves -/

namespace CasSph

open Spec Polynomial

theorem legHyp_eq (l m : ℕ) (t : ℝ) : legHyp l m t = nV l m * Real.sqrt (t ^ 2 - 1) ^ m * dq l m t := by
  unfold legHyp nV nn dq dl
  congr 3
  field_simp

theorem legHyp_deriv (l m : ℕ) {t : ℝ} (ht : 1 < t) : HasDerivAt (legHyp l m)
    (nV l m * (m * Real.sqrt (t ^ 2 - 1) ^ (m - 1) * (t / Real.sqrt (t ^ 2 - 1)) * dq l m t +
      Real.sqrt (t ^ 2 - 1) ^ m * dq l (m + 1) t)) t := by
  have hu : 0 < t ^ 2 - 1 := by nlinarith
  have e : legHyp l m = fun t => nV l m * (Real.sqrt (t ^ 2 - 1) ^ m * dq l m t) := by
    funext t; rw [legHyp_eq, mul_assoc]
  rw [e]
  have h0 : HasDerivAt (fun t : ℝ => t ^ 2 - 1) (2 * t) t := by
    simpa using (hasDerivAt_pow 2 t).sub_const 1
  have h1 := (h0.sqrt hu.ne').pow m
  refine ((h1.mul (dq_hasDeriv l m t)).const_mul (nV l m)).congr_deriv ?_
  have hs := (Real.sqrt_pos.mpr hu).ne'
  simp only [Pi.pow_apply]
  field_simp

theorem tau_zero (l : ℕ) {t : ℝ} (ht : 1 < t) : tauHyp l 0 t = nV l 0 * (Real.sqrt (t ^ 2 - 1) * dq l 1 t) := by
  unfold tauHyp
  rw [Int.natAbs_zero, (legHyp_deriv l 0 ht).deriv]
  simp
  ring

theorem tau_succ (l m : ℕ) {t : ℝ} (ht : 1 < t) :
    tauHyp l ((m + 1 : ℕ) : ℤ) t = nV l (m + 1) * (Real.sqrt (t ^ 2 - 1) ^ m * tq l (m + 1) t) := by
  have hu : 0 < t ^ 2 - 1 := by nlinarith
  unfold tauHyp
  rw [Int.natAbs_natCast, (legHyp_deriv l (m + 1) ht).deriv, tq_eq, Nat.add_sub_cancel]
  have hs := (Real.sqrt_pos.mpr hu).ne'
  have h2 := Real.sq_sqrt hu.le
  generalize Real.sqrt (t ^ 2 - 1) = s at *
  rw [← h2]
  field_simp
  ring

theorem pi_succ (l m : ℕ) {t : ℝ} (ht : 1 < t) :
    piHyp l ((m + 1 : ℕ) : ℤ) t = nV l (m + 1) * (Real.sqrt (t ^ 2 - 1) ^ m * (((m + 1 : ℕ) : ℝ) * dq l (m + 1) t)) := by
  have hu : 0 < t ^ 2 - 1 := by nlinarith
  unfold piHyp
  rw [Int.natAbs_natCast, legHyp_eq, Int.cast_natCast]
  have hs := (Real.sqrt_pos.mpr hu).ne'
  rw [pow_succ]
  field_simp

theorem pi_zero (l : ℕ) (t : ℝ) : piHyp l 0 t = 0 := by simp [piHyp]

/-- The integrals with polynomial integrands. -/
theorem transEE_lap (x : ℝ) (a b m : ℕ) : transEE x a b m = (-1) ^ m * (nV a m * nV b m * lap x (eePol a b m)) := by
  unfold transEE lap
  rw [zpow_natCast, ← MeasureTheory.integral_const_mul (nV a m * nV b m)]
  congr 1
  refine MeasureTheory.setIntegral_congr_fun (s := Set.Ioi (1 : ℝ)) measurableSet_Ioi fun t ht => ?_
  have ht : 1 < t := ht
  have hu : 0 ≤ t ^ 2 - 1 := by nlinarith
  have h2 := Real.sq_sqrt hu
  cases m with
  | zero =>
    simp only [Nat.cast_zero, tau_zero _ ht, pi_zero, eePol_eval_zero, uPol_eval]
    rw [← h2, Real.sqrt_sq (Real.sqrt_nonneg _)]
    ring
  | succ m =>
    simp only [tau_succ _ _ ht, pi_succ _ _ ht, eePol_eval_succ, uPol_eval]
    have h3 : Real.sqrt (t ^ 2 - 1) ^ m * Real.sqrt (t ^ 2 - 1) ^ m = (t ^ 2 - 1) ^ m := by rw [← mul_pow, ← sq, h2]
    rw [← h3]
    ring

theorem transEM_lap (x : ℝ) (a b m : ℕ) : transEM x a b m = -((-1) ^ m * (nV a m * nV b m * lap x (emPol a b m))) := by
  unfold transEM lap
  rw [zpow_natCast, ← MeasureTheory.integral_const_mul (nV a m * nV b m)]
  congr 2
  refine MeasureTheory.setIntegral_congr_fun (s := Set.Ioi (1 : ℝ)) measurableSet_Ioi fun t ht => ?_
  have ht : 1 < t := ht
  have hu : 0 ≤ t ^ 2 - 1 := by nlinarith
  have h2 := Real.sq_sqrt hu
  cases m with
  | zero => simp only [Nat.cast_zero, pi_zero, emPol, eval_zero]; ring
  | succ m =>
    simp only [tau_succ _ _ ht, pi_succ _ _ ht, emPol_eval_succ, uPol_eval]
    have h3 : Real.sqrt (t ^ 2 - 1) ^ m * Real.sqrt (t ^ 2 - 1) ^ m = (t ^ 2 - 1) ^ m := by rw [← mul_pow, ← sq, h2]
    rw [← h3]
    ring

theorem tauHyp_neg (l : ℕ) (m : ℤ) (t : ℝ) : tauHyp l (-m) t = tauHyp l m t := by unfold tauHyp; rw [Int.natAbs_neg]

theorem piHyp_neg (l : ℕ) (m : ℤ) (t : ℝ) : piHyp l (-m) t = -piHyp l m t := by
  unfold piHyp; rw [Int.natAbs_neg]; push_cast; ring

theorem transEE_neg (x : ℝ) (a b : ℕ) (m : ℤ) : transEE x a b (-m) = transEE x a b m := by
  unfold transEE
  simp only [tauHyp_neg, piHyp_neg, neg_one_zpow_neg, neg_mul_neg]

theorem transEM_neg (x : ℝ) (a b : ℕ) (m : ℤ) : transEM x a b (-m) = -transEM x a b m := by
  unfold transEM
  have : ∀ t, Real.exp (-(x * t)) * (tauHyp a (-m) t * piHyp b (-m) t + piHyp a (-m) t * tauHyp b (-m) t) =
      -(Real.exp (-(x * t)) * (tauHyp a m t * piHyp b m t + piHyp a m t * tauHyp b m t)) := by
    intro t; rw [tauHyp_neg, tauHyp_neg, piHyp_neg, piHyp_neg]; ring
  simp only [this, neg_one_zpow_neg, MeasureTheory.integral_neg]
  ring

/-- The exterior translation coefficients computed for the dimensionless distance `x`. -/
structure TransAt (lmax lssmax l1 l2 : ℕ) (m : ℤ) (x : ℝ) (v : VCoef) : Prop where
  run : ∃ bes, transBessels [x] (.int (lmax + lssmax + 1 : ℕ)) 1 = .ok [bes] ∧ getVl1l2 true m x bes l1 l2 = .ok v

theorem TransAt.bes {lmax lssmax l1 l2 : ℕ} {m : ℤ} {x : ℝ} {v : VCoef} (h1 : l1 ≤ lmax) (h2 : l2 ≤ lssmax)
    (h : TransAt lmax lssmax l1 l2 m x v) :
    ∃ bes : List ℝ, (∀ p ≤ l1 + l2, bes.getD p 0 = lnk1 x p) ∧ v = vVal true m x bes l1 l2 := by
  obtain ⟨bes, hb, hv⟩ := h.run
  rw [trans_row_ext] at hb
  have hbes : bes = (List.range (lmax + lssmax + 1 + 1)).map (lnk1 x) := by
    injection hb with hb; injection hb with hb; exact hb.symm
  have hlen : bes.length = lmax + lssmax + 2 := by simp [hbes]
  rw [getVl1l2_ok true m x (by omega)] at hv
  injection hv with hv
  refine ⟨bes, fun p hp => ?_, hv.symm⟩
  rw [List.getD_eq_getElem?_getD, hbes, List.getElem?_map, List.getElem?_range (by omega)]; rfl

/-- **C95.** The unscaled coefficients that `get_vl1l2` computes for the translation between two separate spheres are the
integrals over evanescent plane waves of products of the vector spherical harmonics' angular functions. -/
theorem C95_integral {lmax lssmax l1 l2 : ℕ} {m : ℤ} {x : ℝ} {v : VCoef} (hx : 0 < x) (h1 : 1 ≤ l1) (h2 : 1 ≤ l2)
    (h1' : l1 ≤ lmax) (h2' : l2 ≤ lssmax) (h : TransAt lmax lssmax l1 l2 m x v) :
    v.EEab * Real.exp v.sk = transEE x l1 l2 m ∧ v.EMab * Real.exp v.sk = transEM x l1 l2 m ∧
    v.EEba * Real.exp v.sk = (-1) ^ (l1 + l2) * transEE x l1 l2 m ∧
    v.EMba * Real.exp v.sk = -((-1) ^ (l1 + l2) * transEM x l1 l2 m) := by
  obtain ⟨bes, hb, rfl⟩ := h.bes h1' h2'
  have key : (vVal true m x bes l1 l2).EEab * Real.exp (vVal true m x bes l1 l2).sk = transEE x l1 l2 m ∧
      (vVal true m x bes l1 l2).EMab * Real.exp (vVal true m x bes l1 l2).sk = transEM x l1 l2 m := by
    obtain ⟨n, rfl | rfl⟩ := Int.eq_nat_or_neg m
    · rw [transEE_lap, transEM_lap]
      exact ⟨vVal_EE_lap hx h1 h2 n hb, vVal_EM_lap hx h1 h2 n hb⟩
    · rw [transEE_neg, transEM_neg, transEE_lap, transEM_lap, vVal_neg]
      refine ⟨vVal_EE_lap hx h1 h2 n hb, ?_⟩
      have := vVal_EM_lap hx h1 h2 n hb
      simp only
      rw [neg_mul, this]
  obtain ⟨b1, b2⟩ := vVal_back true m x bes l1 l2
  refine ⟨key.1, key.2, ?_, ?_⟩
  · rw [b1, mul_assoc, key.1]
  · rw [b2, ← key.2]; ring

theorem tq_pos {t : ℝ} (ht : 1 < t) {l m : ℕ} (h : m + 1 ≤ l) : 0 < tq l (m + 1) t := by
  rw [tq_eq]
  have h1 := dq_nonneg ht.le l (m + 1 + 1)
  have h2 := dq_pos ht.le l (m + 1) h
  have h3 : 0 ≤ t ^ 2 - 1 := by nlinarith
  refine add_pos_of_nonneg_of_pos (mul_nonneg h3 h1) (mul_pos (mul_pos (Nat.cast_pos.mpr (by omega)) (by linarith)) h2)

theorem emPol_pos {a b m : ℕ} (ha : m + 1 ≤ a) (hb : m + 1 ≤ b) {t : ℝ} (ht : 1 < t) : 0 < (emPol a b (m + 1)).eval t := by
  rw [emPol_eval_succ]
  have h1 := tq_pos ht ha
  have h2 := tq_pos ht hb
  have h3 := dq_pos ht.le a (m + 1) ha
  have h4 := dq_pos ht.le b (m + 1) hb
  exact mul_pos (pow_pos (uPol_pos ht) m) (mul_pos (Nat.cast_pos.mpr (by omega)) (add_pos (mul_pos h1 h4) (mul_pos h3 h2)))

/-- **C95.** Whenever both multipoles exist, the coefficients never vanish and their sign depends on `m` only. -/
theorem C95_sign {lmax lssmax l1 l2 : ℕ} {m : ℕ} {x : ℝ} {v : VCoef} (hx : 0 < x) (h1 : 1 ≤ l1) (h2 : 1 ≤ l2)
    (h1' : l1 ≤ lmax) (h2' : l2 ≤ lssmax) (hm1 : m ≤ l1) (hm2 : m ≤ l2) (h : TransAt lmax lssmax l1 l2 m x v) :
    0 < (-1) ^ m * v.EEab ∧ (0 < m → (-1) ^ m * v.EMab < 0) ∧ (m = 0 → v.EMab = 0) := by
  obtain ⟨e1, e2, -, -⟩ := C95_integral hx h1 h2 h1' h2' h
  have hsgn : ((-1 : ℝ) ^ m) * (-1) ^ m = 1 := by rw [← mul_pow]; simp
  have hn := mul_pos (nV_pos h1 m) (nV_pos h2 m)
  have hE := Real.exp_pos v.sk
  rw [transEE_lap] at e1
  rw [transEM_lap] at e2
  refine ⟨?_, ?_, ?_⟩
  · have h3 := lap_pos hx (p := eePol l1 l2 m) fun t ht => eePol_pos h1 h2 hm1 hm2 ht
    have : (-1) ^ m * v.EEab * Real.exp v.sk = nV l1 m * nV l2 m * lap x (eePol l1 l2 m) := by
      rw [mul_assoc, e1, ← mul_assoc, hsgn, one_mul]
    have h4 : 0 < (-1) ^ m * v.EEab * Real.exp v.sk := by rw [this]; positivity
    exact pos_of_mul_pos_left h4 hE.le
  · intro hm
    obtain ⟨n, rfl⟩ := Nat.exists_eq_add_of_lt hm
    rw [zero_add] at *
    have h3 := lap_pos hx (p := emPol l1 l2 (n + 1)) fun t ht => emPol_pos hm1 hm2 ht
    have : (-1) ^ (n + 1) * v.EMab * Real.exp v.sk = -(nV l1 (n + 1) * nV l2 (n + 1) * lap x (emPol l1 l2 (n + 1))) := by
      rw [mul_assoc, e2, mul_neg, ← mul_assoc, hsgn, one_mul]
    have h4 : (-1) ^ (n + 1) * v.EMab * Real.exp v.sk < 0 := by
      rw [this]; exact neg_neg_of_pos (mul_pos hn h3)
    exact neg_of_mul_neg_left h4 hE.le
  · rintro rfl
    simp only [emPol, lap_zero, mul_zero, neg_zero] at e2
    exact (mul_eq_zero.mp e2).resolve_right hE.ne'

/-- **C95.** The coefficients decay with the distance at least exponentially. -/
theorem C95_decay {lmax lssmax l1 l2 : ℕ} {m : ℕ} {x y : ℝ} {v w : VCoef} (hx : 0 < x) (hxy : x ≤ y) (h1 : 1 ≤ l1) (h2 : 1 ≤ l2)
    (h1' : l1 ≤ lmax) (h2' : l2 ≤ lssmax) (hv : TransAt lmax lssmax l1 l2 m x v) (hw : TransAt lmax lssmax l1 l2 m y w) :
    |w.EEab * Real.exp w.sk| ≤ Real.exp (-(y - x)) * |v.EEab * Real.exp v.sk| ∧
    |w.EMab * Real.exp w.sk| ≤ Real.exp (-(y - x)) * |v.EMab * Real.exp v.sk| := by
  obtain ⟨e1, e2, -, -⟩ := C95_integral hx h1 h2 h1' h2' hv
  obtain ⟨f1, f2, -, -⟩ := C95_integral (hx.trans_le hxy) h1 h2 h1' h2' hw
  have hn := mul_pos (nV_pos h1 m) (nV_pos h2 m)
  have habs : ∀ z : ℝ, |(-1) ^ m * (nV l1 m * nV l2 m * z)| = nV l1 m * nV l2 m * |z| := by
    intro z
    rw [abs_mul, abs_pow, abs_neg, abs_one, one_pow, one_mul, abs_mul, abs_of_pos hn]
  rw [e1, e2, f1, f2, transEE_lap, transEE_lap, transEM_lap, transEM_lap, abs_neg, abs_neg]
  simp only [habs]
  have p1 : ∀ {z : ℝ}, 0 < z → 0 ≤ lap z (eePol l1 l2 m) := fun hz => lap_nonneg hz fun t ht => eePol_nonneg _ _ _ ht.le
  have p2 : ∀ {z : ℝ}, 0 < z → 0 ≤ lap z (emPol l1 l2 m) := fun hz => lap_nonneg hz fun t ht => emPol_nonneg _ _ _ ht.le
  rw [abs_of_nonneg (p1 hx), abs_of_nonneg (p1 (hx.trans_le hxy)), abs_of_nonneg (p2 hx), abs_of_nonneg (p2 (hx.trans_le hxy))]
  constructor
  · rw [mul_left_comm]
    exact mul_le_mul_of_nonneg_left (lap_decay hx hxy fun t ht => eePol_nonneg _ _ _ ht.le) hn.le
  · rw [mul_left_comm]
    exact mul_le_mul_of_nonneg_left (lap_decay hx hxy fun t ht => emPol_nonneg _ _ _ ht.le) hn.le

/-- The hypotheses of `C95` can be met: the coefficients exist for all orders. -/
theorem C95_inputs_exist {lmax lssmax l1 l2 : ℕ} (m : ℤ) (x : ℝ) (h1 : l1 ≤ lmax) (h2 : l2 ≤ lssmax) :
    ∃ v, TransAt lmax lssmax l1 l2 m x v :=
  ⟨_, ⟨_, trans_row_ext x _, getVl1l2_ok true m x (by simp; omega)⟩⟩

example : ∃ v, TransAt 5 7 2 3 1 0.5 v ∧ 0 < (-1) ^ 1 * v.EEab ∧ (-1) ^ 1 * v.EMab < 0 := by
  obtain ⟨v, hv⟩ := C95_inputs_exist (lmax := 5) (lssmax := 7) (l1 := 2) (l2 := 3) 1 0.5 (by norm_num) (by norm_num)
  have h := C95_sign (m := 1) (by norm_num) (by norm_num) (by norm_num) (by norm_num) (by norm_num) (by norm_num) (by norm_num) hv
  exact ⟨v, hv, h.1, h.2.1 one_pos⟩

end CasSph
