import Verif.Lemmas.FloatGaunt
import Verif.Props.FloatTrans
import Verif.Props.FloatZero

/-! # C146: Gaunt coefficients in rounded arithmetic -/

namespace CasSph

open Spec

variable {A : FlZero} {u : ℝ}

/-- **C146.** `gaunt` in rounded arithmetic raises nothing, and its entries differ from the exact ones by at most `gauntErr` times the
size `gauntSize` of the numbers met in the recursion. -/
theorem C146_gaunt (hA : RelErrZ A u) (l lp : ℕ) (m : ℤ) : ∃ g g', gaunt l lp m = .ok g ∧ A.gaunt l lp m = .ok g' ∧ g.length = min l lp + 1 ∧ g'.length = g.length ∧
    ∀ i ≤ min l lp, |g.getD i 0| ≤ gauntSize l lp m (g.getD (min l lp) 0) i ∧
      |g'.getD i 0 - g.getD i 0| ≤ gauntErr u l lp m * gauntSize l lp m (g.getD (min l lp) 0) i := by
  refine ⟨_, _, gaunt_ok l lp m, flGaunt_ok hA l lp m, by simp, by simp, fun i hi => ?_⟩
  rw [getD_row _ hi, getD_row _ hi, getD_row _ le_rfl]
  have hle := lppMin_le l lp
  by_cases hm : m.natAbs > min l lp
  · have e : gntFl A l lp m i = 0 := by unfold gntFl; rw [if_pos hm]
    rw [gnt_big hm, gnt_big hm, e]
    simp [gauntSize]
  have hm' : m.natAbs ≤ min l lp := by omega
  have R := hA.toRelErr
  obtain ⟨d0, d⟩ := sqrtDen_inv hA (lppMin l lp) i
  have c := flDiv R d0 (gTop_cl hA hm' (min l lp - i) (by omega)) d
  have e1 : gntFl A l lp m i = A.div (gTopFl A l lp m (min l lp - i)) (A.sqrt (2 * ((lppMin l lp : ℝ) + 2 * i) + 1)) := by unfold gntFl; rw [if_neg hm]
  have e2 : gnt l lp m i = gTop l lp m (min l lp - i) / Real.sqrt (2 * ((lppMin l lp : ℝ) + 2 * i) + 1) := by unfold gnt; rw [if_neg hm]
  have hs : 0 < Real.sqrt (2 * ((l : ℝ) + lp) + 1) := Real.sqrt_pos.2 (by positivity)
  have e3 : |gnt l lp m (min l lp)| * Real.sqrt (2 * ((l : ℝ) + lp) + 1) = Real.exp (gauntLnMax l lp m) := by
    unfold gnt
    rw [if_neg hm, Nat.sub_self]
    have : ((lppMin l lp : ℝ) + 2 * (min l lp : ℕ)) = (l : ℝ) + lp := by
      have : ((lppMin l lp + 2 * min l lp : ℕ) : ℝ) = ((l + lp : ℕ) : ℝ) := by rw [hle]
      push_cast at this; push_cast; exact this
    rw [this]
    simp only [gTop]
    rw [abs_div, abs_of_pos hs, abs_of_pos (Real.exp_pos _), div_mul_cancel₀ _ hs.ne']
  have e4 : gauntSize l lp m (gnt l lp m (min l lp)) i = Real.exp (gauntLnMax l lp m) * gauntMajor l lp m (min l lp - i) * (Real.sqrt (2 * ((lppMin l lp : ℝ) + 2 * i) + 1))⁻¹ := by
    unfold gauntSize
    rw [e3, div_eq_mul_inv]
    rfl
  rw [← e1, ← e2, ← e4] at c
  refine ⟨c.2.1, ?_⟩
  refine c.2.2.trans (mul_le_mul_of_nonneg_right ?_ c.nonneg)
  unfold gauntErr
  have v1 : 1 ≤ 1 + u := by linarith [hA.u0]
  rw [show Real.exp (((1 + u) ^ 10 - 1) * gauntLogSize l lp m) * (1 + u) * (1 + u) ^ (10 * (min l lp - i)) * (1 + u) ^ 3 * (1 + u) =
    Real.exp (((1 + u) ^ 10 - 1) * gauntLogSize l lp m) * (1 + u) ^ (10 * (min l lp - i) + 5) by ring]
  have := mul_le_mul_of_nonneg_left (pow_le_pow_right₀ v1 (show 10 * (min l lp - i) + 5 ≤ 10 * min l lp + 5 by omega)) (Real.exp_pos (((1 + u) ^ 10 - 1) * gauntLogSize l lp m)).le
  linarith

/-- **C146.** The two coefficients of highest degree have small relative errors, in particular all of them if `l` or `l'` is 1. -/
theorem C146_relative (hA : RelErrZ A u) (l lp : ℕ) (m : ℤ) : ∃ g g', gaunt l lp m = .ok g ∧ A.gaunt l lp m = .ok g' ∧ g'.length = g.length ∧
    ∀ i ≤ min l lp, min l lp ≤ i + 1 → |g'.getD i 0 - g.getD i 0| ≤ gauntErr u l lp m * |g.getD i 0| := by
  obtain ⟨g, g', a, b, -, c, d⟩ := C146_gaunt hA l lp m
  refine ⟨g, g', a, b, c, fun i hi hi' => ?_⟩
  have key : gauntSize l lp m (g.getD (min l lp) 0) i = |g.getD i 0| := by
    rw [gaunt_ok] at a
    cases a
    rw [getD_row _ hi, getD_row _ le_rfl]
    by_cases hm : m.natAbs > min l lp
    · rw [gnt_big hm, gnt_big hm]; simp [gauntSize]
    have hle := lppMin_le l lp
    have hs : 0 < Real.sqrt (2 * ((l : ℝ) + lp) + 1) := Real.sqrt_pos.2 (by positivity)
    have hc : ((lppMin l lp : ℝ) + 2 * (min l lp : ℕ)) = (l : ℝ) + lp := by
      have : ((lppMin l lp + 2 * min l lp : ℕ) : ℝ) = ((l + lp : ℕ) : ℝ) := by rw [hle]
      push_cast at this; push_cast; exact this
    have ep := Real.exp_pos (gauntLnMax l lp m)
    unfold gauntSize gnt
    rw [if_neg hm, if_neg hm, Nat.sub_self, hc]
    simp only [gTop]
    rw [abs_div, abs_div, abs_of_pos hs, div_mul_cancel₀ _ hs.ne', abs_of_nonneg (Real.sqrt_nonneg (2 * ((lppMin l lp : ℝ) + 2 * i) + 1))]
    obtain h | h : min l lp - i = 0 ∨ min l lp - i = 1 := by omega
    · rw [h]; simp [gauntMajor, gTop, lppMin]
    · rw [h]
      simp only [gauntMajor, gTop]
      rw [abs_mul]
      push_cast
      rfl
  rw [← key]
  exact (d i hi).2

theorem lnFac_nonneg (k : ℕ) : 0 ≤ Real.log (k.factorial : ℝ) := Real.log_nonneg (by exact_mod_cast Nat.one_le_iff_ne_zero.mpr k.factorial_ne_zero)

theorem gauntLogSize_nonneg (l lp : ℕ) (m : ℤ) : 0 ≤ gauntLogSize l lp m := by
  have := lnFac_nonneg (2 * l)
  have := lnFac_nonneg (2 * lp)
  have := lnFac_nonneg (l + lp)
  have := lnFac_nonneg l
  have := lnFac_nonneg lp
  have := lnFac_nonneg (2 * (l + lp))
  have := lnFac_nonneg ((l : ℤ) - m).toNat
  have := lnFac_nonneg ((lp : ℤ) + m).toNat
  have := lnFac_nonneg ((l : ℤ) + m).toNat
  have := lnFac_nonneg ((lp : ℤ) - m).toNat
  have : 0 ≤ Real.log (2 * (l : ℝ) + 1) := Real.log_nonneg (by linarith [(Nat.cast_nonneg l : (0 : ℝ) ≤ l)])
  have : 0 ≤ Real.log (2 * (lp : ℝ) + 1) := Real.log_nonneg (by linarith [(Nat.cast_nonneg lp : (0 : ℝ) ≤ lp)])
  have : 0 ≤ Real.log (4 * Real.pi) := Real.log_nonneg (by linarith [Real.pi_gt_three])
  unfold gauntLogSize
  linarith

theorem gauntErr_nonneg (hu : 0 ≤ u) (l lp : ℕ) (m : ℤ) : 0 ≤ gauntErr u l lp m := by
  have v1 : 1 ≤ 1 + u := by linarith
  unfold gauntErr
  have e1 : 1 ≤ Real.exp (((1 + u) ^ 10 - 1) * gauntLogSize l lp m) :=
    Real.one_le_exp (mul_nonneg (by linarith [one_le_pow₀ v1 (n := 10)]) (gauntLogSize_nonneg l lp m))
  have := one_le_mul_of_one_le_of_one_le e1 (one_le_pow₀ v1 (n := 10 * min l lp + 5))
  linarith

theorem log_four_pi_le : Real.log (4 * Real.pi) ≤ 3 := by
  rw [Real.log_le_iff_le_exp (by positivity)]
  have h1 := Real.exp_one_gt_d9
  have : Real.exp 3 = Real.exp 1 ^ 3 := by rw [← Real.exp_nat_mul]; norm_num
  rw [this]
  have h2 : (2.7 : ℝ) ^ 3 ≤ Real.exp 1 ^ 3 := pow_le_pow_left₀ (by norm_num) (by linarith) 3
  have := Real.pi_lt_d2
  norm_num at h2
  linarith

/-- **C146.** The logarithms that make up the top coefficient grow like `N ln N`, `N = l + l'`. -/
theorem C146_size {l lp : ℕ} {m : ℤ} (hm : m.natAbs ≤ min l lp) (h : 1 ≤ l + lp) :
    gauntLogSize l lp m ≤ 22 * ((l : ℝ) + lp) * Real.log (2 * (l + lp)) + Real.log (2 * (l + lp) + 1) + 3 / 2 := by
  have top : Real.log ((2 * (l + lp)).factorial : ℝ) ≤ 2 * ((l : ℝ) + lp) * Real.log (2 * (l + lp)) := by
    have h1 : ((2 * (l + lp)).factorial : ℝ) ≤ ((2 * (l + lp) : ℕ) : ℝ) ^ (2 * (l + lp)) := by exact_mod_cast Nat.factorial_le_pow (2 * (l + lp))
    have h2 := Real.log_le_log (by exact_mod_cast Nat.factorial_pos _) h1
    rw [Real.log_pow] at h2
    push_cast at h2
    exact h2
  have le : ∀ k : ℕ, k ≤ 2 * (l + lp) → Real.log (k.factorial : ℝ) ≤ Real.log ((2 * (l + lp)).factorial : ℝ) := fun k hk =>
    Real.log_le_log (by exact_mod_cast Nat.factorial_pos _) (by exact_mod_cast Nat.factorial_le hk)
  have := le (2 * l) (by omega)
  have := le (2 * lp) (by omega)
  have := le (l + lp) (by omega)
  have := le l (by omega)
  have := le lp (by omega)
  have := le ((l : ℤ) - m).toNat (by omega)
  have := le ((lp : ℤ) + m).toNat (by omega)
  have := le ((l : ℤ) + m).toNat (by omega)
  have := le ((lp : ℤ) - m).toNat (by omega)
  have a1 : Real.log (2 * (l : ℝ) + 1) ≤ Real.log (2 * (l + lp) + 1) := Real.log_le_log (by positivity) (by linarith [(Nat.cast_nonneg lp : (0 : ℝ) ≤ lp)])
  have a2 : Real.log (2 * (lp : ℝ) + 1) ≤ Real.log (2 * (l + lp) + 1) := Real.log_le_log (by positivity) (by linarith [(Nat.cast_nonneg l : (0 : ℝ) ≤ l)])
  have a3 := log_four_pi_le
  unfold gauntLogSize
  linarith

/-- **C146.** Translation coefficients of two separate spheres, Bessel functions and Gaunt coefficients computed in the same arithmetic. -/
theorem C146_translation (hA : RelErrZ A u) {sum : (p : ℕ) → (Fin p → ℝ) → ℝ} (hS : Sums A.toFlFun sum) (m : ℤ) {l1 l2 n : ℕ} (h1 : 1 ≤ l1) (h2 : 1 ≤ l2) (hn : l1 + l2 ≤ n)
    {x δ : ℝ} (hx : 0 < x) (hu : 32 * ((l1 + l2 : ℕ) + 1) * u ≤ 1)
    (hδ : δ = 8 * ((l1 + l2 : ℕ) + 1) * u * (4 + 2 * |Real.log x| + x + (l1 + l2 : ℕ) * Real.log (1 + 2 * (l1 + l2 : ℕ) / x))) :
    ∃ g g' bes bes' V V' G err, gaunt l1 l2 m = .ok g ∧ A.gaunt l1 l2 m = .ok g' ∧ transBessels [x] (.int n) 1 = .ok [bes] ∧ A.lnknu [x] n = [bes'] ∧
      getVl1l2 true m x bes l1 l2 = .ok V ∧ A.getVl1l2 sum true m x bes' g' l1 l2 = .ok V' ∧
      err = transErr u δ (gauntErr u l1 l2 m) 0 (2 * δ + (l1 + l2 : ℕ) * Real.log (1 + 2 * (l1 + l2 : ℕ) / x)) (min l1 l2) ∧
      G = gauntSize l1 l2 m (g.getD (min l1 l2) 0) ∧
      |V'.EEab * Real.exp V'.sk - V.EEab * Real.exp V.sk| ≤ err * transSize true m bes G l1 l2 (weightEE l1 l2) ∧
      |V'.EEba * Real.exp V'.sk - V.EEba * Real.exp V.sk| ≤ err * transSize true m bes G l1 l2 (weightEE l1 l2) ∧
      |V'.EMab * Real.exp V'.sk - V.EMab * Real.exp V.sk| ≤ err * transSize true m bes G l1 l2 (weightEM m x) ∧
      |V'.EMba * Real.exp V'.sk - V.EMba * Real.exp V.sk| ≤ err * transSize true m bes G l1 l2 (weightEM m x) := by
  obtain ⟨g, g', a, b, -, c, d⟩ := C146_gaunt hA l1 l2 m
  have γ0 := gauntErr_nonneg hA.u0 l1 l2 m
  obtain ⟨bes, bes', V, V', err, b1, b2, b3, b4, b5, b6⟩ := C145_exterior hA.toRelErrM hS m h1 h2 hn hx hu hδ a c γ0 (fun i hi => (d i hi).1) fun i hi => (d i hi).2
  exact ⟨g, g', bes, bes', V, V', _, err, a, b, b1, b2, b3, b4, b5, rfl, b6⟩

/-! ## A coefficient that is not zero -/

/-- Exact operations, but sums too large by the factor `1 + u`. -/
noncomputable def wideAdd (u : ℝ) : FlZero where
  pi := Real.pi
  add := fun a b => (a + b) * (1 + u)
  sub := (· - ·)
  mul := (· * ·)
  div := (· / ·)
  tenth := 1 / 10
  pow := (· ^ ·)
  log := Real.log
  exp := Real.exp
  sqrt := Real.sqrt
  lgam := fun x => Real.log (Real.Gamma x)

theorem wideAdd_err {u : ℝ} (h0 : 0 ≤ u) (h1 : u ≤ 1 / 100) : RelErrZ (wideAdd u) u where
  u0 := h0
  u1 := h1
  pi := by simp only [wideAdd, sub_self, abs_zero]; have := Real.pi_pos; positivity
  tenth := by simp only [wideAdd, sub_self, abs_zero]; positivity
  add := fun a b => by
    simp only [wideAdd]
    rw [show (a + b) * (1 + u) - (a + b) = u * (a + b) by ring, abs_mul, abs_of_nonneg h0]
  sub := fun a b => by simp only [wideAdd, sub_self, abs_zero]; positivity
  mul := fun a b => by simp only [wideAdd, sub_self, abs_zero]; positivity
  div := fun a b _ => by simp only [wideAdd, sub_self, abs_zero]; positivity
  pow := fun a n => by simp only [wideAdd, sub_self, abs_zero]; positivity
  log := fun a _ => by simp only [wideAdd, sub_self, abs_zero]; positivity
  exp := fun a => by simp only [wideAdd, sub_self, abs_zero]; positivity
  sqrt := fun a _ => by simp only [wideAdd, sub_self, abs_zero]; positivity
  lgam := fun n => by
    simp only [wideAdd]
    rw [Real.Gamma_nat_eq_factorial, sub_self, abs_zero]
    exact mul_nonneg h0 (lnFac_nonneg n)

/-- **C146.** No relative accuracy in general: the coefficient `p = 2` of `gaunt 3 3 2` is zero, but for every `u` there is an arithmetic in
which the computed one is not. -/
theorem C146_zero {u : ℝ} (h0 : 0 < u) (h1 : u ≤ 1 / 100) : ∃ A, RelErrZ A u ∧ ∃ g g', gaunt 3 3 2 = .ok g ∧ A.gaunt 3 3 2 = .ok g' ∧ g.getD 1 0 = 0 ∧ g'.getD 1 0 ≠ 0 := by
  have hA := wideAdd_err h0.le h1
  refine ⟨_, hA, _, _, gaunt_ok 3 3 2, flGaunt_ok hA 3 3 2, ?_, ?_⟩
  · rw [getD_row _ (by norm_num)]
    unfold gnt
    rw [if_neg (by norm_num)]
    simp only [show min 3 3 - 1 = 2 by norm_num, gTop, alphaF]
    refine div_eq_zero_iff.mpr (Or.inl ?_)
    norm_num
    ring
  · rw [getD_row _ (by norm_num)]
    unfold gntFl
    rw [if_neg (by norm_num)]
    simp only [show min 3 3 - 1 = 2 by norm_num, gTopFl, alphaFl]
    obtain ⟨a, ha⟩ : ∃ a, a = (wideAdd u).exp ((wideAdd u).gauntLnMax 3 3 2) := ⟨_, rfl⟩
    have a0 : 0 < a := by rw [ha]; exact Real.exp_pos _
    rw [← ha]
    simp only [wideAdd]
    refine div_ne_zero (div_ne_zero ?_ (by norm_num)) (Real.sqrt_pos.2 (by positivity)).ne'
    norm_num
    intro h
    have : a * (u * (212 / 11 + 16 * u)) = 0 := by linear_combination -h
    have : 0 < a * (u * (212 / 11 + 16 * u)) := by positivity
    linarith

/-! ## Examples -/

theorem gauntErr_dipole {m : ℤ} (hm : m.natAbs ≤ 1) : gauntErr (2 ^ (-52 : ℤ)) 1 1 m ≤ 1e-12 := by
  have s := C146_size (l := 1) (lp := 1) hm (by norm_num)
  have s0 := gauntLogSize_nonneg 1 1 m
  have l4 : Real.log (2 * (((1 : ℕ) : ℝ) + ((1 : ℕ) : ℝ))) ≤ 2 := by
    rw [show (2 * (((1 : ℕ) : ℝ) + ((1 : ℕ) : ℝ)) : ℝ) = 2 ^ 2 by norm_num, Real.log_pow]
    have := Real.log_two_lt_d9
    push_cast
    linarith
  have l5 : Real.log (2 * (((1 : ℕ) : ℝ) + ((1 : ℕ) : ℝ)) + 1) ≤ 4 := (Real.log_le_sub_one_of_pos (by norm_num)).trans (by norm_num)
  have S : gauntLogSize 1 1 m ≤ 94 := by
    norm_num at s l4 l5
    linarith
  unfold gauntErr
  generalize gauntLogSize 1 1 m = L at s0 S
  have w : ((1 + (2 : ℝ) ^ (-52 : ℤ)) ^ 10 - 1) * L ≤ 3e-13 := by
    have : (1 + (2 : ℝ) ^ (-52 : ℤ)) ^ 10 - 1 ≤ 3e-15 := by norm_num
    have := mul_le_mul this S s0 (by norm_num)
    linarith
  have w0 : 0 ≤ ((1 + (2 : ℝ) ^ (-52 : ℤ)) ^ 10 - 1) * L := mul_nonneg (by norm_num) s0
  generalize ((1 + (2 : ℝ) ^ (-52 : ℤ)) ^ 10 - 1) * L = t at w w0
  have he : Real.exp t ≤ 1 + 6e-13 := by
    have := (abs_le.mp (Real.abs_exp_sub_one_le (x := t) (by rw [abs_of_nonneg w0]; linarith))).2
    rw [abs_of_nonneg w0] at this
    linarith
  have hp : (1 + (2 : ℝ) ^ (-52 : ℤ)) ^ (10 * min 1 1 + 5) ≤ 1 + 1e-14 := by norm_num
  have := mul_le_mul he hp (by positivity) (by norm_num)
  norm_num at this ⊢
  linarith

/-- Double precision: all coefficients with `l = l' = 1` have relative errors of at most `1e-12`. -/
example (m : ℤ) (hm : m.natAbs ≤ 1) : ∃ g g', gaunt 1 1 m = .ok g ∧ (roundZero (roundDown 53)).gaunt 1 1 m = .ok g' ∧ ∀ i ≤ 1, |g'.getD i 0 - g.getD i 0| ≤ 1e-12 * |g.getD i 0| := by
  obtain ⟨g, g', a, b, -, d⟩ := C146_relative roundDown_relErrZ 1 1 m
  refine ⟨g, g', a, b, fun i hi => (d i hi (by omega)).trans (mul_le_mul_of_nonneg_right (gauntErr_dipole hm) (abs_nonneg _))⟩

/-- The hypotheses of `C146_translation` hold in double precision for `l1 = 2`, `l2 = 3`, `x = 1/10`. -/
example {sum : (p : ℕ) → (Fin p → ℝ) → ℝ} (hS : Sums (roundZero (roundDown 53)).toFlFun sum) : ∃ g' bes' V', (roundZero (roundDown 53)).gaunt 2 3 1 = .ok g' ∧
    (roundZero (roundDown 53)).lnknu [1 / 10] 6 = [bes'] ∧ (roundZero (roundDown 53)).getVl1l2 sum true 1 (1 / 10) bes' g' 2 3 = .ok V' := by
  obtain ⟨-, g', -, bes', -, V', -, -, -, a, -, b, -, c, -⟩ := C146_translation roundDown_relErrZ hS 1 (l1 := 2) (l2 := 3) (n := 6) (x := 1 / 10) (by norm_num) (by norm_num)
    (by norm_num) (by norm_num) (by norm_num) rfl
  exact ⟨g', bes', V', a, b, c⟩

end CasSph
