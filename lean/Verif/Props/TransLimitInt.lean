import Verif.Props.TransLimit
import Verif.Props.GauntIntegral
import Verif.Lemmas.ScatTable

/-! # C78: the zero-frequency translation coefficients inside a cavity are limits of the finite-frequency ones -/

namespace CasSph

open Spec Filter Topology Nat

/-- Identity of the constants: the term of the lowest degree and the zero-frequency coefficient. -/
theorem k0Int_const {l2 d m : ℕ} (h2 : 1 ≤ l2) (hm : m ≤ l2) :
    2 * (l2 : ℝ) * ((l2 + d : ℕ) + 1) * (1 / ((2 * d + 1)‼ : ℝ)) * (gnt (l2 + d) l2 m 0) *
      ((-1) ^ m * Real.sqrt Real.pi * Real.sqrt ((2 * (d : ℝ) + 1) /
        ((((l2 + d : ℕ) : ℝ) * ((l2 + d : ℕ) + 1)) * (l2 * (l2 + 1))))) =
    Real.exp (transK0Int m (l2 + d) l2).2 := by
  have hp := Real.pi_pos
  have hlpp : lppMin (l2 + d) l2 = d := by unfold lppMin; omega
  rw [gnt_integral_nat _ _ _ (Nat.zero_le _), hlpp, show d + 2 * 0 = d from rfl, gauntIntegral_gC]
  unfold gC
  rw [gF_low hm]
  set l := l2 + d with hl
  have hml : m ≤ l := by omega
  have hd : ((l : ℝ) - l2) = d := by rw [hl]; push_cast; ring
  unfold gK legLead
  have hs : ((-1 : ℝ) ^ m) * (-1) ^ m = 1 := by rw [← mul_pow]; simp
  have hf : ∀ n : ℕ, (0 : ℝ) < n.factorial := fun n => by positivity
  have b1 := hf (l - m); have b2 := hf (l + m); have b3 := hf (l2 - m); have b4 := hf (l2 + m); have b5 := hf l; have b6 := hf l2
  have b7 := hf d; have b8 := hf (2 * l); have b9 := hf (2 * l2); have b10 := hf (2 * d)
  have hdf := dfac_pos (2 * d + 1)
  have c1 : (0 : ℝ) < l2 := by exact_mod_cast h2
  have c2 : (0 : ℝ) < l := by exact_mod_cast (by omega : 0 < l)
  have c3 : (0 : ℝ) < 2 * l + 1 := by positivity
  have c4 : (0 : ℝ) < 2 * l2 + 1 := by positivity
  have c5 : (0 : ℝ) < 2 * d + 1 := by positivity
  have c6 : (0 : ℝ) < (l : ℝ) + 1 := by positivity
  have c7 : (0 : ℝ) < (l2 : ℝ) + 1 := by positivity
  -- the logarithm of the code as a product of factorials and square roots
  have hexp : Real.exp (transK0Int m l l2).2 =
      (Real.sqrt (l + m).factorial * Real.sqrt (l - m).factorial * Real.sqrt (2 * l + 1) * Real.sqrt (2 * l2 + 1) *
        Real.sqrt (l2 * (l + 1)) / (Real.sqrt (l2 + m).factorial * Real.sqrt (l2 - m).factorial * Real.sqrt (l * (l2 + 1)))) *
      ((2 * d + 1) * (2 * d).factorial * (2 * l2).factorial * l.factorial /
        (((2 * d + 1)‼ : ℝ) * ((2 * l + 1) * (2 * l).factorial) * (d.factorial : ℝ) ^ 2 * l2.factorial)) := by
    unfold transK0Int
    simp only []
    have hif : ¬ (l2 > l) := by omega
    rw [if_neg hif, if_neg hif]
    have a1 : lgam ((l : ℝ) + ((m : ℤ) : ℝ) + 1) = Real.log (l + m).factorial := by rw [← lgam_nat]; push_cast; rfl
    have a2 : lgam ((l : ℝ) - ((m : ℤ) : ℝ) + 1) = Real.log (l - m).factorial := by
      rw [← lgam_nat]; push_cast [Nat.cast_sub hml]; rfl
    have a3 : lgam ((l2 : ℝ) + ((m : ℤ) : ℝ) + 1) = Real.log (l2 + m).factorial := by rw [← lgam_nat]; push_cast; rfl
    have a4 : lgam ((l2 : ℝ) - ((m : ℤ) : ℝ) + 1) = Real.log (l2 - m).factorial := by
      rw [← lgam_nat]; push_cast [Nat.cast_sub hm]; rfl
    have a5 : lgam (2 * (d : ℝ) + 1 + 1) = Real.log ((2 * d + 1) * (2 * d).factorial) := by
      have : lgam (2 * (d : ℝ) + 1 + 1) = Real.log ((2 * d + 1 : ℕ).factorial : ℝ) := by rw [← lgam_nat]; push_cast; rfl
      rw [this, Nat.factorial_succ]; push_cast; rfl
    have a6 : lgam (2 * (l : ℝ) + 1 + 1) = Real.log ((2 * l + 1) * (2 * l).factorial) := by
      have : lgam (2 * (l : ℝ) + 1 + 1) = Real.log ((2 * l + 1 : ℕ).factorial : ℝ) := by rw [← lgam_nat]; push_cast; rfl
      rw [this, Nat.factorial_succ]; push_cast; rfl
    have a7 : lgam (2 * (l2 : ℝ) + 1) = Real.log (2 * l2).factorial := lgam_two_mul l2
    have a8 : lgam (2 * ((d : ℝ) + 1) + 1) - ((d : ℝ) + 1) * Real.log 2 - lgam ((d : ℝ) + 1 + 1) = Real.log ((2 * d + 1)‼ : ℝ) := by
      have h := dfac_two_mul (d + 1)
      rw [show 2 * (d + 1) - 1 = 2 * d + 1 by omega, ← lgam_two_mul, ← lgam_nat] at h
      push_cast at h
      exact h.symm
    rw [hd, a1, a2, a3, a4, a5, a6, a7, a8, lgam_nat, lgam_nat, lgam_nat]
    have q1 : (0 : ℝ) < l2 * (l + 1) := by positivity
    have q2 : (0 : ℝ) < l * (l2 + 1) := by positivity
    have sq := fun {x : ℝ} (hx : 0 < x) => Real.exp_log (Real.sqrt_pos.mpr hx)
    rw [Real.exp_add]
    congr 1
    · rw [show ∀ a b c d e f g h : ℝ, (0.5 : ℝ) * (a + b + c + d + e - f - g - h) =
        0.5 * a + 0.5 * b + 0.5 * c + 0.5 * d + 0.5 * e - 0.5 * f - 0.5 * g - 0.5 * h from fun a b c d e f g h => by ring,
        ← log_sqrt' b2, ← log_sqrt' b1, ← log_sqrt' c3, ← log_sqrt' c4, ← log_sqrt' q1, ← log_sqrt' b4, ← log_sqrt' b3,
        ← log_sqrt' q2]
      simp only [Real.exp_sub, Real.exp_add]
      rw [sq b2, sq b1, sq c3, sq c4, sq q1, sq b4, sq b3, sq q2, div_div, div_div]
      ring
    · rw [two_mul (Real.log (d.factorial : ℝ))]
      simp only [Real.exp_sub, Real.exp_add]
      rw [Real.exp_log (mul_pos c5 b10), Real.exp_log b9, Real.exp_log b5, Real.exp_log hdf, Real.exp_log (mul_pos c3 b8),
        Real.exp_log b7, Real.exp_log b6, div_div, div_div, div_div]
      ring
  rw [hexp]
  have hpow : (2 : ℝ) ^ l = 2 ^ l2 * 2 ^ d := by rw [hl, pow_add]
  have hN : (0 : ℝ) < ((l : ℝ) * (l + 1)) * (l2 * (l2 + 1)) := by positivity
  have c8 : (0 : ℝ) < 4 * Real.pi := by positivity
  rw [Real.sqrt_div c5.le, Real.sqrt_mul (mul_pos c2 c6).le, Real.sqrt_mul c2.le, Real.sqrt_mul c1.le, Real.sqrt_mul c1.le,
    Real.sqrt_mul c2.le, Real.sqrt_mul (div_pos c3 c8).le, Real.sqrt_mul (div_pos c4 c8).le, Real.sqrt_div c3.le, Real.sqrt_div c4.le,
    Real.sqrt_div b1.le, Real.sqrt_div b4.le, Real.sqrt_mul (by norm_num : (0 : ℝ) ≤ 4), hpow]
  have h4 : Real.sqrt 4 = 2 := by rw [show (4 : ℝ) = 2 ^ 2 by norm_num, Real.sqrt_sq (by norm_num)]
  rw [h4]
  have sp := Real.sqrt_pos.mpr hp
  have s1 := Real.sqrt_pos.mpr b1; have s2 := Real.sqrt_pos.mpr b2; have s3 := Real.sqrt_pos.mpr b3
  have s4 := Real.sqrt_pos.mpr b4; have s5 := Real.sqrt_pos.mpr c1; have s6 := Real.sqrt_pos.mpr c2
  have s7 := Real.sqrt_pos.mpr c6; have s8 := Real.sqrt_pos.mpr c7; have s9 := Real.sqrt_pos.mpr c5
  have t2 := Real.sq_sqrt b2.le; have t3 := Real.sq_sqrt b3.le; have t4 := Real.sq_sqrt b4.le; have t5 := Real.sq_sqrt c1.le
  have t7 := Real.sq_sqrt c6.le
  generalize Real.sqrt ((l - m).factorial : ℝ) = r1 at *
  generalize Real.sqrt ((l + m).factorial : ℝ) = r2 at *
  generalize Real.sqrt ((l2 - m).factorial : ℝ) = r3 at *
  generalize Real.sqrt ((l2 + m).factorial : ℝ) = r4 at *
  generalize Real.sqrt (l2 : ℝ) = r5 at *
  generalize Real.sqrt (l : ℝ) = r6 at *
  generalize Real.sqrt ((l : ℝ) + 1) = r7 at *
  generalize Real.sqrt ((l2 : ℝ) + 1) = r8 at *
  generalize Real.sqrt (2 * (d : ℝ) + 1) = r9 at *
  generalize Real.sqrt (2 * (l : ℝ) + 1) = r10 at *
  generalize Real.sqrt (2 * (l2 : ℝ) + 1) = r11 at *
  generalize Real.sqrt Real.pi = rp at *
  rw [← t2, ← t3, ← t4, ← t7]
  generalize hL2 : (l2 : ℝ) = L2 at *
  rw [← t5]
  have hs2 : ((-1 : ℝ) ^ m) ^ 2 = 1 := by rw [sq, hs]
  have hsne : ((-1 : ℝ) ^ m) ≠ 0 := pow_ne_zero _ (by norm_num)
  generalize (-1 : ℝ) ^ m = sg at *
  generalize 2 * (l : ℝ) + 1 = q3 at *
  generalize 2 * (d : ℝ) + 1 = q5 at *
  generalize ((2 * d + 1)‼ : ℝ) = D at *
  generalize ((2 * l).factorial : ℝ) = f8 at *
  generalize ((2 * l2).factorial : ℝ) = f9 at *
  generalize ((2 * d).factorial : ℝ) = f10 at *
  generalize (l.factorial : ℝ) = f5 at *
  generalize (l2.factorial : ℝ) = f6 at *
  generalize (d.factorial : ℝ) = f7 at *
  field_simp
  rw [hs2, one_mul]

theorem transK0Int_symm (m : ℤ) (l1 l2 : ℕ) : transK0Int m l1 l2 = transK0Int m l2 l1 := by
  rcases lt_trichotomy l1 l2 with h | h | h
  · unfold transK0Int
    simp only [if_pos h, if_neg (show ¬ l1 > l2 by omega)]
  · rw [h]
  · unfold transK0Int
    simp only [if_pos h, if_neg (show ¬ l2 > l1 by omega)]

theorem transK0Int_neg (m : ℤ) (l1 l2 : ℕ) : transK0Int (-m) l1 l2 = transK0Int m l1 l2 := by
  unfold transK0Int
  simp only [Prod.mk.injEq, true_and, Int.cast_neg, sub_neg_eq_add, ← sub_eq_add_neg]
  ring

/-- The term of the lowest degree for all arguments. -/
theorem k0Int_const_all {l1 l2 : ℕ} {m : ℤ} (h1 : 1 ≤ l1) (h2 : 1 ≤ l2) (hm : |m| ≤ (min l1 l2 : ℤ)) :
    ((l1 * (l1 + 1) + l2 * (l2 + 1) : ℝ) - (lppMin l1 l2 : ℝ) * ((lppMin l1 l2 : ℝ) + 1)) *
      (1 / ((2 * lppMin l1 l2 + 1)‼ : ℝ)) * (gnt l1 l2 m 0) *
      ((-1) ^ m * Real.sqrt Real.pi * Real.sqrt ((2 * (lppMin l1 l2 : ℝ) + 1) /
        (((l1 : ℝ) * (l1 + 1)) * (l2 * (l2 + 1))))) =
    Real.exp (transK0Int m l1 l2).2 := by
  -- reduction to `l2 ≤ l1`
  wlog hle : l2 ≤ l1 generalizing l1 l2 with H
  · have h := H (l1 := l2) (l2 := l1) h2 h1 (by rwa [min_comm]) (by omega)
    rw [transK0Int_symm, ← h, gnt_symm, lppMin_comm, add_comm ((l1 : ℝ) * _), mul_comm ((l1 : ℝ) * (l1 + 1))]
  -- reduction to `0 ≤ m`
  wlog hpos : 0 ≤ m generalizing m with H
  · have h := H (m := -m) (by rwa [abs_neg]) (by omega)
    rw [transK0Int_neg] at h
    rw [← h, gnt_neg, zpow_neg]
    congr 3
    rw [← inv_zpow]
    norm_num
  obtain ⟨n, rfl⟩ := Int.eq_ofNat_of_zero_le hpos
  obtain ⟨d, rfl⟩ := Nat.exists_eq_add_of_le hle
  have hn : n ≤ l2 := by rw [abs_of_nonneg hpos] at hm; omega
  have hlpp : lppMin (l2 + d) l2 = d := by unfold lppMin; omega
  rw [hlpp, ← k0Int_const h2 hn, zpow_natCast]
  push_cast
  ring

theorem trans_row_int {x : ℝ} (hx : x < 1e-3) (n : ℕ) :
    transBessels [x] (.int n) 0 = .ok [(List.range (n + 1)).map (codeI 80 false x)] := by
  unfold transBessels
  have h01 := i01_smallFirst (s := [x]) (g := []) (by simpa using hx) (by simp)
  simp only [List.append_nil, List.isEmpty_nil, Bool.not_true] at h01
  have ht : fnuTerms x = 80 := by
    unfold fnuTerms; rw [if_neg (by norm_num at hx ⊢; linarith)]
  rw [if_neg (by simp), lniknu_maps (xs := [x]) (xl := x) rfl n _ _ h01, ht]
  rfl

/-- **C78.** As the wavenumber tends to zero, the unscaled polarisation-conserving coefficient that `get_vl1l2` computes
for a sphere inside a cavity (with the table of Bessel functions computed by the code), multiplied with
`(-1)^|l1-l2|` and divided by `x^|l1-l2|`, `x = k L √ε`, converges to `sign * exp(ln)` of `trans_k0_int`. -/
theorem C78_int_limit {lmax lssmax l1 l2 : ℕ} {m : ℤ} (h1 : 1 ≤ l1) (h2 : 1 ≤ l2) (h1' : l1 ≤ lmax) (h2' : l2 ≤ lssmax)
    (hm : |m| ≤ (min l1 l2 : ℤ)) (bes : ℝ → List ℝ) (v : ℝ → VCoef)
    (hb : ∀ x, 0 < x → transBessels [x] (.int (lmax + lssmax + 1 : ℕ)) 0 = .ok [bes x])
    (hv : ∀ x, 0 < x → getVl1l2 false m x (bes x) l1 l2 = .ok (v x)) :
    Tendsto (fun x => (-1) ^ ((l1 : ℤ) - l2).natAbs * ((v x).EEab * Real.exp (v x).sk) / x ^ ((l1 : ℤ) - l2).natAbs) (𝓝[>] 0)
      (𝓝 ((transK0Int m l1 l2).1 * Real.exp (transK0Int m l1 l2).2)) := by
  have hle := lppMin_le l1 l2
  change Tendsto (fun x => (-1) ^ lppMin l1 l2 * ((v x).EEab * Real.exp (v x).sk) / x ^ lppMin l1 l2) _ _
  set c : ℕ → ℝ := fun i => (-1) ^ lppMin l1 l2 * (((l1 * (l1 + 1) + l2 * (l2 + 1) : ℝ) -
    ((lppMin l1 l2 + 2 * i : ℕ) : ℝ) * (((lppMin l1 l2 + 2 * i : ℕ) : ℝ) + 1)) * (gnt l1 l2 m i *
    commonFac false m l1 l2 (lppMin l1 l2 + 2 * i))) with hc
  have hval : ∀ x, 0 < x → x < 1e-3 → (-1) ^ lppMin l1 l2 * ((v x).EEab * Real.exp (v x).sk) / x ^ lppMin l1 l2 =
      ∑ i ∈ Finset.range (min l1 l2 + 1), c i * x ^ (2 * i) *
        (Real.exp (codeI 80 false x (lppMin l1 l2 + 2 * i)) / x ^ (lppMin l1 l2 + 2 * i)) := by
    intro x hx hx3
    have hbx := hb x hx
    rw [trans_row_int hx3] at hbx
    have hbes : bes x = (List.range (lmax + lssmax + 1 + 1)).map (codeI 80 false x) := by
      injection hbx with hbx; injection hbx with hbx; exact hbx.symm
    have hlen : (bes x).length = lmax + lssmax + 2 := by simp [hbes]
    have hget : ∀ i, i < lmax + lssmax + 2 → (bes x).getD i 0 = codeI 80 false x i := by
      intro i hi
      rw [List.getD_eq_getElem?_getD, hbes, List.getElem?_map, List.getElem?_range (by omega)]; rfl
    have hvx := hv x hx
    rw [getVl1l2_ok false m x (by omega)] at hvx
    injection hvx with hvx
    rw [← hvx]
    unfold vVal
    simp only []
    rw [Finset.sum_mul, Finset.mul_sum, Finset.sum_div]
    refine Finset.sum_congr rfl fun i hi => ?_
    rw [Finset.mem_range] at hi
    have e1 : Real.exp ((bes x).getD (lppMin l1 l2 + 2 * i) 0 - besNorm false (bes x) l1 l2) *
        Real.exp (besNorm false (bes x) l1 l2) = Real.exp (codeI 80 false x (lppMin l1 l2 + 2 * i)) := by
      rw [← Real.exp_add, sub_add_cancel, hget _ (by omega)]
    rw [hc]
    unfold vCommon
    simp only []
    rw [← e1, pow_add]
    field_simp
  have hlim : Tendsto (fun x => ∑ i ∈ Finset.range (min l1 l2 + 1), c i * x ^ (2 * i) *
        (Real.exp (codeI 80 false x (lppMin l1 l2 + 2 * i)) / x ^ (lppMin l1 l2 + 2 * i))) (𝓝[>] 0)
      (𝓝 (∑ i ∈ Finset.range (min l1 l2 + 1), c i * 0 ^ (2 * i) * (1 / ((2 * (lppMin l1 l2 + 2 * i) + 1)‼ : ℝ)))) := by
    refine tendsto_finsetSum _ fun i _ => ?_
    refine Tendsto.mul (Tendsto.mul tendsto_const_nhds ?_) (codeI_tendsto 39 false _)
    exact ((continuous_pow (2 * i)).tendsto 0).mono_left nhdsWithin_le_nhds
  have hsum : (∑ i ∈ Finset.range (min l1 l2 + 1), c i * 0 ^ (2 * i) * (1 / ((2 * (lppMin l1 l2 + 2 * i) + 1)‼ : ℝ))) =
      (transK0Int m l1 l2).1 * Real.exp (transK0Int m l1 l2).2 := by
    rw [Finset.sum_range_succ', Finset.sum_eq_zero, zero_add]
    · rw [← k0Int_const_all h1 h2 hm]
      simp only [hc, Nat.mul_zero, pow_zero, mul_one, Nat.add_zero]
      unfold transK0Int commonFac
      simp only [Bool.false_eq_true, if_false, mul_zero, sub_zero, zpow_zero, mul_one, one_mul, zpow_natCast]
      have hs : ((-1 : ℝ) ^ lppMin l1 l2) * (-1) ^ lppMin l1 l2 = 1 := by rw [← mul_pow]; simp
      generalize Real.sqrt ((2 * (lppMin l1 l2 : ℝ) + 1) / ((l1 : ℝ) * (l1 + 1) * (l2 * (l2 + 1)))) = r
      generalize (1 / ((2 * lppMin l1 l2 + 1)‼ : ℝ)) = D
      linear_combination ((l1 * (l1 + 1) + l2 * (l2 + 1) - (lppMin l1 l2 : ℝ) * ((lppMin l1 l2 : ℝ) + 1)) * gnt l1 l2 m 0 *
        (-1) ^ m * Real.sqrt Real.pi * r * D) * hs
    · intro i _
      rw [zero_pow (by omega)]; ring
  rw [hsum] at hlim
  refine hlim.congr' ?_
  have h3 : Set.Ioo (0 : ℝ) 1e-3 ∈ 𝓝[>] (0 : ℝ) := Ioo_mem_nhdsGT (by norm_num)
  filter_upwards [h3] with x hx
  exact (hval x hx.1 hx.2).symm

/-- The hypotheses of `C78_int_limit` can be met for every admissible `l1, l2, m`. -/
theorem C78_inputs_exist {lmax lssmax l1 l2 : ℕ} (m : ℤ) (h1' : l1 ≤ lmax) (h2' : l2 ≤ lssmax) :
    ∃ (bes : ℝ → List ℝ) (v : ℝ → VCoef),
      (∀ x, 0 < x → transBessels [x] (.int (lmax + lssmax + 1 : ℕ)) 0 = .ok [bes x]) ∧
      ∀ x, 0 < x → getVl1l2 false m x (bes x) l1 l2 = .ok (v x) := by
  have hrow : ∀ x : ℝ, ∃ row : List ℝ, transBessels [x] (.int (lmax + lssmax + 1 : ℕ)) 0 = .ok [row] ∧
      row.length = lmax + lssmax + 2 := by
    intro x
    obtain ⟨-, bes, hb, hlen⟩ := C23_translation_force lmax lssmax false (x := x)
    unfold transInit at hb
    simp only [Bool.false_eq_true, if_false] at hb
    unfold transBessels at hb ⊢
    rw [if_neg (by simp)] at hb ⊢
    have hl := lniknu_ok (xs := [x]) (xl := x) rfl (lmax + lssmax + 1)
    rw [hl]
    obtain ⟨e1, e2⟩ := i01_length [x]
    rcases q1 : (i01 [x]).1 with _ | ⟨a, _ | ⟨_, _⟩⟩ <;> rw [q1] at e1 <;> simp at e1
    rcases q2 : (i01 [x]).2 with _ | ⟨b, _ | ⟨_, _⟩⟩ <;> rw [q2] at e2 <;> simp at e2
    exact ⟨_, rfl, by simp [lniRow]⟩
  choose bes hb hlen using hrow
  refine ⟨bes, fun x => vVal false m x (bes x) l1 l2, fun x _ => hb x, fun x _ => getVl1l2_ok false m x ?_⟩
  rw [hlen]; omega

example : |(-2 : ℤ)| ≤ (min 2 5 : ℤ) := by norm_num

/-- Consequence: the zero-frequency coefficients for equal angular momenta are one (a translation inside a cavity
conserves a constant field). -/
theorem C78_diagonal {l : ℕ} {m : ℤ} (h : 1 ≤ l) (hm : |m| ≤ (l : ℤ)) :
    (transK0Int m l l).1 * Real.exp (transK0Int m l l).2 = 1 := by
  have hl : (0 : ℝ) < l := by exact_mod_cast h
  unfold transK0Int
  simp only [gt_iff_lt, lt_irrefl, if_false, one_mul, sub_self]
  have e0 : lgam ((0 : ℝ) + 1) = 0 := by have := lgam_nat 0; norm_num at this ⊢; exact this
  have e1 : lgam (2 * (0 : ℝ) + 1 + 1) = 0 := by have := lgam_nat 1; norm_num at this ⊢; exact this
  have e2 : lgam (2 * ((0 : ℝ) + 1) + 1) = Real.log 2 := by
    have := lgam_nat 2; norm_num [Nat.factorial] at this ⊢; exact this
  have e3 : lgam ((0 : ℝ) + 1 + 1) = 0 := by have := lgam_nat 1; norm_num at this ⊢; exact this
  have e4 : lgam (2 * (l : ℝ) + 1 + 1) = Real.log (2 * l + 1) + lgam (2 * (l : ℝ) + 1) := by
    have a : lgam (2 * (l : ℝ) + 1 + 1) = Real.log ((2 * l + 1 : ℕ).factorial : ℝ) := by rw [← lgam_nat]; push_cast; rfl
    rw [a, lgam_two_mul, Nat.factorial_succ, Nat.cast_mul, Real.log_mul (by positivity) (by positivity)]
    push_cast; rfl
  rw [e0, e1, e2, e3, e4]
  rw [show ∀ X : ℝ, X = 0 → Real.exp X = 1 from fun X hX => by rw [hX, Real.exp_zero]]
  ring

end CasSph
