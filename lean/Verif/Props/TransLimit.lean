import Verif.Props.Translation

/-! # C55: the zero-frequency translation coefficients are limits of the finite-frequency ones; C23 for the class
`translation` -/

namespace CasSph

open Spec Filter Topology Nat

/-- `√(positive)` as exponential of half a logarithm. -/
theorem log_sqrt' {x : ℝ} (hx : 0 < x) : Real.log (Real.sqrt x) = 0.5 * Real.log x := by
  rw [Real.log_sqrt hx.le]; ring

theorem dfac_two_mul (L : ℕ) : Real.log ((2 * L - 1)‼ : ℝ) =
    Real.log ((2 * L)! : ℝ) - L * Real.log 2 - Real.log (L ! : ℝ) := by
  have h : ((2 * L)! : ℝ) = ((2 * L - 1)‼ : ℝ) * (2 ^ L * (L ! : ℝ)) := by
    rcases L with _ | L
    · simp
    · have h1 := Nat.factorial_eq_mul_doubleFactorial (2 * L + 1)
      rw [show 2 * L + 1 + 1 = 2 * (L + 1) by ring, Nat.doubleFactorial_two_mul] at h1
      rw [show 2 * (L + 1) - 1 = 2 * L + 1 by omega]
      rw [h1]; push_cast; ring
  have h1 := dfac_pos (2 * L - 1)
  have h2 : (0 : ℝ) < (L ! : ℝ) := by exact_mod_cast Nat.factorial_pos L
  rw [h, Real.log_mul h1.ne' (by positivity), Real.log_mul (by positivity) h2.ne', Real.log_pow]
  ring

theorem lgam_two_mul (L : ℕ) : lgam (2 * (L : ℝ) + 1) = Real.log ((2 * L)! : ℝ) := by
  rw [← lgam_nat]; push_cast; rfl

/-- Identity of the constants: the term of the highest degree and the zero-frequency coefficient. -/
theorem k0Ext_const {l1 l2 : ℕ} {m : ℤ} (h1 : 1 ≤ l1) (h2 : 1 ≤ l2) :
    2 * (l1 : ℝ) * l2 * (Real.pi / 2 * ((2 * (l1 + l2) - 1)‼ : ℝ)) *
      (Real.exp (gauntLnMax l1 l2 m) / Real.sqrt (2 * ((l1 + l2 : ℕ) : ℝ) + 1)) *
      (Real.sqrt Real.pi * Real.sqrt ((2 * ((l1 + l2 : ℕ) : ℝ) + 1) / ((l1 * (l1 + 1) : ℝ) * (l2 * (l2 + 1)))) * (2 / Real.pi)) =
    Real.exp (transK0Ext m l1 l2).2 := by
  have hp := Real.pi_pos
  have a1 : (0 : ℝ) < l1 := by exact_mod_cast h1
  have a2 : (0 : ℝ) < l2 := by exact_mod_cast h2
  have hd := dfac_pos (2 * (l1 + l2) - 1)
  have hE := Real.exp_pos (gauntLnMax l1 l2 m)
  have hL : (0 : ℝ) < 2 * ((l1 + l2 : ℕ) : ℝ) + 1 := by positivity
  have q1 : (0 : ℝ) < (l1 * (l1 + 1) : ℝ) * (l2 * (l2 + 1)) := by positivity
  have s1 := Real.sqrt_pos.mpr hL
  have s2 := Real.sqrt_pos.mpr hp
  have s3 := Real.sqrt_pos.mpr (div_pos hL q1)
  refine Real.log_injOn_pos (Set.mem_Ioi.mpr (by positivity)) (Set.mem_Ioi.mpr (Real.exp_pos _)) ?_
  rw [Real.log_exp, Real.log_mul (by positivity) (by positivity), Real.log_mul (by positivity) (by positivity),
    Real.log_mul (by positivity) (by positivity), Real.log_mul (by positivity) (by positivity),
    Real.log_mul (by positivity) (by positivity), Real.log_mul (by positivity) (by positivity),
    Real.log_mul (by positivity) (by positivity), Real.log_mul (by positivity) (by positivity),
    Real.log_div hE.ne' s1.ne', Real.log_exp, log_sqrt' hL, log_sqrt' hp, log_sqrt' (div_pos hL q1),
    Real.log_div hL.ne' q1.ne', Real.log_mul (by positivity) (by positivity), Real.log_mul (by positivity) (by positivity),
    Real.log_mul (by positivity) (by positivity), Real.log_div hp.ne' (by norm_num), Real.log_div (by norm_num) hp.ne',
    dfac_two_mul]
  unfold transK0Ext gauntLnMax
  simp only []
  have e4 : Real.log (4 * Real.pi) = 2 * Real.log 2 + Real.log Real.pi := by
    rw [show (4 : ℝ) = 2 ^ 2 by norm_num, Real.log_mul (by norm_num) hp.ne', Real.log_pow]; norm_num
  have c : (2 * (l1 : ℝ) + 2 * l2 + 1) = 2 * ((l1 + l2 : ℕ) : ℝ) + 1 := by push_cast; ring
  have eL : lgam (2 * ((l1 : ℝ) + l2) + 1) = Real.log ((2 * (l1 + l2))! : ℝ) := by
    rw [← lgam_two_mul]; push_cast; rfl
  have eL1 : lgam (2 * ((l1 + l2 : ℕ) : ℝ) + 1 + 1) = Real.log (2 * ((l1 + l2 : ℕ) : ℝ) + 1) + Real.log ((2 * (l1 + l2))! : ℝ) := by
    have : lgam (2 * ((l1 + l2 : ℕ) : ℝ) + 1 + 1) = Real.log ((2 * (l1 + l2) + 1)! : ℝ) := by
      rw [← lgam_nat]; push_cast; rfl
    rw [this, Nat.factorial_succ, Nat.cast_mul, Real.log_mul (by positivity) (by positivity)]
    push_cast; rfl
  have eF : lgam ((l1 : ℝ) + l2 + 1) = Real.log ((l1 + l2)! : ℝ) := by
    rw [← lgam_nat]; push_cast; rfl
  rw [e4, c, eL, eL1, eF, Real.log_mul a1.ne' (by positivity), Real.log_mul a2.ne' (by positivity)]
  push_cast
  ring

/-- **C55.** As the wavenumber tends to zero, `x^(l1+l2+1)` times the unscaled exterior polarisation-conserving
coefficient computed by `get_vl1l2` (with the table of Bessel functions computed by the code), `x = k L √ε`,
converges to `sign * exp(ln)` of `trans_k0_ext`. -/
theorem C55_ext_limit {lmax lssmax l1 l2 : ℕ} {m : ℤ} (h1 : 1 ≤ l1) (h2 : 1 ≤ l2) (h1' : l1 ≤ lmax) (h2' : l2 ≤ lssmax)
    (hm : |m| ≤ (min l1 l2 : ℤ)) (bes : ℝ → List ℝ) (v : ℝ → VCoef)
    (hb : ∀ x, 0 < x → transBessels [x] (.int (lmax + lssmax + 1 : ℕ)) 1 = .ok [bes x])
    (hv : ∀ x, 0 < x → getVl1l2 true m x (bes x) l1 l2 = .ok (v x)) :
    Tendsto (fun x => x ^ (l1 + l2 + 1) * ((v x).EEab * Real.exp (v x).sk)) (𝓝[>] 0)
      (𝓝 ((transK0Ext m l1 l2).1 * Real.exp (transK0Ext m l1 l2).2)) := by
  have hle := lppMin_le l1 l2
  have hm' : ¬ m.natAbs > min l1 l2 := by rw [Int.abs_eq_natAbs] at hm; omega
  set c : ℕ → ℝ := fun i => ((l1 * (l1 + 1) + l2 * (l2 + 1) : ℝ) -
    ((lppMin l1 l2 + 2 * i : ℕ) : ℝ) * (((lppMin l1 l2 + 2 * i : ℕ) : ℝ) + 1)) * (gnt l1 l2 m i *
    commonFac true m l1 l2 (lppMin l1 l2 + 2 * i)) with hc
  have hval : ∀ x, 0 < x → x ^ (l1 + l2 + 1) * ((v x).EEab * Real.exp (v x).sk) =
      ∑ i ∈ Finset.range (min l1 l2 + 1), c i * x ^ (2 * (min l1 l2 - i)) *
        (x ^ (lppMin l1 l2 + 2 * i + 1) * sphK (lppMin l1 l2 + 2 * i) x) := by
    intro x hx
    have hbx := hb x hx
    rw [trans_row_ext] at hbx
    have hbes : bes x = (List.range (lmax + lssmax + 1 + 1)).map (lnk1 x) := by
      injection hbx with hbx; injection hbx with hbx; exact hbx.symm
    have hlen : (bes x).length = lmax + lssmax + 2 := by simp [hbes]
    have hget : ∀ i, i < lmax + lssmax + 2 → (bes x).getD i 0 = lnk1 x i := by
      intro i hi
      rw [List.getD_eq_getElem?_getD, hbes, List.getElem?_map, List.getElem?_range (by omega)]; rfl
    have hvx := hv x hx
    rw [getVl1l2_ok true m x (by omega)] at hvx
    injection hvx with hvx
    rw [← hvx]
    unfold vVal
    simp only []
    rw [Finset.sum_mul, Finset.mul_sum]
    refine Finset.sum_congr rfl fun i hi => ?_
    rw [Finset.mem_range] at hi
    have e1 : Real.exp ((bes x).getD (lppMin l1 l2 + 2 * i) 0 - besNorm true (bes x) l1 l2) *
        Real.exp (besNorm true (bes x) l1 l2) = sphK (lppMin l1 l2 + 2 * i) x := by
      rw [← Real.exp_add, sub_add_cancel, hget _ (by omega), exp_lnk1 hx]
    have e2 : x ^ (l1 + l2 + 1) = x ^ (2 * (min l1 l2 - i)) * x ^ (lppMin l1 l2 + 2 * i + 1) := by
      rw [← pow_add]; congr 1; omega
    rw [e2, hc]
    unfold vCommon
    simp only []
    rw [← e1]
    ring
  have hlim : Tendsto (fun x => ∑ i ∈ Finset.range (min l1 l2 + 1), c i * x ^ (2 * (min l1 l2 - i)) *
        (x ^ (lppMin l1 l2 + 2 * i + 1) * sphK (lppMin l1 l2 + 2 * i) x)) (𝓝[>] 0)
      (𝓝 (∑ i ∈ Finset.range (min l1 l2 + 1), c i * 0 ^ (2 * (min l1 l2 - i)) *
        (Real.pi / 2 * ((2 * (lppMin l1 l2 + 2 * i) - 1)‼ : ℝ)))) := by
    refine tendsto_finsetSum _ fun i _ => ?_
    refine Tendsto.mul (Tendsto.mul tendsto_const_nhds ?_) (sphK_tendsto _)
    exact ((continuous_pow (2 * (min l1 l2 - i))).tendsto 0).mono_left nhdsWithin_le_nhds
  have hsum : (∑ i ∈ Finset.range (min l1 l2 + 1), c i * 0 ^ (2 * (min l1 l2 - i)) *
        (Real.pi / 2 * ((2 * (lppMin l1 l2 + 2 * i) - 1)‼ : ℝ))) =
      (transK0Ext m l1 l2).1 * Real.exp (transK0Ext m l1 l2).2 := by
    rw [Finset.sum_range_succ, Finset.sum_eq_zero, zero_add]
    · rw [← k0Ext_const h1 h2]
      simp only [hc, hle, Nat.sub_self, Nat.mul_zero, pow_zero, mul_one]
      unfold gnt
      rw [if_neg hm', Nat.sub_self]
      have hcast : (lppMin l1 l2 : ℝ) + 2 * ((min l1 l2 : ℕ) : ℝ) = ((l1 + l2 : ℕ) : ℝ) := by
        rw [← hle]; push_cast; ring
      rw [hcast]
      unfold transK0Ext gTop commonFac
      simp only [if_true]
      have es : (-1 : ℝ) ^ (((l1 + l2 : ℕ) : ℤ) - (((l1 + l2 : ℕ) : ℤ) - 1) * 1) = -1 := by
        rw [show ((l1 + l2 : ℕ) : ℤ) - (((l1 + l2 : ℕ) : ℤ) - 1) * 1 = 1 by ring, zpow_one]
      rw [es, zpow_one]
      have e5 : (l1 : ℝ) * (l1 + 1) + l2 * (l2 + 1) - ((l1 + l2 : ℕ) : ℝ) * (((l1 + l2 : ℕ) : ℝ) + 1) = -(2 * l1 * l2) := by
        push_cast; ring
      rw [e5]
      ring
    · intro i hi
      rw [Finset.mem_range] at hi
      rw [zero_pow (by omega)]; ring
  rw [hsum] at hlim
  refine hlim.congr' ?_
  filter_upwards [self_mem_nhdsWithin] with x hx
  exact (hval x hx).symm

/-- The hypotheses of `C55_ext_limit` can be met for every admissible `l1, l2, m`. -/
theorem C55_inputs_exist {lmax lssmax l1 l2 : ℕ} (m : ℤ) (h1' : l1 ≤ lmax) (h2' : l2 ≤ lssmax) :
    ∃ (bes : ℝ → List ℝ) (v : ℝ → VCoef),
      (∀ x, 0 < x → transBessels [x] (.int (lmax + lssmax + 1 : ℕ)) 1 = .ok [bes x]) ∧
      ∀ x, 0 < x → getVl1l2 true m x (bes x) l1 l2 = .ok (v x) :=
  ⟨fun x => (List.range (lmax + lssmax + 1 + 1)).map (lnk1 x),
    fun x => vVal true m x ((List.range (lmax + lssmax + 1 + 1)).map (lnk1 x)) l1 l2,
    fun x _ => trans_row_ext x _, fun x _ => getVl1l2_ok true m x (by simp; omega)⟩

example : |(-1 : ℤ)| ≤ (min 1 2 : ℤ) := by norm_num

/-! ## C23 for the class `translation` -/

/-- **C23.** The constructor of `translation` with a truthy `forceFlag` always fails, namely with AttributeError once
the Bessel functions are available; with a falsy one it succeeds for positive arguments. -/
theorem C23_translation_force (lmax lssmax : ℕ) (ext : Bool) {x : ℝ} :
    transInit lmax lssmax ext x true = .error .attributeError ∧
      ∃ bes, transInit lmax lssmax ext x false = .ok bes ∧ bes.length = lmax + lssmax + 2 := by
  obtain ⟨row, hr, hlen⟩ : ∃ row : List ℝ, transBessels [x] (.int (lmax + lssmax + 1)) (if ext then 1 else 0) = .ok [row] ∧
      row.length = lmax + lssmax + 2 := by
    cases ext
    · unfold transBessels
      rw [if_neg (by simp)]
      have hl := lniknu_ok (xs := [x]) (xl := x) rfl (lmax + lssmax + 1)
      push_cast at hl
      rw [hl]
      obtain ⟨e1, e2⟩ := i01_length [x]
      rcases h1 : (i01 [x]).1 with _ | ⟨a, _ | ⟨_, _⟩⟩ <;> rw [h1] at e1 <;> simp at e1
      rcases h2 : (i01 [x]).2 with _ | ⟨b, _ | ⟨_, _⟩⟩ <;> rw [h2] at e2 <;> simp at e2
      refine ⟨_, rfl, ?_⟩
      simp [lniRow]
    · have := trans_row_ext x (lmax + lssmax + 1)
      push_cast at this
      simp only [if_true]
      exact ⟨_, this, by simp⟩
  unfold transInit
  rw [hr]
  exact ⟨rfl, row, rfl, hlen⟩

end CasSph
