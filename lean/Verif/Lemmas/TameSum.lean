import Verif.Lemmas.TameWave
import Verif.Props.Sensitivity

/-! # The sum over `m` as a function of the wavenumber has a continuous derivative, bounded by an integrable function -/

namespace CasSph

open Spec Filter Topology Set

variable {P : PairIn} {frac : ℝ → ℝ → ℝ} {K : ℝ}

theorem bdd_below_of_limit {f : ℝ → ℝ} {z : ℝ} (h0 : Tendsto f (𝓝[>] 0) (𝓝 z)) (hc : ∀ k, 0 < k → ContinuousAt f k) (K : ℝ) :
    ∃ c, ∀ k ∈ Ioo 0 K, c ≤ f k := by
  have h1 := h0.eventually (lt_mem_nhds (show z - 1 < z by linarith))
  obtain ⟨δ, hδ, h1⟩ := (mem_nhdsGT_iff_exists_Ioo_subset).1 h1
  obtain ⟨c, hc'⟩ := (isCompact_Icc (a := δ) (b := K)).bddBelow_image (f := f) fun k hk => (hc k ((show 0 < δ from hδ).trans_le hk.1)).continuousWithinAt
  refine ⟨min (z - 1) c, fun k hk => ?_⟩
  rcases lt_or_ge k δ with hkδ | hkδ
  · exact (min_le_left _ _).trans (h1 ⟨hk.1, hkδ⟩).le
  · exact (min_le_right _ _).trans (hc' ⟨k, ⟨hkδ, hk.2.le⟩, rfl⟩)

theorem lnDetV_tame (h : PairOK P) {m : ℕ} (hm : m ≤ P.lmax) : Tame K (lnDetV P m) := by
  obtain ⟨σa, σb, τa, τb, X, X', Y, Y', e1, e2, -⟩ := h.zeroAmp fun _ _ => 0
  have hm1 : max 1 m ≤ P.lmax := by have := h.hl; omega
  obtain ⟨c, hc⟩ := bdd_below_of_limit (lnDetV_tendsto h e1 e2 hm) (fun k hk => lnDetV_cont h hm1 hk) K
  refine (rtV_tame h.m1 h.m2 h.m3 h.h1 h.h2 (by linarith [h.sep, h.h1, h.h2]) P.lmax P.lssmax m).log (Real.exp_pos c) fun k hk => ?_
  obtain ⟨a, b, S, hB⟩ := h.blocks hk.1
  obtain ⟨B, hB, e, -⟩ := hB m hm1
  obtain ⟨σa, ea⟩ := dense_total h.m1 h.m3 hk.1
  obtain ⟨σb, eb⟩ := dense_total h.m2 h.m3 hk.1
  have := (C96_positive S ea eb hB).1
  rw [e] at this
  have l := hc k hk
  unfold lnDetV at l
  rwa [Real.le_log_iff_exp_le this] at l

theorem pairSum_tame (h : PairOK P) : Tame K (pairSum P) := by
  unfold pairSum
  exact (lnDetV_tame h (Nat.zero_le _)).add ((Tame.sum _ fun m hm => lnDetV_tame h (Finset.mem_Icc.1 hm).2).const_mul 2)

theorem pairSum_deriv (h : PairOK P) {k : ℝ} (hk : 0 < k) : HasDerivAt (pairSum P) (deriv (pairSum P) k) k ∧ ContinuousAt (deriv (pairSum P)) k := by
  obtain ⟨f', h1, h2, -⟩ := pairSum_tame (K := k + 1) h
  have mem : Ioo 0 (k + 1) ∈ 𝓝 k := isOpen_Ioo.mem_nhds ⟨hk, by linarith⟩
  refine ⟨(h1 k ⟨hk, by linarith⟩).differentiableAt.hasDerivAt, ?_⟩
  refine (h2.continuousAt mem).congr ?_
  filter_upwards [mem] with x hx
  exact ((h1 x hx).deriv).symm

theorem metal_bound (h : PairOK P) (hp : P.precision ≤ 0) {k : ℝ} (hk : 0 < k) :
    -pairSum P.metal k ≤ freeC P.r1 P.r2 P.L * sharpExp (k * (P.L - (P.r1 + P.r2))) := by
  have := (pairVal_val h.metal hk).1
  rw [pairVal_sum h.metal hp hk] at this
  exact (neg_le_abs _).trans this

/-- Derivative with respect to the logarithm of the wavenumber. -/
theorem pairSum_logDeriv (h : PairOK P) {k X : ℝ} (hk : 0 < k) (hX : k * P.L * Real.sqrt (P.mat3.epsV k) ≤ X) (hX0 : 0 ≤ X) :
    k * |deriv (pairSum P) k| ≤ (120 + 26 * (P.lssmax + 1 + X)) / (1 - shrink P.r1 P.r2 P.L) * -pairSum P.metal k := by
  obtain ⟨t0, t1⟩ := shrink_mem h.h1 h.h2 h.sep
  set θ := shrink P.r1 P.r2 P.L with hθ
  set D : ℝ := 120 + 26 * (P.lssmax + 1 + X) with hD
  have dφ : HasDerivAt (fun w : ℝ => pairSum P (k * Real.exp w)) (deriv (pairSum P) k * k) 0 := by
    have e : HasDerivAt (fun w : ℝ => k * Real.exp w) k 0 := by simpa using (Real.hasDerivAt_exp 0).const_mul k
    have f := (pairSum_deriv h hk).1
    exact HasDerivAt.comp (h₂ := pairSum P) 0 (by simpa using f) e
  have dg : HasDerivAt (fun w : ℝ => gain (dataErr w X P.lssmax) θ) (D / (1 - θ)) 0 := by
    have e : HasDerivAt (fun w : ℝ => dataErr w X P.lssmax) D 0 := by
      have := ((hasDerivAt_id (0 : ℝ)).mul_const D).exp.sub_const 1
      simpa [dataErr] using this
    have e0 : dataErr 0 X P.lssmax = 0 := by simp [dataErr]
    have := e.div ((e.const_add 1).mul_const θ |>.const_sub 1) (by rw [e0]; linarith)
    refine this.congr_deriv ?_
    rw [e0]
    have : 1 - θ ≠ 0 := by linarith
    rw [zero_mul, sub_zero, add_zero, one_mul, sq, mul_div_mul_right _ _ this]
  have s1 := (hasDerivAt_iff_tendsto_slope.1 dφ).mono_left (nhdsGT_le_nhdsNE 0)
  have s2 := (hasDerivAt_iff_tendsto_slope.1 dg).mono_left (nhdsGT_le_nhdsNE 0)
  have cont : Continuous fun w => dataErr w X P.lssmax := by unfold dataErr; fun_prop
  have small : ∀ᶠ w in 𝓝[>] (0 : ℝ), (1 + dataErr w X P.lssmax) * θ < 1 := by
    have : Tendsto (fun w => (1 + dataErr w X P.lssmax) * θ) (𝓝[>] 0) (𝓝 ((1 + dataErr 0 X P.lssmax) * θ)) :=
      ((continuous_const.add cont).mul continuous_const).continuousWithinAt
    have e0 : dataErr 0 X P.lssmax = 0 := by simp [dataErr]
    rw [e0, add_zero, one_mul] at this
    exact this.eventually (gt_mem_nhds t1)
  have key := le_of_tendsto_of_tendsto s1.abs (s2.mul_const (-pairSum P.metal k)) ?_
  · rwa [abs_mul, abs_of_pos hk, mul_comm] at key
  · filter_upwards [small, self_mem_nhdsWithin, mem_nhdsWithin_of_mem_nhds (gt_mem_nhds (show (0 : ℝ) < 1 / 800 by norm_num))] with w hw hw0 hw1
    have hw0 : 0 < w := hw0
    have lg : Real.log (k * Real.exp w) - Real.log k = w := by
      rw [Real.log_mul hk.ne' (Real.exp_pos w).ne', Real.log_exp]; ring
    have hk' : 0 < k * Real.exp w := by positivity
    have ms := fun {M : Material} (hM : M.Physical) => C132_same_material hM (w := w) hk hk' (by rw [lg, abs_of_pos hw0])
    have d : DataErr w P P (k * Real.exp w) k := ⟨rfl, rfl, by simpa using hw0.le, by simpa using hw0.le, by simpa using hw0.le, by rw [lg, abs_of_pos hw0],
      ms h.m1.phys, ms h.m2.phys, ms h.m3.phys⟩
    have := pairSum_sens h h hk hk' d (show w ≤ 1 / 800 from hw1.le) hX hw
    have e0 : gain (dataErr 0 X P.lssmax) θ = 0 := by simp [dataErr, gain]
    rw [slope_def_field, slope_def_field, sub_zero, e0, sub_zero, Real.exp_zero, mul_one, abs_div, abs_of_pos hw0, div_mul_eq_mul_div]
    exact div_le_div_of_nonneg_right this hw0.le

/-- An integrable bound of the derivative. -/
theorem pairSum_deriv_bound (h : PairOK P) (hp : P.precision ≤ 0) :
    ∃ A, 0 ≤ A ∧ ∀ k, 0 < k → |deriv (pairSum P) k| ≤ A * sharpExp (k * (P.L - (P.r1 + P.r2))) := by
  have hd : 0 < P.L - (P.r1 + P.r2) := sub_pos.mpr h.sep
  have hL : 0 < P.L := by linarith [h.h1, h.h2]
  have hC := freeC_pos h.h1 h.h2 h.sep
  obtain ⟨t0, t1⟩ := shrink_mem h.h1 h.h2 h.sep
  set θ := shrink P.r1 P.r2 P.L with hθ
  set d := P.L - (P.r1 + P.r2) with hdd
  obtain ⟨f', h1, -, C, h3⟩ := pairSum_tame (K := 2) h
  have hC0 : 0 ≤ C := (abs_nonneg _).trans (h3 1 (by norm_num))
  have s1 : 0 < sharpExp (1 * d) := by
    unfold sharpExp
    have : Real.exp (-(2 * (1 * d))) < 1 := by rw [Real.exp_lt_one_iff]; linarith
    exact div_pos (Real.exp_pos _) (Real.sqrt_pos.mpr (by linarith))
  set E := Real.sqrt (P.mat3.epsV 1) with hE
  have hE0 : 0 ≤ E := Real.sqrt_nonneg _
  set B := (120 + 26 * (P.lssmax + 1 + P.L * E)) / (1 - θ) * freeC P.r1 P.r2 P.L with hB
  have hB0 : 0 ≤ B := mul_nonneg (div_nonneg (by positivity) (by linarith)) hC.le
  refine ⟨max B (C / sharpExp (1 * d)), le_max_of_le_left hB0, fun k hk => ?_⟩
  have s := sharpExp_nonneg (k * d)
  rcases le_or_gt 1 k with hk1 | hk1
  · have eps : Real.sqrt (P.mat3.epsV k) ≤ E := Real.sqrt_le_sqrt (C56_eps_antitone h.m3.diel.1 h.m3.phys.osc one_pos hk1
      (medium_eps (medium_val h.m3.cls h.m3.phys one_pos).1) (medium_eps (medium_val h.m3.cls h.m3.phys hk).1))
    have b := pairSum_logDeriv h hk (X := k * P.L * E) (mul_le_mul_of_nonneg_left eps (by positivity)) (by positivity)
    have m := metal_bound h hp hk
    have c0 : 0 ≤ (120 + 26 * (P.lssmax + 1 + k * P.L * E)) / (1 - θ) := div_nonneg (by positivity) (by linarith)
    have b2 := b.trans (mul_le_mul_of_nonneg_left m c0)
    have b3 : (120 + 26 * (P.lssmax + 1 + k * P.L * E)) / (1 - θ) ≤ k * ((120 + 26 * (P.lssmax + 1 + P.L * E)) / (1 - θ)) := by
      rw [← mul_div_assoc]
      refine div_le_div_of_nonneg_right ?_ (by linarith)
      have : (120 + 26 * ((P.lssmax : ℝ) + 1)) * 1 ≤ (120 + 26 * ((P.lssmax : ℝ) + 1)) * k := mul_le_mul_of_nonneg_left hk1 (by positivity)
      nlinarith
    have b4 := b2.trans (mul_le_mul_of_nonneg_right b3 (mul_nonneg hC.le s))
    have b5 : |deriv (pairSum P) k| ≤ B * sharpExp (k * d) := by
      refine le_of_mul_le_mul_left (b4.trans (le_of_eq ?_)) hk
      rw [hB]; ring
    exact b5.trans (mul_le_mul_of_nonneg_right (le_max_left _ _) s)
  · have b : |deriv (pairSum P) k| ≤ C := by
      rw [(h1 k ⟨hk, by linarith⟩).deriv]; exact h3 k ⟨hk, by linarith⟩
    have m : sharpExp (1 * d) ≤ sharpExp (k * d) := sharpExp_anti (by positivity) (by nlinarith)
    refine b.trans ((le_of_eq ?_).trans (mul_le_mul (le_max_right B (C / sharpExp (1 * d))) m s1.le (le_max_of_le_left hB0)))
    rw [div_mul_cancel₀ _ s1.ne']

end CasSph
