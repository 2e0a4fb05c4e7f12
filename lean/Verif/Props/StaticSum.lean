import Verif.Model.StaticSum
import Verif.Props.StaticSign
import Verif.Props.LinAlg
import Verif.Props.MSum
import Verif.Lemmas.GeoSum
import Mathlib.Analysis.Normed.Group.Tannery

/-! # The zero-frequency sum over `m` (C93, C94) -/

namespace CasSph

open Spec Filter Topology Nat Matrix

theorem staticBound_geometric {r1 r2 L : ℝ} (h1 : 0 < r1) (h2 : 0 < r2) (hs : r1 + r2 < L) :
    0 ≤ r1 / (L - r2) ∧ r1 / (L - r2) < 1 ∧ 0 ≤ staticBound r1 r2 L 0 ∧
    ∀ m, staticBound r1 r2 L (max 1 m) ≤ staticBound r1 r2 L 0 * (r1 / (L - r2)) ^ m := by
  have d1 : 0 < L - r1 := by linarith
  have d2 : 0 < L - r2 := by linarith
  have d3 : 0 < L - r1 - r2 := by linarith
  have hL : 0 < L := by linarith
  have q0 : 0 ≤ r1 / (L - r2) := by positivity
  have q1 : r1 / (L - r2) < 1 := by rw [div_lt_one d2]; linarith
  have c0 : 0 ≤ staticBound r1 r2 L 0 := by unfold staticBound; positivity
  refine ⟨q0, q1, c0, fun m => ?_⟩
  have e : ∀ l, staticBound r1 r2 L l = staticBound r1 r2 L 0 * (r1 / (L - r2)) ^ l := by
    intro l; unfold staticBound; rw [pow_zero]; ring
  rw [e (max 1 m)]
  exact mul_le_mul_of_nonneg_left (pow_le_pow_of_le_one q0 q1.le (le_max_right _ _)) c0

theorem C92_staticLn {frac : ℝ → ℝ → ℝ} {mA mB md : Material} {r1 r2 L : ℝ} {a0 b0 : MieCoef} {lmax lssmax m : ℕ}
    {TE TM : Matrix (Fin (lmax + 1 - transLmin m)) (Fin (lmax + 1 - transLmin m)) ℝ}
    (S : StaticPair frac mA mB md r1 r2 L a0 b0) (h0 : blockmatricesK0At lmax lssmax m r1 r2 L a0 b0 = .ok (TE, TM)) :
    |staticLn TE TM| ≤ 2 * staticBound r1 r2 L (max 1 m) := by
  obtain ⟨⟨q1, q2⟩, ⟨q3, q4⟩⟩ := C92_positive S h0
  unfold staticLn
  rw [abs_of_pos q1, abs_of_pos q3]
  exact (abs_add_le _ _).trans (by linarith)

/-- **C93, sum over `m`.** The complete zero-frequency sum `v_0 + 2 (v_1 + … + v_lmax)` converges when `lmax → ∞`
(with any `lssmax ≥ lmax`), and its limit is bounded by a constant depending on the geometry only. -/
theorem C93_sum_converges {frac : ℝ → ℝ → ℝ} {mA mB md : Material} {r1 r2 L : ℝ} {a0 b0 : MieCoef}
    (S : StaticPair frac mA mB md r1 r2 L a0 b0) {lss : ℕ → ℕ} (hlss : ∀ l, l ≤ lss l)
    {TE TM : ∀ m lmax _lssmax : ℕ, Matrix (Fin (lmax + 1 - transLmin m)) (Fin (lmax + 1 - transLmin m)) ℝ}
    (h0 : ∀ m lmax lssmax : ℕ, max 1 m ≤ lmax → max 1 m ≤ lssmax →
      blockmatricesK0At lmax lssmax m r1 r2 L a0 b0 = .ok (TE m lmax lssmax, TM m lmax lssmax)) :
    ∃ v, |v| ≤ 4 * staticBound r1 r2 L 0 / (1 - r1 / (L - r2)) ∧
      Tendsto (fun lmax => mSum (fun m (_ : Fin 1) => staticLn (TE m lmax (lss lmax)) (TM m lmax (lss lmax))) lmax 0)
        atTop (𝓝 v) := by
  obtain ⟨q0, q1, c0, hq⟩ := staticBound_geometric S.h1 S.h2 S.sep
  set q := r1 / (L - r2) with hqdef
  set C := staticBound r1 r2 L 0 with hC
  choose w hw1 hw2 using fun m : ℕ => C93_converges S (m := m) (TE := TE m) (TM := TM m) (h0 m)
  have hdiag : Tendsto (fun l : ℕ => (l, lss l)) atTop atTop := by
    rw [← prod_atTop_atTop_eq]
    exact tendsto_id.prodMk (tendsto_atTop_mono hlss tendsto_id)
  have hwt : ∀ m : ℕ, (0 : ℝ) ≤ (if m = 0 then 1 else 2) ∧ (if m = 0 then (1 : ℝ) else 2) ≤ 2 := by
    intro m; split_ifs <;> norm_num
  have hsum : Summable fun m : ℕ => 4 * C * q ^ m := (summable_geometric_of_lt_one q0 q1).mul_left _
  have main := tendsto_tsum_of_dominated_convergence (𝓕 := atTop) (bound := fun m : ℕ => 4 * C * q ^ m)
    (f := fun lmax m => if max 1 m ≤ lmax then (if m = 0 then (1 : ℝ) else 2) *
      staticLn (TE m lmax (lss lmax)) (TM m lmax (lss lmax)) else 0)
    (g := fun m => (if m = 0 then (1 : ℝ) else 2) * w m) hsum ?_ ?_
  · refine ⟨_, ?_, main.congr' ?_⟩
    · have hb : ∀ m, ‖(if m = 0 then (1 : ℝ) else 2) * w m‖ ≤ 4 * C * q ^ m := by
        intro m
        rw [norm_mul, Real.norm_of_nonneg (hwt m).1, Real.norm_eq_abs]
        have h1 := (hw1 m).trans (mul_le_mul_of_nonneg_left (hq m) (by norm_num : (0 : ℝ) ≤ 2))
        calc _ ≤ 2 * (2 * (C * q ^ m)) := mul_le_mul (hwt m).2 h1 (abs_nonneg _) (by norm_num)
          _ = _ := by ring
      rw [← Real.norm_eq_abs]
      refine (tsum_of_norm_bounded ((hasSum_geometric_of_lt_one q0 q1).mul_left (4 * C)) hb).trans (le_of_eq ?_)
      rw [div_eq_mul_inv]
    · filter_upwards [eventually_ge_atTop 1] with lmax hl
      rw [tsum_eq_sum (s := Finset.range (lmax + 1)) ?_]
      · rw [Finset.sum_range_succ']
        unfold mSum
        simp only [Nat.add_eq_zero_iff, one_ne_zero, and_false, if_false, if_true]
        rw [if_pos (by omega), one_mul, add_comm]
        congr 1
        rw [Finset.mul_sum, Finset.range_eq_Ico, Finset.sum_Ico_add' (fun m => if max 1 m ≤ lmax then 2 *
          staticLn (TE m lmax (lss lmax)) (TM m lmax (lss lmax)) else 0) 0 lmax 1]
        refine Finset.sum_congr (by ext x; simp) fun m hm => ?_
        rw [Finset.mem_Icc] at hm
        rw [if_pos (by omega)]
      · intro m hm
        rw [Finset.mem_range, not_lt] at hm
        rw [if_neg (by omega)]
  · intro m
    have h1 := ((hw2 m).comp hdiag).const_mul (if m = 0 then (1 : ℝ) else 2)
    refine h1.congr' ?_
    filter_upwards [eventually_ge_atTop (max 1 m)] with lmax hl
    rw [if_pos hl]
    rfl
  · filter_upwards with lmax m
    split_ifs with hm h
    · have h1 := (C92_staticLn S (h0 m lmax (lss lmax) hm (hm.trans (hlss _)))).trans (mul_le_mul_of_nonneg_left (hq m) (by norm_num : (0 : ℝ) ≤ 2))
      rw [one_mul, Real.norm_eq_abs]
      have : 0 ≤ C * q ^ m := by positivity
      linarith
    · have h1 := (C92_staticLn S (h0 m lmax (lss lmax) hm (hm.trans (hlss _)))).trans (mul_le_mul_of_nonneg_left (hq m) (by norm_num : (0 : ℝ) ≤ 2))
      rw [norm_mul, Real.norm_of_nonneg (by norm_num : (0 : ℝ) ≤ 2), Real.norm_eq_abs]
      linarith
    · rw [norm_zero]; positivity

theorem slnDetBlockdiagonal_pos {n : ℕ} (A B : Matrix (Fin n) (Fin n) ℝ) (hA : 0 < (1 - A).det) (hB : 0 < (1 - B).det) :
    ∃ N, ∀ fuel, N < fuel → slnDetBlockdiagonal fuel 0.9 A B = some (.ok (some ((staticLn A B : ℝ) : EReal))) := by
  have e : lnAbs (1 - A).det + lnAbs (1 - B).det = ((staticLn A B : ℝ) : EReal) := by
    unfold lnAbs staticLn
    rw [if_neg hA.ne', if_neg hB.ne', EReal.coe_add]
  by_cases hn : n = 1
  · subst hn
    refine ⟨0, fun fuel _ => ?_⟩
    rw [(C06_blockdiagonal_one A B 0.9 fuel).1 ?_, e]
    have h : ∀ X : Matrix (Fin 1) (Fin 1) ℝ, (1 - X).det = 1 - X 0 0 := by intro X; simp
    rw [h] at hA hB
    positivity
  · obtain ⟨N, hN⟩ := C06_blockdiagonal hn A B (conv := 0.9) (by norm_num)
    exact ⟨N, fun fuel hf => by rw [(hN fuel hf).1, e]⟩

/-- **C94.** The complete zero-frequency evaluation of two separate spheres: from the Mie coefficients of `mie_k0` on,
every subspace `m ≤ lmax` gives a finite number (no exception, no NaN, no `-inf`), `mSumme_k0` returns the sum over
`m ≤ M` for some `M ≤ lmax`, the terms it drops are bounded geometrically, and the result is bounded by a constant
depending on the geometry only.  Spheres of the same material, and spheres with equal signs of the electric and of the
magnetic contrast, give a non-positive result; opposite signs of both contrasts a non-negative one. -/
theorem C94_mSumme_k0 {frac : ℝ → ℝ → ℝ} {mA mB md : Material} {r1 r2 L : ℝ} {a0 b0 : MieCoef}
    (S : StaticPair frac mA mB md r1 r2 L a0 b0) {lmax lssmax : ℕ} (hl : 1 ≤ lmax) (hls : lmax ≤ lssmax) (precision : ℝ) :
    ∃ v : ℕ → ℝ, (∀ m : ℕ, m ≤ lmax → ∃ N, ∀ fuel, N < fuel →
        singleMK0 fuel lmax lssmax m r1 r2 L a0 b0 = some (.ok (some (v m : EReal)))) ∧
      ∃ M ≤ lmax, mSummeK0 lmax precision (fun m => .ok fun _ => v m) = .ok (mSum (fun m _ => v m) M) ∧
        |mSum (fun m (_ : Fin 1) => v m) M 0 - mSum (fun m (_ : Fin 1) => v m) lmax 0| ≤
          4 * staticBound r1 r2 L 0 * (r1 / (L - r2)) ^ (M + 1) / (1 - r1 / (L - r2)) ∧
        |mSum (fun m (_ : Fin 1) => v m) M 0| ≤ 4 * staticBound r1 r2 L 0 / (1 - r1 / (L - r2)) ∧
        (mA = mB → mSum (fun m (_ : Fin 1) => v m) lmax 0 ≤ mSum (fun m (_ : Fin 1) => v m) M 0 ∧
          mSum (fun m (_ : Fin 1) => v m) M 0 ≤ 0) ∧
        (∀ σa σb τa τb, ElectricSign mA md σa → ElectricSign mB md σb → MagneticSign mA md τa → MagneticSign mB md τb →
          (σa = σb → τa = τb → mSum (fun m (_ : Fin 1) => v m) lmax 0 ≤ mSum (fun m (_ : Fin 1) => v m) M 0 ∧
            mSum (fun m (_ : Fin 1) => v m) M 0 ≤ 0) ∧
          (σa ≠ σb → τa ≠ τb → 0 ≤ mSum (fun m (_ : Fin 1) => v m) M 0 ∧
            mSum (fun m (_ : Fin 1) => v m) M 0 ≤ mSum (fun m (_ : Fin 1) => v m) lmax 0)) := by
  have hex : ∀ m : ℕ, ∃ x : ℝ, m ≤ lmax → ∃ TE TM, blockmatricesK0At lmax lssmax m r1 r2 L a0 b0 = .ok (TE, TM) ∧
      x = staticLn TE TM := by
    intro m
    by_cases hm : m ≤ lmax
    · have hlm : transLmin (m : ℤ) = max 1 m := by unfold transLmin; omega
      obtain ⟨⟨TE, TM⟩, h0⟩ : ∃ R, blockmatricesK0At lmax lssmax m r1 r2 L a0 b0 = .ok R :=
        C72_k0_ext_total (by omega) (by omega) _ _ _ _
      exact ⟨_, fun _ => ⟨TE, TM, h0, rfl⟩⟩
    · exact ⟨0, fun h => absurd h hm⟩
  choose v hv using hex
  obtain ⟨q0, q1, c0, hq⟩ := staticBound_geometric S.h1 S.h2 S.sep
  set q := r1 / (L - r2) with hqdef
  set C := staticBound r1 r2 L 0 with hC
  have hvb : ∀ m ≤ lmax, |v m| ≤ 2 * C * q ^ m := by
    intro m hm
    obtain ⟨TE, TM, h0, e⟩ := hv m hm
    rw [e]
    have := (C92_staticLn S h0).trans (mul_le_mul_of_nonneg_left (hq m) (by norm_num : (0 : ℝ) ≤ 2))
    linarith
  have hgeo : ∀ a b, ∑ m ∈ Finset.Icc (a + 1) b, q ^ m ≤ q ^ (a + 1) / (1 - q) := by
    intro a b
    have hs := (hasSum_geometric_of_lt_one q0 q1).mul_left (q ^ (a + 1))
    have h1 : ∑ m ∈ Finset.Icc (a + 1) b, q ^ m = ∑ k ∈ Finset.range (b - a), q ^ (a + 1) * q ^ k := by
      rw [show Finset.Icc (a + 1) b = Finset.Ico (a + 1) (b + 1) by ext x; simp, Finset.sum_Ico_eq_sum_range]
      rw [show b + 1 - (a + 1) = b - a by omega]
      exact Finset.sum_congr rfl fun k _ => by rw [pow_add]
    rw [h1, div_eq_mul_inv]
    exact sum_le_hasSum _ (fun k _ => by positivity) hs
  have hsplit : ∀ M ≤ lmax, mSum (fun m (_ : Fin 1) => v m) lmax 0 = mSum (fun m (_ : Fin 1) => v m) M 0 +
      2 * ∑ m ∈ Finset.Icc (M + 1) lmax, v m := by
    intro M hM
    unfold mSum
    have : ∑ m ∈ Finset.Icc 1 lmax, v m = ∑ m ∈ Finset.Icc 1 M, v m + ∑ m ∈ Finset.Icc (M + 1) lmax, v m := by
      rw [← Finset.sum_union]
      · exact Finset.sum_congr (by ext x; simp; omega) fun _ _ => rfl
      · rw [Finset.disjoint_left]; intro x hx hx'; simp at hx hx'; omega
    rw [this]; ring
  refine ⟨v, fun m hm => ?_, ?_⟩
  · obtain ⟨TE, TM, h0, e⟩ := hv m hm
    obtain ⟨⟨p1, -⟩, ⟨p2, -⟩⟩ := C92_positive S h0
    obtain ⟨N, hN⟩ := slnDetBlockdiagonal_pos TE TM p1 p2
    refine ⟨N, fun fuel hf => ?_⟩
    unfold singleMK0
    rw [h0, e]
    exact hN fuel hf
  · obtain ⟨M, hM, hM1, -, -⟩ := C14_mSumme_k0 (lmax := lmax) (precision := precision) (L := fun m => .ok fun _ => v m)
      (v := fun m _ => v m) (fun m _ => rfl)
    have key : ∀ σa σb τa τb, ElectricSign mA md σa → ElectricSign mB md σb → MagneticSign mA md τa → MagneticSign mB md τb →
        (σa = σb → τa = τb → mSum (fun m (_ : Fin 1) => v m) lmax 0 ≤ mSum (fun m (_ : Fin 1) => v m) M 0 ∧
          mSum (fun m (_ : Fin 1) => v m) M 0 ≤ 0) ∧
        (σa ≠ σb → τa ≠ τb → 0 ≤ mSum (fun m (_ : Fin 1) => v m) M 0 ∧
          mSum (fun m (_ : Fin 1) => v m) M 0 ≤ mSum (fun m (_ : Fin 1) => v m) lmax 0) := by
      intro σa σb τa τb ea eb ga gb
      have hval : ∀ m ≤ lmax, (σa = σb → τa = τb → v m ≤ 0) ∧ (σa ≠ σb → τa ≠ τb → 0 ≤ v m) := by
        intro m hm
        obtain ⟨TE, TM, h0, e⟩ := hv m hm
        obtain ⟨⟨p1, -⟩, ⟨p2, -⟩⟩ := C92_positive S h0
        have s1 := C92_electric S ea eb h0
        have s2 := C92_magnetic S ga gb h0
        rw [e]
        unfold staticLn
        rw [abs_of_pos p1, abs_of_pos p2]
        exact ⟨fun h h' => by linarith [s1.1 h, s2.1 h'], fun h h' => by linarith [s1.2 h, s2.2 h']⟩
      exact ⟨fun h h' => mSum_nonpos hM1 fun m hm => (hval m hm).1 h h', fun h h' => mSum_nonneg hM1 fun m hm => (hval m hm).2 h h'⟩
    refine ⟨M, hM1, hM, ?_, ?_, ?_, key⟩
    · rw [hsplit M hM1, sub_add_cancel_left, abs_neg, abs_mul, abs_of_pos (by norm_num : (0 : ℝ) < 2)]
      have h1 : |∑ m ∈ Finset.Icc (M + 1) lmax, v m| ≤ 2 * C * ∑ m ∈ Finset.Icc (M + 1) lmax, q ^ m := by
        refine (Finset.abs_sum_le_sum_abs _ _).trans ?_
        rw [Finset.mul_sum]
        exact Finset.sum_le_sum fun m hm => hvb m (Finset.mem_Icc.mp hm).2
      have h2 := mul_le_mul_of_nonneg_left (hgeo M lmax) (by positivity : (0 : ℝ) ≤ 2 * C)
      calc _ ≤ 2 * (2 * C * (q ^ (M + 1) / (1 - q))) := by linarith
        _ = _ := by ring
    · unfold mSum
      have h1 : |∑ m ∈ Finset.Icc 1 M, v m| ≤ 2 * C * ∑ m ∈ Finset.Icc (0 + 1) M, q ^ m := by
        refine (Finset.abs_sum_le_sum_abs _ _).trans ?_
        rw [Finset.mul_sum]
        exact Finset.sum_le_sum fun m hm => hvb m ((Finset.mem_Icc.mp hm).2.trans hM1)
      have h2 := mul_le_mul_of_nonneg_left (hgeo 0 M) (by positivity : (0 : ℝ) ≤ 2 * C)
      have h3 := hvb 0 (by omega)
      rw [pow_zero, mul_one] at h3
      rw [zero_add, pow_one] at h2
      have h4 : (1 : ℝ) - q > 0 := by linarith
      have e : 4 * C / (1 - q) = 4 * C + 2 * (2 * C * (q / (1 - q))) := by field_simp; ring
      have h5 : |v 0 + 2 * ∑ m ∈ Finset.Icc 1 M, v m| ≤ |v 0| + 2 * |∑ m ∈ Finset.Icc 1 M, v m| := by
        refine (abs_add_le _ _).trans ?_
        rw [abs_mul, abs_of_pos (by norm_num : (0 : ℝ) < 2)]
      rw [e]
      linarith
    · intro hAB
      subst hAB
      obtain ⟨⟨σ, e⟩, ⟨τ, g⟩⟩ := sign_total S.hA S.hd S.hp
      exact (key σ σ τ τ e e g g).1 rfl rfl

/-! ## Instances -/

/-- Every pair of covered spheres has static Mie coefficients; so the hypotheses of C92 - C94 can be met. -/
theorem staticPair_exists (frac : ℝ → ℝ → ℝ) {mA mB md : Material} (hA : mA.HasStatic) (hB : mB.HasStatic)
    (hd : md.Dielectric) (hp : md.Physical) {r1 r2 L : ℝ} (h1 : 0 < r1) (h2 : 0 < r2) (hs : r1 + r2 < L) :
    ∃ a0 b0, StaticPair frac mA mB md r1 r2 L a0 b0 := by
  obtain ⟨a, b, a0, b0, bes, B, TE, TM, -, ha, hb, -⟩ := C91_inputs_exist 1 hA hB hd hp L h1 h2 (lmax := 1) (lssmax := 1)
    (m := 0) (by norm_num) (by norm_num) frac
  exact ⟨a0, b0, hA, hB, hd, hp, h1, h2, hs, ha, hb⟩

theorem gold_static : (⟨.lorentz, eGold, none⟩ : Material).HasStatic := by
  refine .inr (.inr ⟨⟨by simp, ⟨⟨1.37e16, 0, 5.77e13⟩, by simp [eGold], by norm_num, rfl⟩, ?_⟩, ⟨?_, by simp, by simp⟩⟩)
  · norm_num [eGold]
  · norm_num [eGold]

theorem water_diel : (⟨.lorentz, eWater, none⟩ : Material).Dielectric ∧ (⟨.lorentz, eWater, none⟩ : Material).Physical := by
  refine ⟨⟨rfl, ?_⟩, ⟨?_, by simp, by simp⟩⟩
  · norm_num [eWater]
  · norm_num [eWater]

/-- Vacuum as a material without oscillators: a dielectric with `ε = 1`. -/
theorem vac_diel : (⟨.lorentz, [], none⟩ : Material).Dielectric ∧ (⟨.lorentz, [], none⟩ : Material).Physical :=
  ⟨⟨rfl, by simp⟩, ⟨by simp, by simp, by simp⟩⟩

/-- Two gold spheres in water attract at zero frequency, for all radii, distances and cut-offs. -/
example (frac : ℝ → ℝ → ℝ) (r1 r2 L : ℝ) (h1 : 0 < r1) (h2 : 0 < r2) (hs : r1 + r2 < L) :
    ∃ a0 b0, StaticPair frac ⟨.lorentz, eGold, none⟩ ⟨.lorentz, eGold, none⟩ ⟨.lorentz, eWater, none⟩ r1 r2 L a0 b0 :=
  staticPair_exists frac gold_static gold_static water_diel.1 water_diel.2 h1 h2 hs

/-- A gold sphere and an empty bubble in water repel each other at zero frequency. -/
example : ElectricSign ⟨.lorentz, eGold, none⟩ ⟨.lorentz, eWater, none⟩ 1 ∧
    ElectricSign ⟨.lorentz, [], none⟩ ⟨.lorentz, eWater, none⟩ (-1) := by
  refine ⟨.inl ⟨rfl, .inr (.inl ?_)⟩, .inr ⟨rfl, vac_diel.1, ?_⟩⟩
  · rcases gold_static with h | h | h
    · simp at h
    · have := h.1.2 ⟨1.37e16, 0, 5.77e13⟩ (by simp [eGold])
      norm_num at this
    · exact h.1
  · obtain ⟨hd, hp⟩ := water_diel
    refine ⟨_, _, epsilon_lorentz_zero rfl (by simp), epsilon_lorentz_zero rfl (fun p h => (hd.2 p h).ne'), ?_⟩
    rw [lorentzEps_eq, lorentzEps_eq]
    simp only [List.map_nil, List.sum_nil, add_zero]
    have : 0 ≤ (eWater.map (lorT 0)).sum := by
      apply List.sum_nonneg
      intro x hx
      rw [List.mem_map] at hx
      obtain ⟨p, hpm, rfl⟩ := hx
      unfold lorT
      have := sq_nonneg (p.wR / omegaNorm)
      exact div_nonneg (sq_nonneg _) (by nlinarith)
    linarith

end CasSph
