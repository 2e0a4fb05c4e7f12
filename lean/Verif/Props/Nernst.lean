import Verif.Lemmas.TameSum
import Verif.Lemmas.Trapezoid
import Verif.Props.HighTemp
import Verif.Props.ZeroTemp

/-! # C135: the entropy vanishes at low temperatures -/

namespace CasSph

open Spec Filter Topology MeasureTheory Set
open scoped Classical

variable {P : PairIn} {frac : ℝ → ℝ → ℝ} {q : Quad} {deltaT : ℝ} {nmax : ℤ}

theorem pairSum_integrable (h : PairOK P) (hp : P.precision ≤ 0) : IntegrableOn (pairSum P) (Ioi 0) :=
  (pairVal_integrable h).congr_fun (fun _ hk => pairVal_sum h hp hk) measurableSet_Ioi

theorem pairSum_bound (h : PairOK P) (hp : P.precision ≤ 0) {k : ℝ} (hk : 0 < k) :
    |pairSum P k| ≤ freeC P.r1 P.r2 P.L * sharpExp (k * (P.L - (P.r1 + P.r2))) := by
  rw [← pairVal_sum h hp hk]; exact (pairVal_val h hk).1

/-- Free energy at `c` times the temperature step, as a function of step and number of wavenumbers. -/
noncomputable def freeVal (P : PairIn) (z : ℝ) (c : ℕ) (d : ℝ) (n : ℕ) : ℝ :=
  c * d * (0.5 * z) + c * d * ∑ j ∈ Finset.range (n / c), pairSum P ((j + 1) * (c * d))

/-- Up to terms that are small compared to the temperature, the free energy is the integral over the grid. -/
theorem freeVal_limit (h : PairOK P) (hprec : P.precision ≤ 0) {z : ℝ} (hz : pairK0 frac P = .ok z) {d : ℕ → ℝ} {n : ℕ → ℕ} (hd : ∀ j, 0 < d j)
    (hd0 : Tendsto d atTop (𝓝 0)) (hn : Tendsto (fun j => (n j : ℝ) * d j) atTop atTop) {c : ℕ} (hc : 0 < c) :
    Tendsto (fun j => (freeVal P z c (d j) (n j) - ∫ k in (0 : ℝ)..(n j * d j), pairSum P k) / d j) atTop (𝓝 0) := by
  have hg : 0 < P.L - (P.r1 + P.r2) := sub_pos.mpr h.sep
  have hC := freeC_pos h.h1 h.h2 h.sep
  set g := P.L - (P.r1 + P.r2) with hgdef
  have hcr : (0 : ℝ) < c := by exact_mod_cast hc
  have hT : ∀ j, 0 < c * d j := fun j => mul_pos hcr (hd j)
  have hT0 : Tendsto (fun j => c * d j) atTop (𝓝 0) := by simpa using hd0.const_mul (c : ℝ)
  obtain ⟨A, hA, hb⟩ := pairSum_deriv_bound h hprec
  have trap := trap_limit (f := pairSum P) (f' := deriv (pairSum P)) (g := fun k => A * sharpExp (k * g)) (pairSum_tendsto h hprec hz)
    (fun k hk => (pairSum_deriv h hk).1) (fun k hk => (pairSum_deriv h hk).2)
    (fun k k' hk hkk => mul_le_mul_of_nonneg_left (sharpExp_anti (by positivity) (mul_le_mul_of_nonneg_right hkk hg.le)) hA)
    ((sharpExp_integrable hg).const_mul _) hb (T := fun j => c * d j) (N := fun j => n j / c) hT hT0
  -- the end of the grid
  have grid : ∀ j, ((n j / c : ℕ) : ℝ) * (c * d j) ≤ n j * d j ∧ n j * d j ≤ ((n j / c : ℕ) : ℝ) * (c * d j) + c * d j := by
    intro j
    have h1 : ((n j / c : ℕ) : ℝ) * c ≤ n j := by exact_mod_cast Nat.div_mul_le_self _ _
    have h2 : (n j : ℝ) ≤ ((n j / c : ℕ) : ℝ) * c + c := by
      have e1 := Nat.div_add_mod (n j) c
      have e2 := Nat.mod_lt (n j) hc
      have : n j ≤ n j / c * c + c := by rw [mul_comm (_ / _)]; omega
      exact_mod_cast this
    constructor <;> nlinarith [hd j]
  have hN : Tendsto (fun j => ((n j / c : ℕ) : ℝ) * (c * d j)) atTop atTop := by
    have h1 : Tendsto (fun j => n j * d j - c * d j) atTop atTop := by simpa [sub_eq_add_neg] using hn.atTop_add hT0.neg
    exact tendsto_atTop_mono (fun j => by linarith [(grid j).2]) h1
  have sh : Tendsto (fun j => freeC P.r1 P.r2 P.L * sharpExp (((n j / c : ℕ) : ℝ) * (c * d j) * g)) atTop (𝓝 0) := by
    have := (sharpExp_zero.comp (hN.atTop_mul_const hg)).const_mul (freeC P.r1 P.r2 P.L)
    rw [mul_zero] at this
    exact this
  have last : Tendsto (fun j => (if n j / c = 0 then z else pairSum P (((n j / c : ℕ) : ℝ) * (c * d j))) / 2) atTop (𝓝 0) := by
    refine squeeze_zero_norm' ?_ sh
    filter_upwards [hN.eventually_gt_atTop 0] with j hj
    have h0 : n j / c ≠ 0 := fun e => by rw [e] at hj; simp at hj
    rw [if_neg h0, Real.norm_eq_abs, abs_div, abs_two]
    linarith [pairSum_bound h hprec hj, abs_nonneg (pairSum P (((n j / c : ℕ) : ℝ) * (c * d j)))]
  have rest : Tendsto (fun j => (∫ k in (((n j / c : ℕ) : ℝ) * (c * d j))..(n j * d j), pairSum P k) / d j) atTop (𝓝 0) := by
    have sh2 := sh.mul_const (c : ℝ)
    rw [zero_mul] at sh2
    refine squeeze_zero_norm' ?_ sh2
    filter_upwards [hN.eventually_gt_atTop 0] with j hj
    obtain ⟨g1, g2⟩ := grid j
    have b := intervalIntegral.norm_integral_le_of_norm_le_const (a := ((n j / c : ℕ) : ℝ) * (c * d j)) (b := n j * d j) (f := pairSum P)
      (C := freeC P.r1 P.r2 P.L * sharpExp (((n j / c : ℕ) : ℝ) * (c * d j) * g)) fun k hk => by
        rw [uIoc_of_le g1] at hk
        exact (pairSum_bound h hprec (hj.trans hk.1)).trans
          (mul_le_mul_of_nonneg_left (sharpExp_anti (by positivity) (mul_le_mul_of_nonneg_right hk.1.le hg.le)) hC.le)
    rw [norm_div, Real.norm_eq_abs (d j), abs_of_pos (hd j), div_le_iff₀ (hd j)]
    refine b.trans ?_
    rw [abs_of_nonneg (sub_nonneg.2 g1), mul_assoc _ (c : ℝ)]
    exact mul_le_mul_of_nonneg_left (by linarith) (mul_nonneg hC.le (sharpExp_nonneg _))
  have total := ((trap.add last).const_mul (c : ℝ)).sub rest
  simp only [add_zero, mul_zero, sub_zero] at total
  refine total.congr fun j => ?_
  have hi := pairSum_integrable h hprec
  have ii : ∀ a b : ℝ, 0 ≤ a → a ≤ b → IntervalIntegrable (pairSum P) volume a b := fun a b ha hab =>
    (intervalIntegrable_iff_integrableOn_Ioc_of_le hab).2 (hi.mono_set fun x hx => ha.trans_lt hx.1)
  have h0 : 0 ≤ ((n j / c : ℕ) : ℝ) * (c * d j) := mul_nonneg (Nat.cast_nonneg _) (hT j).le
  have split := intervalIntegral.integral_add_adjacent_intervals (ii 0 _ le_rfl h0) (ii _ _ h0 (grid j).1)
  rw [← split]
  unfold freeVal
  have := hd j
  generalize (if n j / c = 0 then z else pairSum P (((n j / c : ℕ) : ℝ) * (c * d j))) = x1
  generalize ∑ k ∈ Finset.range (n j / c), pairSum P ((k + 1) * (c * d j)) = x2
  generalize (∫ k in (0 : ℝ)..(((n j / c : ℕ) : ℝ) * (c * d j)), pairSum P k) = x3
  generalize (∫ k in (((n j / c : ℕ) : ℝ) * (c * d j))..(n j * d j), pairSum P k) = x4
  field_simp
  ring

theorem freeEnergy_val (h : PairOK P) (hprec : P.precision ≤ 0) {z : ℝ} (hz : pairK0 frac P = .ok z) {p : FTParams} (hg : p.geo = pairGeo exactBes frac P)
    (hp : p.nprocs.isZero) (ha : p.analyticN0 = true) (hT : 0 < p.deltaT) (hN : 0 ≤ p.nmax) :
    ∃ F : List ℝ, (freeEnergy p FT.fresh).1 = .ok F ∧ F.length = p.maxstep.toNat ∧
      ∀ i : ℕ, (i : ℤ) < p.maxstep → F[i]? = some (freeVal P z (i + 1) p.deltaT p.nmax.toNat) := by
  obtain ⟨F, hF, hl, hval⟩ := freeEnergy_slices p (z := z) (by rw [hg]; exact pairGeo_valsOk h) (by rw [hg]; exact hz) hp ha hT
    (N := p.nmax.toNat) (Int.toNat_of_nonneg hN).symm
  refine ⟨F, hF, hl, fun i hi => ?_⟩
  have := hval (i + 1) (by omega) (by push_cast; omega)
  rw [Nat.add_sub_cancel] at this
  rw [this, mul_add, hg]
  unfold freeVal
  congr 3
  refine Finset.sum_congr rfl fun n hn => ?_
  rw [sliceVal_sum h hprec hT (Nat.one_le_iff_ne_zero.mpr (by positivity))
    ((Nat.mul_le_mul_right _ (Finset.mem_range.mp hn)).trans (Nat.div_mul_le_self _ _))]
  congr 1
  push_cast
  ring

/-- **C135, rate.** At low temperatures `free_energy` agrees with `e0` up to terms that are small compared to the temperature. -/
theorem C135_rate (h : PairOK P) (hq : q.Exact) (hprec : P.precision ≤ 0) {p : ℕ → FTParams} (hg : ∀ j, (p j).geo = pairGeo exactBes frac P)
    (hp : ∀ j, (p j).nprocs.isZero) (ha : ∀ j, (p j).analyticN0 = true) (hT : ∀ j, 0 < (p j).deltaT) (hT0 : Tendsto (fun j => (p j).deltaT) atTop (𝓝 0))
    (hN : ∀ j, 0 ≤ (p j).nmax)
    (hNT : Tendsto (fun j => Real.exp (-((p j).nmax * (p j).deltaT * (P.L - (P.r1 + P.r2)))) / (p j).deltaT) atTop (𝓝 0)) {i : ℕ}
    (hi : ∀ j, (i : ℤ) < (p j).maxstep) {F : ℕ → List ℝ} (hF : ∀ j, (freeEnergy (p j) FT.fresh).1 = .ok (F j)) :
    ∃ E, e0 q (pairAt exactBes frac P) deltaT nmax 0 .inf = .ok E ∧
      Tendsto (fun j => ((F j).getD i 0 - E) / ((i + 1) * (p j).deltaT)) atTop (𝓝 0) := by
  have hd : 0 < P.L - (P.r1 + P.r2) := sub_pos.mpr h.sep
  have hC := freeC_pos h.h1 h.h2 h.sep
  obtain ⟨z, hz, -⟩ := C100_mSumme_k0 h frac
  refine ⟨∫ k in Ioi (0 : ℝ), pairVal P k, hq.inf _ _ 0 (fun k hk => pairAt_ok h hk) (pairVal_integrable h), ?_⟩
  have hsum : ∫ k in Ioi (0 : ℝ), pairVal P k = ∫ k in Ioi (0 : ℝ), pairSum P k :=
    setIntegral_congr_fun measurableSet_Ioi fun k hk => pairVal_sum h hprec hk
  have cast : ∀ j, ((p j).nmax.toNat : ℝ) = (p j).nmax := fun j => by
    have := Int.toNat_of_nonneg (hN j)
    exact_mod_cast this
  -- the grid reaches to infinity
  have e0 : Tendsto (fun j => Real.exp (-((p j).nmax * (p j).deltaT * (P.L - (P.r1 + P.r2))))) atTop (𝓝 0) := by
    have := hNT.mul hT0
    rw [mul_zero] at this
    exact this.congr fun j => div_mul_cancel₀ _ (hT j).ne'
  have inf : Tendsto (fun j => ((p j).nmax.toNat : ℝ) * (p j).deltaT) atTop atTop := by
    have l := tendsto_neg_atBot_iff.1 (show Tendsto (fun j => -((p j).nmax * (p j).deltaT * (P.L - (P.r1 + P.r2)))) atTop atBot from
      Real.tendsto_exp_comp_nhds_zero.1 e0)
    refine ((tendsto_mul_const_atTop_of_pos hd).1 l).congr fun j => by rw [cast]
  have main := freeVal_limit h hprec hz hT hT0 inf (Nat.succ_pos i)
  -- the part of the integral beyond the grid
  have tail : Tendsto (fun j => (∫ k in Ioi (((p j).nmax.toNat : ℝ) * (p j).deltaT), pairVal P k) / (p j).deltaT) atTop (𝓝 0) := by
    have l := hNT.const_mul (freeC P.r1 P.r2 P.L * (Real.pi / 2 / (P.L - (P.r1 + P.r2))))
    rw [mul_zero] at l
    refine squeeze_zero_norm (fun j => ?_) l
    have hR : 0 ≤ ((p j).nmax.toNat : ℝ) * (p j).deltaT := mul_nonneg (Nat.cast_nonneg _) (hT j).le
    have t := pairVal_tail h hR subset_rfl measurableSet_Ioi
    rw [norm_div, Real.norm_eq_abs, Real.norm_eq_abs (p j).deltaT, abs_of_pos (hT j), ← mul_div_assoc]
    refine div_le_div_of_nonneg_right (t.trans ?_) (hT j).le
    unfold zeroBound
    rw [mul_assoc (freeC P.r1 P.r2 P.L)]
    refine mul_le_mul_of_nonneg_left ?_ hC.le
    rw [div_mul_eq_mul_div, cast]
    refine div_le_div_of_nonneg_right ?_ hd.le
    have x0 := Real.exp_pos (-(((p j).nmax : ℝ) * (p j).deltaT * (P.L - (P.r1 + P.r2))))
    have x1 : Real.exp (-(((p j).nmax : ℝ) * (p j).deltaT * (P.L - (P.r1 + P.r2)))) ≤ 1 := by
      rw [Real.exp_le_one_iff, ← cast]
      have := mul_nonneg hR hd.le
      linarith
    have m := Real.mul_le_sin (Real.arcsin_nonneg.2 x0.le) (Real.arcsin_le_pi_div_two (Real.exp (-(((p j).nmax : ℝ) * (p j).deltaT * (P.L - (P.r1 + P.r2))))))
    rw [Real.sin_arcsin (by linarith) x1, div_mul_eq_mul_div, div_le_iff₀ Real.pi_pos] at m
    linarith
  have i0 : (0 : ℝ) < i + 1 := by positivity
  have total := (main.sub tail).div_const ((i : ℝ) + 1)
  rw [sub_zero, zero_div] at total
  refine total.congr fun j => ?_
  obtain ⟨G, hG, -, hval⟩ := freeEnergy_val h hprec hz (hg j) (hp j) (ha j) (hT j) (hN j)
  rw [hF j] at hG
  injection hG with hG
  have hR : 0 ≤ ((p j).nmax.toNat : ℝ) * (p j).deltaT := mul_nonneg (Nat.cast_nonneg _) (hT j).le
  have ts : ∫ k in Ioi (((p j).nmax.toNat : ℝ) * (p j).deltaT), pairVal P k = ∫ k in Ioi (((p j).nmax.toNat : ℝ) * (p j).deltaT), pairSum P k :=
    setIntegral_congr_fun measurableSet_Ioi fun k hk => pairVal_sum h hprec (hR.trans_lt hk)
  have sp := intervalIntegral.integral_interval_add_Ioi (pairSum_integrable h hprec) ((pairSum_integrable h hprec).mono_set (Ioi_subset_Ioi hR))
  rw [List.getD_eq_getElem?_getD, hG, hval i (hi j), Option.getD_some, hsum, ts, ← sp]
  have := hT j
  push_cast
  field_simp
  ring

/-- **C135, entropy.** The entropy vanishes at low temperatures. -/
theorem C135_entropy (h : PairOK P) (hprec : P.precision ≤ 0) {p : ℕ → FTParams} (hg : ∀ j, (p j).geo = pairGeo exactBes frac P)
    (hp : ∀ j, (p j).nprocs.isZero) (ha : ∀ j, (p j).analyticN0 = true) (hT : ∀ j, 0 < (p j).deltaT) (hT0 : Tendsto (fun j => (p j).deltaT) atTop (𝓝 0))
    (hN : ∀ j, 0 ≤ (p j).nmax) (hNT : Tendsto (fun j => (p j).nmax * (p j).deltaT) atTop atTop) (hm : ∀ j, 2 ≤ (p j).maxstep) :
    ∃ S : ℕ → List ℝ, (∀ j, (entropy (p j) FT.fresh).1 = .ok (S j) ∧ (S j).length = (p j).maxstep.toNat) ∧
      ∀ i : ℕ, (∀ j, (i : ℤ) < (p j).maxstep) → Tendsto (fun j => (S j).getD i 0) atTop (𝓝 0) := by
  obtain ⟨z, hz, -⟩ := C100_mSumme_k0 h frac
  choose F hF hl hval using fun j => freeEnergy_val h hprec hz (hg j) (hp j) (ha j) (hT j) (hN j)
  choose S hS hgr using fun j => C29_entropy (p j) FT.fresh (freeEnergy (p j) FT.fresh).2 (F j) (Prod.ext (hF j) rfl) (by rw [hl]; have := hm j; omega)
  refine ⟨S, fun j => ⟨by rw [hS], (hgr j).length.trans (hl j)⟩, fun i hi => ?_⟩
  have inf : Tendsto (fun j => ((p j).nmax.toNat : ℝ) * (p j).deltaT) atTop atTop := hNT.congr fun j => by
    have := Int.toNat_of_nonneg (hN j)
    congr 1
    exact_mod_cast this.symm
  have main := fun c => freeVal_limit h hprec hz hT hT0 inf (Nat.succ_pos c)
  set R : ℕ → ℕ → ℝ := fun c j => (freeVal P z (c + 1) (p j).deltaT (p j).nmax.toNat - ∫ k in (0 : ℝ)..((p j).nmax.toNat * (p j).deltaT), pairSum P k) / (p j).deltaT with hR
  have diff : ∀ a b j, (freeVal P z (b + 1) (p j).deltaT (p j).nmax.toNat - freeVal P z (a + 1) (p j).deltaT (p j).nmax.toNat) / (p j).deltaT = R b j - R a j :=
    fun a b j => by rw [hR]; simp only; rw [← sub_div]; congr 1; ring
  have lim : Tendsto (fun j => |R (i - 1) j| + |R i j| + |R (i + 1) j|) atTop (𝓝 0) := by
    have := ((main (i - 1)).abs.add (main i).abs).add (main (i + 1)).abs
    simpa using this
  refine squeeze_zero_norm (fun j => ?_) lim
  have hTj := hT j
  have a0 := abs_nonneg (R (i - 1) j)
  have a1 := abs_nonneg (R i j)
  have a2 := abs_nonneg (R (i + 1) j)
  have len : (S j).length = (p j).maxstep.toNat := (hgr j).length.trans (hl j)
  have hij := hi j
  have hmj := hm j
  have hs : (S j)[i]? = some (S j)[i] := List.getElem?_eq_getElem (by omega)
  rw [List.getD_eq_getElem?_getD, hs, Option.getD_some, Real.norm_eq_abs]
  rcases Nat.eq_zero_or_pos i with rfl | hi0
  · rw [(hgr j).first _ _ _ hs (hval j 0 (by omega)) (hval j 1 (by omega)), diff 0 1 j, abs_neg]
    exact (abs_sub _ _).trans (by linarith)
  · obtain ⟨i, rfl⟩ := Nat.exists_eq_add_of_le' hi0
    rw [Nat.add_sub_cancel] at a0 ⊢
    rcases Nat.lt_or_ge (i + 2) (p j).maxstep.toNat with hlt | hge
    · rw [(hgr j).inner i _ _ _ hs (hval j i (by omega)) (hval j (i + 2) (by omega)), abs_neg, mul_comm 2, ← div_div, diff i (i + 2) j, abs_div, abs_two]
      have := abs_sub (R (i + 2) j) (R i j)
      have := abs_nonneg (R (i + 2) j)
      linarith
    · rw [(hgr j).last i _ _ _ (by rw [hl]; omega) hs (hval j i (by omega)) (hval j (i + 1) (by omega)), abs_neg, diff i (i + 1) j]
      exact (abs_sub _ _).trans (by linarith)

/-- **C135, slope.** The values of `mSumme` are a continuously differentiable function of the wavenumber; with respect to the logarithm of the wavenumber
they change at most as fast as stated, and the slope stays bounded down to wavenumber zero. -/
theorem C135_slope (h : PairOK P) (hprec : P.precision ≤ 0) :
    ∃ f y : ℝ → ℝ, (∀ k, 0 < k → pairVals exactBes P [k] = .ok [f k] ∧ pairVals exactBes P.metal [k] = .ok [y k]) ∧
      (∀ k, 0 < k → DifferentiableAt ℝ f k ∧ ContinuousAt (deriv f) k) ∧
      (∀ k e, 0 < k → P.mat3.epsilon k = .ok e →
        k * |deriv f k| ≤ (120 + 26 * (P.lssmax + 1 + k * P.L * Real.sqrt e)) / (1 - shrink P.r1 P.r2 P.L) * -y k) ∧
      ∃ A, ∀ k, 0 < k → |deriv f k| ≤ A * sharpExp (k * (P.L - (P.r1 + P.r2))) ∧ |deriv f k| ≤ A := by
  have hd : 0 < P.L - (P.r1 + P.r2) := sub_pos.mpr h.sep
  have hL : 0 < P.L := by linarith [h.h1, h.h2]
  refine ⟨pairSum P, pairSum P.metal, fun k hk => ⟨pairVals_sum h hprec (by simp) (by simpa using hk), pairVals_sum h.metal hprec (by simp) (by simpa using hk)⟩,
    fun k hk => ⟨(pairSum_deriv h hk).1.differentiableAt, (pairSum_deriv h hk).2⟩, fun k e hk he => ?_, ?_⟩
  · have := medium_eps (medium_val h.m3.cls h.m3.phys hk).1
    rw [he] at this
    injection this with this
    simp only at this
    rw [this]
    exact pairSum_logDeriv h hk le_rfl (mul_nonneg (mul_nonneg hk.le hL.le) (Real.sqrt_nonneg _))
  · obtain ⟨A, hA, hb⟩ := pairSum_deriv_bound h hprec
    obtain ⟨f', h1, -, C, h3⟩ := pairSum_tame (K := 1) h
    have s1 := sharpExp_nonneg (1 * (P.L - (P.r1 + P.r2)))
    refine ⟨max (max A C) (A * sharpExp (1 * (P.L - (P.r1 + P.r2)))), fun k hk => ⟨?_, ?_⟩⟩
    · exact (hb k hk).trans (mul_le_mul_of_nonneg_right (le_max_of_le_left (le_max_left _ _)) (sharpExp_nonneg _))
    · rcases lt_or_ge k 1 with hk1 | hk1
      · rw [(h1 k ⟨hk, hk1⟩).deriv]
        exact (h3 k ⟨hk, hk1⟩).trans (le_max_of_le_left (le_max_right _ _))
      · exact ((hb k hk).trans (mul_le_mul_of_nonneg_left (sharpExp_anti (by positivity) (mul_le_mul_of_nonneg_right hk1 hd.le)) hA)).trans (le_max_right _ _)

/-! ## Examples -/

/-- Temperature steps `1/(j+1)` and grids up to wavenumber `j+1`. -/
noncomputable def coldGold (j : ℕ) : FTParams := ⟨1 / ((j : ℝ) + 1), (j + 1) ^ 2, 3, true, .int 0, pairGeo exactBes (fun _ _ => 0) goldPair⟩

theorem coldGold_grid (j : ℕ) : ((coldGold j).nmax : ℝ) * (coldGold j).deltaT = j + 1 := by
  unfold coldGold
  push_cast
  field_simp

/-- Two gold spheres (Drude model) of radii 1 and 4 at distance 6: all three entries of the entropy vanish. -/
example : ∃ S : ℕ → List ℝ, (∀ j, (entropy (coldGold j) FT.fresh).1 = .ok (S j) ∧ (S j).length = 3) ∧
    ∀ i < 3, Tendsto (fun j => (S j).getD i 0) atTop (𝓝 0) := by
  obtain ⟨S, h1, h2⟩ := C135_entropy (p := coldGold) goldPair_ok (by simp [goldPair]) (fun j => rfl) (fun j => rfl) (fun j => rfl)
    (fun j => by unfold coldGold; positivity) tendsto_one_div_add_atTop_nhds_zero_nat (fun j => by unfold coldGold; positivity)
    (by simp only [coldGold_grid]; exact tendsto_atTop_add_const_right _ _ tendsto_natCast_atTop_atTop) (fun j => by unfold coldGold; norm_num)
  exact ⟨S, h1, fun i hi => h2 i fun j => by unfold coldGold; simp only; omega⟩

example {F : ℕ → List ℝ} (hF : ∀ j, (freeEnergy (coldGold j) FT.fresh).1 = .ok (F j)) :
    ∃ E, e0 exactQuad (pairAt exactBes (fun _ _ => 0) goldPair) 1 10 0 .inf = .ok E ∧
      Tendsto (fun j => ((F j).getD 0 0 - E) / (((0 : ℕ) + 1) * (coldGold j).deltaT)) atTop (𝓝 0) := by
  refine C135_rate (p := coldGold) goldPair_ok exactQuad_exact (by simp [goldPair]) (fun j => rfl) (fun j => rfl) (fun j => rfl)
    (fun j => by unfold coldGold; positivity) tendsto_one_div_add_atTop_nhds_zero_nat (fun j => by unfold coldGold; positivity) ?_
    (fun j => by unfold coldGold; norm_num) hF
  have : Tendsto (fun j : ℕ => ((j : ℝ) + 1) ^ 1 * Real.exp (-((j : ℝ) + 1))) atTop (𝓝 0) :=
    (Real.tendsto_pow_mul_exp_neg_atTop_nhds_zero 1).comp (tendsto_atTop_add_const_right _ _ tendsto_natCast_atTop_atTop)
  refine this.congr fun j => ?_
  rw [coldGold_grid, show goldPair.L - (goldPair.r1 + goldPair.r2) = 1 by norm_num [goldPair]]
  unfold coldGold
  field_simp

example {f y : ℝ → ℝ} (hf : ∀ k, 0 < k → pairVals exactBes goldPair [k] = .ok [f k] ∧ pairVals exactBes goldPair.metal [k] = .ok [y k]) :
    |deriv f 1| ≤ 822 / (1 - 4 / 6.75) * -y 1 := by
  obtain ⟨f', y', h1, h2, h3, -⟩ := C135_slope goldPair_ok (by simp [goldPair])
  have e : ∀ k, 0 < k → f k = f' k ∧ y k = y' k := fun k hk => by
    have a := (hf k hk).1.symm.trans (h1 k hk).1
    have b := (hf k hk).2.symm.trans (h1 k hk).2
    simp only [Except.ok.injEq, List.cons.injEq, and_true] at a b
    exact ⟨a, b⟩
  have d : deriv f 1 = deriv f' 1 := Filter.EventuallyEq.deriv_eq (by filter_upwards [lt_mem_nhds one_pos] with k hk; exact (e k hk).1)
  have b := h3 1 1 one_pos (by rw [show goldPair.mat3 = ⟨.lorentz, [], none⟩ from rfl, epsilon_lorentz_ok one_pos rfl (by simp), lorentzEps_eq]; simp)
  rw [d, (e 1 one_pos).2]
  rw [Real.sqrt_one] at b
  norm_num [goldPair, shrink] at b ⊢
  linarith

end CasSph
