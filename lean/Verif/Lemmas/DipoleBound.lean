import Verif.Lemmas.DipoleAmp
import Verif.Props.Stronger
import Verif.Props.Catalogue

/-! # A bound on the interaction at large distances, uniform in the distance -/

namespace CasSph

open Spec Filter Topology MeasureTheory Set
open scoped Classical

theorem amp_pec {m md : Material} (hc : m.cls = .pec) (h : SphereMat m) (hd : MediumMat md) {k r : ℝ} (hk : 0 < k) (hr : 0 < r) :
    Amp m md k r 1 fun Q i => pecR Q i (k * Real.sqrt (md.epsV k) * r) := by
  have hσ := dense_of_le h hd hk (.inl hc)
  obtain ⟨A, hA⟩ := amp_exists h hd hk hr hσ
  have : A = fun Q i => pecR Q i (k * Real.sqrt (md.epsV k) * r) := by
    funext Q i
    rw [hA.val hσ.sign, ampV_pec hc hd hr i hk]
  rw [← this]
  exact hA

/-- Two perfectly conducting spheres in vacuum with the geometry of `P`. -/
noncomputable def PairIn.mirrors (P : PairIn) : PairIn := { P.metal with mat3 := vacuum }

theorem PairOK.mirrors {P : PairIn} (h : PairOK P) : PairOK P.mirrors := ⟨pec_sphere, pec_sphere, vacuumM_ok, h.h1, h.h2, h.sep, h.hl, h.hls⟩

/-- At large distances the determinant is bounded by the one of mirrors at a fixed distance. -/
theorem lnDetV_mirrors {P : PairIn} (h : PairOK P) {L : ℝ} (hL : 12 * Real.exp 1 * P.L ≤ L) {m : ℕ} (hm : max 1 m ≤ P.lmax) {k : ℝ} (hk : 0 < k) :
    |lnDetV (P.at L) m k| ≤ (12 * Real.exp 1 * (P.L / L) ^ 3) ^ 2 * -lnDetV P.mirrors m (k * L * Real.sqrt (P.mat3.epsV k) / P.L) := by
  have hL0 : 0 < P.L := by linarith [h.sep, h.h1, h.h2]
  have he : (1 : ℝ) ≤ Real.exp 1 := Real.one_le_exp (by norm_num)
  have hLL : P.L ≤ L := by nlinarith
  have hLp : 0 < L := hL0.trans_le hLL
  have h' := h.at hLL
  have hε := h.m3.one_le hk
  have hs0 : 0 < Real.sqrt (P.mat3.epsV k) := Real.sqrt_pos.mpr (by linarith)
  obtain ⟨σa, ea⟩ := dense_total h.m1 h.m3 hk
  obtain ⟨σb, eb⟩ := dense_total h.m2 h.m3 hk
  have d1 := dense_of_le pec_sphere h.m3 hk (.inl rfl)
  have h1 := (lnDetV_stronger h' h'.metal (Stronger.metal (P.at L)) (m := m) hm hk ea eb d1 d1).2.2 (by norm_num)
  refine h1.trans ?_
  set X := k * L * Real.sqrt (P.mat3.epsV k) with hX
  have hXp : 0 < X := by positivity
  have hk' : 0 < X / P.L := by positivity
  obtain ⟨g1, e1⟩ := lnDetV_kern h'.metal (m := m) hm hk (amp_pec rfl pec_sphere h.m3 hk h.h1) (amp_pec rfl pec_sphere h.m3 hk h.h2)
  obtain ⟨g2, e2⟩ := lnDetV_kern h.mirrors (m := m) hm hk' (amp_pec rfl pec_sphere vacuumM_ok hk' h.h1) (amp_pec rfl pec_sphere vacuumM_ok hk' h.h2)
  have arg : X / P.mirrors.L * P.mirrors.L * Real.sqrt (P.mirrors.mat3.epsV (X / P.L)) = X := by
    have : P.mirrors.mat3.epsV (X / P.L) = 1 := vacuumM_eps hk'
    rw [this, Real.sqrt_one, mul_one]
    exact div_mul_cancel₀ _ hL0.ne'
  have arg' : X / P.L * P.mirrors.L * Real.sqrt (P.mirrors.mat3.epsV (X / P.L)) = X := arg
  rw [arg'] at g2 e2
  rw [e1, e2, mul_one]
  have hC0 : 0 ≤ 12 * Real.exp 1 * (P.L / L) ^ 3 := by positivity
  have hq1 : P.L / L ≤ 1 := (div_le_one hLp).mpr hLL
  have hC1 : 12 * Real.exp 1 * (P.L / L) ^ 3 ≤ 1 := by
    have : (P.L / L) ^ 3 ≤ P.L / L := by
      have := pow_le_pow_of_le_one (show 0 ≤ P.L / L by positivity) hq1 (show 1 ≤ 3 by norm_num)
      rwa [pow_one] at this
    refine (mul_le_mul_of_nonneg_left this (by positivity)).trans ?_
    rw [← mul_div_assoc, div_le_one hLp]
    exact hL
  have scale : ∀ {r : ℝ}, 0 < r → ∀ Q i, pecR Q i (k * Real.sqrt (P.mat3.epsV k) * r) ≤
      12 * Real.exp 1 * (P.L / L) ^ 3 * pecR Q i (X / P.L * Real.sqrt (vacuum.epsV (X / P.L)) * r) := by
    intro r hr Q i
    rw [vacuumM_eps hk', Real.sqrt_one, mul_one]
    have := pecR_cubic Q i (q := P.L / L) (ρ := X / P.L * r) (by positivity) hq1 (by positivity)
    have e : P.L / L * (X / P.L * r) = k * Real.sqrt (P.mat3.epsV k) * r := by rw [hX]; field_simp
    rwa [e] at this
  refine HSContr.compare g2 g1 hC0 hC1 (fun i _ s _ => kern_nonneg hXp _ _ _ _ _) (fun i _ s _ => kern_nonneg hXp _ _ _ _ _) fun i _ s _ => ?_
  unfold kern
  have f0 := fab_nonneg m hXp i.bodd s.bodd (m - 1 + i.div2) (m - 1 + s.div2)
  have a := Real.sqrt_le_sqrt (scale h.h1 i.bodd (m - 1 + i.div2))
  have b := Real.sqrt_le_sqrt (scale h.h2 s.bodd (m - 1 + s.div2))
  rw [Real.sqrt_mul hC0] at a b
  have hsq : Real.sqrt (12 * Real.exp 1 * (P.L / L) ^ 3) * Real.sqrt (12 * Real.exp 1 * (P.L / L) ^ 3) = 12 * Real.exp 1 * (P.L / L) ^ 3 := Real.mul_self_sqrt hC0
  have hgen : ∀ {u v u' v' f c C : ℝ}, 0 ≤ u → 0 ≤ v → 0 ≤ f → 0 ≤ c → 0 ≤ u' → u ≤ c * u' → v ≤ c * v' → c * c = C → u * f * v ≤ C * (u' * f * v') := by
    rintro u v u' v' f c C hu hv hf hc hu' h1 h2 rfl
    have := mul_le_mul (mul_le_mul_of_nonneg_right h1 hf) h2 hv (by positivity)
    linarith
  exact hgen (Real.sqrt_nonneg _) (Real.sqrt_nonneg _) f0 (Real.sqrt_nonneg _) (Real.sqrt_nonneg _) a b hsq

/-- The relative gap. -/
noncomputable def PairIn.gap (P : PairIn) : ℝ := (P.L - (P.r1 + P.r2)) / P.L

theorem PairOK.gap_pos {P : PairIn} (h : PairOK P) : 0 < P.gap := by
  have hL0 : 0 < P.L := by linarith [h.sep, h.h1, h.h2]
  exact div_pos (sub_pos.mpr h.sep) hL0

theorem part_dominated {P : PairIn} (h : PairOK P) :
    ∃ C, 0 ≤ C ∧ ∀ L, 12 * Real.exp 1 * P.L ≤ L → ∀ x, 0 < x → ∀ v, PartSum (P.at L) (x / L) v → |L ^ 6 * v| ≤ C * sharpExp (x * P.gap) := by
  have hL0 : 0 < P.L := by linarith [h.sep, h.h1, h.h2]
  have he : (1 : ℝ) ≤ Real.exp 1 := Real.one_le_exp (by norm_num)
  set Q : PairIn := { P.mirrors with precision := 0 } with hQ
  have hQok : PairOK Q := ⟨pec_sphere, pec_sphere, vacuumM_ok, h.h1, h.h2, h.sep, h.hl, h.hls⟩
  have eQ : ∀ k, pairSum Q k = pairSum P.mirrors k := fun k => rfl
  have hfc := (freeC_pos h.h1 h.h2 h.sep).le
  refine ⟨(12 * Real.exp 1) ^ 2 * P.L ^ 6 * freeC P.r1 P.r2 P.L, by positivity, fun L hL x hx v hv => ?_⟩
  have hLL : P.L ≤ L := by nlinarith
  have hLp : 0 < L := hL0.trans_le hLL
  have hk : 0 < x / L := div_pos hx hLp
  have hε := h.m3.one_le hk
  have hs1 : 1 ≤ Real.sqrt (P.mat3.epsV (x / L)) := Real.one_le_sqrt.mpr hε
  set X := x / L * L * Real.sqrt (P.mat3.epsV (x / L)) with hX
  have hXx : x ≤ X := by
    rw [hX, div_mul_cancel₀ _ hLp.ne']
    exact le_mul_of_one_le_right hx.le hs1
  have hXp : 0 < X := hx.trans_le hXx
  have hk' : 0 < X / P.L := by positivity
  have key := fun m (hm : m ≤ P.lmax) => lnDetV_mirrors h hL (m := m) (by have := h.hl; omega) hk
  have hsum : |v| ≤ (12 * Real.exp 1 * (P.L / L) ^ 3) ^ 2 * -pairSum P.mirrors (X / P.L) := by
    obtain ⟨M, -, hM, rfl⟩ := hv
    unfold pairSum
    refine (abs_add_le _ _).trans ?_
    rw [abs_mul, abs_of_pos (show (0 : ℝ) < 2 by norm_num)]
    have a := key 0 (Nat.zero_le _)
    have b := (Finset.abs_sum_le_sum_abs (fun m => lnDetV (P.at L) m (x / L)) (Finset.Icc 1 M)).trans
      ((Finset.sum_le_sum_of_subset_of_nonneg (Finset.Icc_subset_Icc_right hM) fun _ _ _ => abs_nonneg _).trans
        (Finset.sum_le_sum fun m hm => key m (Finset.mem_Icc.mp hm).2))
    rw [← Finset.mul_sum, Finset.sum_neg_distrib] at b
    have e : P.mirrors.lmax = P.lmax := rfl
    have e' : (P.at L).lmax = P.lmax := rfl
    rw [e'] at b
    rw [e]
    linarith
  have hval : |pairSum P.mirrors (X / P.L)| ≤ freeC P.r1 P.r2 P.L * sharpExp (X / P.L * (P.L - (P.r1 + P.r2))) := by
    have := (pairVal_val hQok hk').1
    rw [pairVal_sum hQok le_rfl hk', eQ] at this
    exact this
  have hsh : sharpExp (X / P.L * (P.L - (P.r1 + P.r2))) ≤ sharpExp (x * P.gap) := by
    have hg := h.gap_pos
    have e : X / P.L * (P.L - (P.r1 + P.r2)) = X * P.gap := by unfold PairIn.gap; ring
    rw [e]
    exact sharpExp_anti (by positivity) (mul_le_mul_of_nonneg_right hXx hg.le)
  rw [abs_mul, abs_of_pos (show 0 < L ^ 6 by positivity)]
  calc L ^ 6 * |v| ≤ L ^ 6 * ((12 * Real.exp 1 * (P.L / L) ^ 3) ^ 2 * -pairSum P.mirrors (X / P.L)) :=
        mul_le_mul_of_nonneg_left hsum (by positivity)
    _ = (12 * Real.exp 1) ^ 2 * P.L ^ 6 * -pairSum P.mirrors (X / P.L) := by field_simp
    _ ≤ (12 * Real.exp 1) ^ 2 * P.L ^ 6 * (freeC P.r1 P.r2 P.L * sharpExp (x * P.gap)) := by
        refine mul_le_mul_of_nonneg_left ?_ (by positivity)
        exact ((neg_le_abs _).trans hval).trans (mul_le_mul_of_nonneg_left hsh hfc)
    _ = _ := by ring

/-! ## every value of `mSumme` is such a sum -/

theorem lnDetV_all_zero {P : PairIn} (h : PairOK P) {k : ℝ} (hk : 0 < k) (h0 : lnDetV P 0 k = 0) (m : ℕ) : lnDetV P m k = 0 := by
  refine lnDetV_zero h hk (fun hc => ?_) m
  obtain ⟨σa, ea⟩ := dense_total h.m1 h.m3 hk
  obtain ⟨σb, eb⟩ := dense_total h.m2 h.m3 hk
  have := lnDetV_strict h (m := 0) (by have := h.hl; omega) hk hc.1 hc.2 ea eb
  by_cases hs : σa = σb
  · exact (this.1 hs).ne h0
  · exact (this.2 hs).ne' h0

theorem pairVals_part {P : PairIn} (h : PairOK P) {ks : List ℝ} (hne : ks ≠ []) (hk : ∀ k ∈ ks, 0 < k) :
    ∃ vs, pairVals exactBes P ks = .ok vs ∧ vs.length = ks.length ∧ ∀ (j : ℕ) (k x : ℝ), ks[j]? = some k → vs[j]? = some x → PartSum P k x := by
  have hd : 0 < ks.length := List.length_pos_iff.mpr hne
  have hl := h.hl
  obtain ⟨M, h1, h2, h3, -⟩ := C13_mSumme hd (lmax := P.lmax) (precision := P.precision)
    (L := fun m => .ok fun i : Fin ks.length => lnDetV P m (ks.get i)) (v := fun m i => lnDetV P m (ks.get i)) fun _ _ => rfl
  refine ⟨_, by rw [pairVals_eq h hne hk, h1, ok_bind], by simp, fun j k x hj hx => ?_⟩
  have hlt : j < ks.length := by
    by_contra hh
    rw [List.getElem?_eq_none (by omega)] at hj
    simp at hj
  rw [List.getElem?_eq_getElem hlt] at hj
  injection hj with hj
  rw [List.getElem?_ofFn, dif_pos hlt] at hx
  injection hx with hx
  have hxe : x = lnDetV P 0 k + 2 * ∑ m ∈ Finset.Icc 1 M, lnDetV P m k := by
    rw [← hx, ← hj]; rfl
  have hk0 : 0 < k := by rw [← hj]; exact hk _ (List.getElem_mem hlt)
  by_cases hM : 1 ≤ M
  · exact ⟨M, hM, h2, hxe⟩
  · have hM0 : M = 0 := by omega
    subst hM0
    rcases h3 with (h3 | h3) | h3
    · have := h3 ⟨j, hlt⟩
      have e : lnDetV P 0 k = 0 := by
        rw [← hj]
        simpa [mSum] using this
      refine ⟨1, le_rfl, hl, ?_⟩
      rw [hxe]
      simp [lnDetV_all_zero h hk0 e]
    · exact absurd h3.1 (by omega)
    · omega

theorem sliceVal_part {P : PairIn} {frac : ℝ → ℝ → ℝ} (h : PairOK P) {deltaT : ℝ} (hT : 0 < deltaT) {N n : ℕ} (hn : 1 ≤ n) (hN : n ≤ N) :
    PartSum P (deltaT * n) (sliceVal (pairGeo exactBes frac P) deltaT N n) := by
  obtain ⟨k1, k2, k3⟩ := sliceKs_mem hT hn hN
  obtain ⟨vs, h1, h2, h3⟩ := pairVals_part h k1 k2
  have hlt : n - sliceLo n < vs.length := by
    rw [h2]
    by_contra hh
    rw [List.getElem?_eq_none (by omega)] at k3
    simp at k3
  have hx : vs[n - sliceLo n]? = some (vs.getD (n - sliceLo n) 0) := by
    rw [List.getD_eq_getElem?_getD, List.getElem?_eq_getElem hlt]; rfl
  have e : sliceVal (pairGeo exactBes frac P) deltaT N n = vs.getD (n - sliceLo n) 0 := by
    unfold sliceVal pairGeo
    simp only
    rw [h1]
  rw [e]
  exact h3 _ _ _ k3 hx

theorem pairVal_part {P : PairIn} (h : PairOK P) {k : ℝ} (hk : 0 < k) : PartSum P k (pairVal P k) := by
  obtain ⟨vs, h1, -, h2⟩ := pairVals_part h (ks := [k]) (by simp) (by simpa using hk)
  rw [pairVal_ok h hk] at h1
  injection h1 with h1
  subst h1
  exact h2 0 k _ rfl rfl

end CasSph
