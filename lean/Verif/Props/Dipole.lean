import Verif.Lemmas.DipoleK0
import Verif.Lemmas.DipoleSum

/-! # C114: the limit of large distances is the interaction of two dipoles -/

namespace CasSph

open Spec Filter Topology MeasureTheory Set
open scoped Classical

variable {P : PairIn} {frac : ℝ → ℝ → ℝ} {q : Quad} {deltaT : ℝ} {nmax : ℤ} {aE aM bE bM e3 : ℝ}

theorem PairOK.L_pos (h : PairOK P) : 0 < P.L := by linarith [h.sep, h.h1, h.h2]

theorem PairOK.index_pos (h : PairOK P) (h3 : P.mat3.epsilon 0 = .ok e3) : 0 < Real.sqrt e3 := by
  obtain ⟨e, q1, he, -⟩ := dielectric_static h.m3.diel h.m3.phys
  rw [h3] at q1
  injection q1 with q1
  rw [q1]
  exact Real.sqrt_pos.mpr he

/-- **C114, `mSumme`.** At wavenumbers `x/L` the values of `mSumme`, multiplied with `L⁶`, converge to the interaction of two dipoles. -/
theorem C114_mSumme (h : PairOK P) (ha : DipoleOf P.mat1 P.mat3 aE aM) (hb : DipoleOf P.mat2 P.mat3 bE bM) (h3 : P.mat3.epsilon 0 = .ok e3) {xs : List ℝ}
    (hne : xs ≠ []) (hx : ∀ x ∈ xs, 0 < x) :
    ∃ V : ℝ → List ℝ, (∀ L, P.L ≤ L → pairVals exactBes (P.at L) (xs.map (· / L)) = .ok (V L) ∧ (V L).length = xs.length) ∧
      ∀ (j : ℕ) (x : ℝ), xs[j]? = some x → Tendsto (fun L => L ^ 6 * (V L).getD j 0) atTop
        (𝓝 (-((P.r1 * P.r2) ^ 3 * dipolePhi (aE * bE + aM * bM) (aE * bM + aM * bE) (Real.sqrt e3 * x)))) := by
  have key : ∀ L : ℝ, ∃ vs : List ℝ, P.L ≤ L → pairVals exactBes (P.at L) (xs.map (· / L)) = .ok vs ∧ vs.length = xs.length ∧
      ∀ (j : ℕ) (k x : ℝ), (xs.map (· / L))[j]? = some k → vs[j]? = some x → PartSum (P.at L) k x := by
    intro L
    by_cases hL : P.L ≤ L
    · have hL0 : 0 < L := h.L_pos.trans_le hL
      obtain ⟨vs, h1, h2, h4⟩ := pairVals_part (h.at hL) (ks := xs.map (· / L)) (by simpa using hne) (by
        intro k hk
        rw [List.mem_map] at hk
        obtain ⟨x, hx', rfl⟩ := hk
        exact div_pos (hx x hx') hL0)
      exact ⟨vs, fun _ => ⟨h1, by simpa using h2, h4⟩⟩
    · exact ⟨[], fun hh => absurd hh hL⟩
  choose V hV using key
  refine ⟨V, fun L hL => ⟨(hV L hL).1, (hV L hL).2.1⟩, fun j x hj => ?_⟩
  have hlt : j < xs.length := by
    by_contra hh
    rw [List.getElem?_eq_none (by omega)] at hj
    simp at hj
  have hx0 : 0 < x := hx x (List.mem_of_getElem? hj)
  refine part_dipole h ha hb h3 hx0 ?_
  filter_upwards [eventually_ge_atTop P.L] with L hL
  obtain ⟨-, h2, h4⟩ := hV L hL
  refine h4 j _ _ (by rw [List.getElem?_map, hj]; rfl) ?_
  rw [List.getD_eq_getElem?_getD, List.getElem?_eq_getElem (by omega)]
  rfl

/-- **C114, `mSumme_k0`.** -/
theorem C114_mSumme_k0 (h : PairOK P) (ha : DipoleOf P.mat1 P.mat3 aE aM) (hb : DipoleOf P.mat2 P.mat3 bE bM) (frac : ℝ → ℝ → ℝ) :
    ∃ z : ℝ → ℝ, (∀ L, P.L ≤ L → pairK0 frac (P.at L) = .ok (z L)) ∧
      Tendsto (fun L => L ^ 6 * z L) atTop (𝓝 (-(6 * (P.r1 * P.r2) ^ 3 * (aE * bE + aM * bM)))) :=
  pairK0_dipole h frac ha hb

/-- Values of `free_energy` at the distances `L`. -/
theorem free_far {p : ℝ → FTParams} (h : PairOK P) {z : ℝ → ℝ} (hz : ∀ L, P.L ≤ L → pairK0 frac (P.at L) = .ok (z L))
    (hg : ∀ L, P.L ≤ L → (p L).geo = pairGeo exactBes frac (P.at L)) (hp : ∀ L, (p L).nprocs.isZero) (han : ∀ L, (p L).analyticN0 = true)
    (hT : ∀ L, P.L ≤ L → 0 < (p L).deltaT) {i : ℕ} (hmx : ∀ L, i < (p L).maxstep.toNat) :
    ∃ F : ℝ → List ℝ, (∀ L, P.L ≤ L → 0 ≤ (p L).nmax → (freeEnergy (p L) FT.fresh).1 = .ok (F L) ∧ (F L).length = (p L).maxstep.toNat) ∧
      ∀ L, P.L ≤ L → 0 ≤ (p L).nmax → (F L).getD i 0 = (i + 1 : ℕ) * (p L).deltaT * (0.5 * z L + ∑ j ∈ Finset.range ((p L).nmax.toNat / (i + 1)),
        sliceVal (pairGeo exactBes frac (P.at L)) (p L).deltaT (p L).nmax.toNat ((j + 1) * (i + 1))) := by
  have key : ∀ L : ℝ, ∃ F : List ℝ, P.L ≤ L → 0 ≤ (p L).nmax → (freeEnergy (p L) FT.fresh).1 = .ok F ∧ F.length = (p L).maxstep.toNat ∧
      F.getD i 0 = (i + 1 : ℕ) * (p L).deltaT * (0.5 * z L + ∑ j ∈ Finset.range ((p L).nmax.toNat / (i + 1)),
        sliceVal (pairGeo exactBes frac (P.at L)) (p L).deltaT (p L).nmax.toNat ((j + 1) * (i + 1))) := by
    intro L
    by_cases hL : P.L ≤ L ∧ 0 ≤ (p L).nmax
    · obtain ⟨F, h1, h2, h4⟩ := free_values (p := p L) (h.at hL.1) (hz L hL.1) (hg L hL.1) (hp L) (han L) (hT L hL.1) hL.2
      refine ⟨F, fun _ _ => ⟨h1, h2, ?_⟩⟩
      rw [List.getD_eq_getElem?_getD, h4 i (by rw [h2]; exact hmx L)]
      rfl
    · exact ⟨[], fun h1 h2 => absurd ⟨h1, h2⟩ hL⟩
  choose F hF using key
  exact ⟨F, fun L h1 h2 => ⟨(hF L h1 h2).1, (hF L h1 h2).2.1⟩, fun L h1 h2 => (hF L h1 h2).2.2⟩

/-- `if j < N then … else 0`, summed -/
theorem sum_range_tsum (N : ℕ) (f : ℕ → ℝ) : ∑' j, (if j < N then f j else 0) = ∑ j ∈ Finset.range N, f j := by
  rw [tsum_eq_sum (s := Finset.range N)]
  · exact Finset.sum_congr rfl fun j hj => if_pos (Finset.mem_range.mp hj)
  · intro j hj; exact if_neg fun hh => hj (Finset.mem_range.mpr hh)

/-- **C114, `free_energy`.** At a temperature that decreases as `ν/L` the free energy, multiplied with `L⁷`, converges to that of two dipoles. -/
theorem C114_free_energy {p : ℝ → FTParams} (h : PairOK P) (ha : DipoleOf P.mat1 P.mat3 aE aM) (hb : DipoleOf P.mat2 P.mat3 bE bM)
    (h3 : P.mat3.epsilon 0 = .ok e3) (hg : ∀ L, P.L ≤ L → (p L).geo = pairGeo exactBes frac (P.at L)) (hp : ∀ L, (p L).nprocs.isZero)
    (han : ∀ L, (p L).analyticN0 = true) {i : ℕ} (hmx : ∀ L, i < (p L).maxstep.toNat) {ν : ℝ} (hν : 0 < ν)
    (hT : ∀ L, P.L ≤ L → (i + 1 : ℕ) * (p L).deltaT * L = ν) (hN : Tendsto (fun L => (p L).nmax) atTop atTop) :
    ∃ F : ℝ → List ℝ, (∀ L, P.L ≤ L → 0 ≤ (p L).nmax → (freeEnergy (p L) FT.fresh).1 = .ok (F L) ∧ (F L).length = (p L).maxstep.toNat) ∧
      Tendsto (fun L => L ^ 7 * (F L).getD i 0) atTop
        (𝓝 (-((P.r1 * P.r2) ^ 3 * dipoleFree (aE * bE + aM * bM) (aE * bM + aM * bE) (Real.sqrt e3 * ν) / Real.sqrt e3))) := by
  obtain ⟨z, hz, hzlim⟩ := C114_mSumme_k0 h ha hb frac
  have hi : (0 : ℝ) < (i + 1 : ℕ) := by positivity
  have hT0 : ∀ L, P.L ≤ L → 0 < (p L).deltaT := by
    intro L hL
    have hL0 := h.L_pos.trans_le hL
    by_contra hh
    have : (i + 1 : ℕ) * (p L).deltaT * L ≤ 0 := mul_nonpos_of_nonpos_of_nonneg (mul_nonpos_of_nonneg_of_nonpos hi.le (not_lt.mp hh)) hL0.le
    linarith [hT L hL]
  obtain ⟨F, h1, h2⟩ := free_far h hz hg hp han hT0 hmx
  refine ⟨F, h1, ?_⟩
  have hκ := h.index_pos h3
  obtain ⟨C, hC0, hC⟩ := part_dominated h
  have hgap := h.gap_pos
  set S : ℝ → ℕ → ℝ := fun L j => sliceVal (pairGeo exactBes frac (P.at L)) (p L).deltaT (p L).nmax.toNat ((j + 1) * (i + 1)) with hS
  have hpart : ∀ L, P.L ≤ L → ∀ j, j < (p L).nmax.toNat / (i + 1) → PartSum (P.at L) (((j : ℝ) + 1) * ν / L) (S L j) := by
    intro L hL j hj
    have hL0 := h.L_pos.trans_le hL
    have := sliceVal_part (frac := frac) (h.at hL) (hT0 L hL) (N := (p L).nmax.toNat) (n := (j + 1) * (i + 1)) (Nat.one_le_iff_ne_zero.mpr (by positivity))
      ((Nat.mul_le_mul_right _ hj).trans (Nat.div_mul_le_self _ _))
    have e : (p L).deltaT * (((j + 1) * (i + 1) : ℕ) : ℝ) = ((j : ℝ) + 1) * ν / L := by
      rw [← hT L hL]
      push_cast
      field_simp
    rwa [e] at this
  have hNd : ∀ j : ℕ, ∀ᶠ L in atTop, j < (p L).nmax.toNat / (i + 1) := by
    intro j
    filter_upwards [hN.eventually_ge_atTop (((j + 1) * (i + 1) : ℕ) : ℤ)] with L hL
    have hL' := Int.toNat_le_toNat hL
    rw [Int.toNat_natCast] at hL'
    exact (Nat.le_div_iff_mul_le (by omega)).mpr hL'
  have hsum := tendsto_tsum_of_dominated_convergence (𝓕 := atTop) (f := fun L j => if j < (p L).nmax.toNat / (i + 1) then L ^ 6 * S L j else 0)
    (g := fun j : ℕ => -((P.r1 * P.r2) ^ 3 * dipolePhi (aE * bE + aM * bM) (aE * bM + aM * bE) (Real.sqrt e3 * (((j : ℝ) + 1) * ν))))
    (bound := fun j : ℕ => C * sharpExp (((j : ℝ) + 1) * (ν * P.gap))) ((sharpExp_summable (by positivity)).mul_left C) ?_ ?_
  · have hs := dipolePhi_sum (aE * bE + aM * bM) (aE * bM + aM * bE) (y := Real.sqrt e3 * ν) (mul_pos hκ hν)
    have hs' := (hs.mul_left ((P.r1 * P.r2) ^ 3)).neg.tsum_eq
    have e : ∀ j : ℕ, Real.sqrt e3 * (((j : ℝ) + 1) * ν) = ((j : ℝ) + 1) * (Real.sqrt e3 * ν) := fun j => by ring
    simp only [e] at hsum
    rw [hs'] at hsum
    have lim := ((hzlim.const_mul 0.5).add hsum).const_mul ν
    have hv : ν * (0.5 * -(6 * (P.r1 * P.r2) ^ 3 * (aE * bE + aM * bM)) + -((P.r1 * P.r2) ^ 3 *
        ((((aE * bE + aM * bM) * (ftmtm0 (Real.sqrt e3 * ν / Real.sinh (Real.sqrt e3 * ν)) (Real.cosh (Real.sqrt e3 * ν)) +
          ftmtm1 (Real.sqrt e3 * ν / Real.sinh (Real.sqrt e3 * ν)) (Real.cosh (Real.sqrt e3 * ν)))
          - 2 * (aE * bM + aM * bE) * ftmte1 (Real.sqrt e3 * ν / Real.sinh (Real.sqrt e3 * ν)) (Real.cosh (Real.sqrt e3 * ν))) / (Real.sqrt e3 * ν)) -
          3 * (aE * bE + aM * bM)))) =
        -((P.r1 * P.r2) ^ 3 * dipoleFree (aE * bE + aM * bM) (aE * bM + aM * bE) (Real.sqrt e3 * ν) / Real.sqrt e3) := by
      unfold dipoleFree
      field_simp
      ring
    rw [← hv]
    refine lim.congr' ?_
    filter_upwards [eventually_ge_atTop P.L, hN.eventually_ge_atTop 0] with L hL hN0
    rw [h2 L hL hN0, sum_range_tsum, ← Finset.mul_sum, ← hT L hL]
    ring
  · intro j
    refine (part_dipole h ha hb h3 (x := ((j : ℝ) + 1) * ν) (by positivity) (v := fun L => S L j) ?_).congr' ?_
    · filter_upwards [eventually_ge_atTop P.L, hNd j] with L hL hj
      exact hpart L hL j hj
    · filter_upwards [hNd j] with L hj
      rw [if_pos hj]
  · filter_upwards [eventually_ge_atTop P.L, eventually_ge_atTop (12 * Real.exp 1 * P.L)] with L hL hL2
    intro j
    split
    · rename_i hj
      have := hC L hL2 (((j : ℝ) + 1) * ν) (by positivity) _ (hpart L hL j hj)
      rwa [mul_assoc ((j : ℝ) + 1)] at this
    · rw [norm_zero]
      exact mul_nonneg hC0 (sharpExp_nonneg _)

/-- **C114, high temperatures.** At a fixed temperature only the zero frequency remains. -/
theorem C114_high_temperature {p : ℝ → FTParams} (h : PairOK P) (ha : DipoleOf P.mat1 P.mat3 aE aM) (hb : DipoleOf P.mat2 P.mat3 bE bM)
    (hg : ∀ L, P.L ≤ L → (p L).geo = pairGeo exactBes frac (P.at L)) (hp : ∀ L, (p L).nprocs.isZero)
    (han : ∀ L, (p L).analyticN0 = true) {i : ℕ} (hmx : ∀ L, i < (p L).maxstep.toNat) {T : ℝ} (hT0 : 0 < T)
    (hT : ∀ L, P.L ≤ L → (i + 1 : ℕ) * (p L).deltaT = T) (hN : ∀ L, 0 ≤ (p L).nmax) :
    ∃ F : ℝ → List ℝ, (∀ L, P.L ≤ L → (freeEnergy (p L) FT.fresh).1 = .ok (F L) ∧ (F L).length = (p L).maxstep.toNat) ∧
      Tendsto (fun L => L ^ 6 * (F L).getD i 0) atTop (𝓝 (-(3 * T * (P.r1 * P.r2) ^ 3 * (aE * bE + aM * bM)))) := by
  obtain ⟨z, hz, hzlim⟩ := C114_mSumme_k0 h ha hb frac
  have hi : (0 : ℝ) < (i + 1 : ℕ) := by positivity
  have hd0 : ∀ L, P.L ≤ L → 0 < (p L).deltaT := fun L hL => pos_of_mul_pos_right (by rw [hT L hL]; exact hT0) hi.le
  obtain ⟨F, h1, h2⟩ := free_far h hz hg hp han hd0 hmx
  refine ⟨F, fun L hL => h1 L hL (hN L), ?_⟩
  obtain ⟨C, hC0, hC⟩ := part_dominated h
  have hgap := h.gap_pos
  set S : ℝ → ℕ → ℝ := fun L j => sliceVal (pairGeo exactBes frac (P.at L)) (p L).deltaT (p L).nmax.toNat ((j + 1) * (i + 1)) with hS
  have hbd : ∀ L, P.L ≤ L → 12 * Real.exp 1 * P.L ≤ L → ∀ j, j < (p L).nmax.toNat / (i + 1) →
      |L ^ 6 * S L j| ≤ C * sharpExp (L * (((j : ℝ) + 1) * T * P.gap)) := by
    intro L hL hL2 j hj
    have hL0 := h.L_pos.trans_le hL
    have := sliceVal_part (frac := frac) (h.at hL) (hd0 L hL) (N := (p L).nmax.toNat) (n := (j + 1) * (i + 1)) (Nat.one_le_iff_ne_zero.mpr (by positivity))
      ((Nat.mul_le_mul_right _ hj).trans (Nat.div_mul_le_self _ _))
    have e : (p L).deltaT * (((j + 1) * (i + 1) : ℕ) : ℝ) = L * (((j : ℝ) + 1) * T) / L := by
      rw [← hT L hL]
      push_cast
      field_simp
    rw [e] at this
    have := hC L hL2 (L * (((j : ℝ) + 1) * T)) (by positivity) _ this
    rwa [mul_assoc L] at this
  have hsum := tendsto_tsum_of_dominated_convergence (𝓕 := atTop) (f := fun L j => if j < (p L).nmax.toNat / (i + 1) then L ^ 6 * S L j else 0)
    (g := fun _ : ℕ => (0 : ℝ)) (bound := fun j : ℕ => C * sharpExp (((j : ℝ) + 1) * (T * P.gap))) ((sharpExp_summable (by positivity)).mul_left C) ?_ ?_
  · rw [tsum_zero] at hsum
    have lim := ((hzlim.const_mul 0.5).add hsum).const_mul T
    have hv : T * (0.5 * -(6 * (P.r1 * P.r2) ^ 3 * (aE * bE + aM * bM)) + 0) = -(3 * T * (P.r1 * P.r2) ^ 3 * (aE * bE + aM * bM)) := by ring
    rw [← hv]
    refine lim.congr' ?_
    filter_upwards [eventually_ge_atTop P.L] with L hL
    rw [h2 L hL (hN L), sum_range_tsum, ← Finset.mul_sum, ← hT L hL]
    ring
  · intro j
    have hpos : 0 < ((j : ℝ) + 1) * T * P.gap := by positivity
    have hsh : Tendsto (fun L : ℝ => C * sharpExp (L * (((j : ℝ) + 1) * T * P.gap))) atTop (𝓝 0) := by
      have := ((sharpExp_zero).comp (tendsto_id.atTop_mul_const hpos)).const_mul C
      rwa [mul_zero] at this
    refine squeeze_zero_norm' ?_ hsh
    filter_upwards [eventually_ge_atTop P.L, eventually_ge_atTop (12 * Real.exp 1 * P.L)] with L hL hL2
    split
    · exact hbd L hL hL2 j (by assumption)
    · rw [norm_zero]
      exact mul_nonneg hC0 (sharpExp_nonneg _)
  · filter_upwards [eventually_ge_atTop P.L, eventually_ge_atTop (12 * Real.exp 1 * P.L), eventually_ge_atTop 1] with L hL hL2 hL1
    intro j
    split
    · refine (hbd L hL hL2 j (by assumption)).trans (mul_le_mul_of_nonneg_left (sharpExp_anti (by positivity) ?_) hC0)
      rw [mul_assoc ((j : ℝ) + 1)]
      exact le_mul_of_one_le_left (by positivity) hL1
    · rw [norm_zero]
      exact mul_nonneg hC0 (sharpExp_nonneg _)

/-- **C114, `e0`.** The energy at zero temperature decreases with the seventh power of the distance. -/
theorem C114_zero_temperature (h : PairOK P) (hq : q.Exact) (ha : DipoleOf P.mat1 P.mat3 aE aM) (hb : DipoleOf P.mat2 P.mat3 bE bM)
    (h3 : P.mat3.epsilon 0 = .ok e3) :
    ∃ E : ℝ → ℝ, (∀ L, P.L ≤ L → e0 q (pairAt exactBes frac (P.at L)) deltaT nmax 0 .inf = .ok (E L)) ∧
      Tendsto (fun L => L ^ 7 * E L) atTop
        (𝓝 (-((P.r1 * P.r2) ^ 3 * (23 / 2 * (aE * bE + aM * bM) - 7 / 2 * (aE * bM + aM * bE)) / Real.sqrt e3))) := by
  have hκ := h.index_pos h3
  obtain ⟨C, hC0, hC⟩ := part_dominated h
  have hgap := h.gap_pos
  refine ⟨fun L => ∫ k in Ioi (0 : ℝ), pairVal (P.at L) k, fun L hL => e0_value (h.at hL) hq le_rfl (b := .inf) (by simp) (by simp), ?_⟩
  have lim := tendsto_integral_filter_of_dominated_convergence (l := atTop) (μ := volume.restrict (Ioi (0 : ℝ)))
    (F := fun L x => L ^ 6 * pairVal (P.at L) (x / L))
    (f := fun x => -((P.r1 * P.r2) ^ 3 * dipolePhi (aE * bE + aM * bM) (aE * bM + aM * bE) (Real.sqrt e3 * x)))
    (fun x => C * sharpExp (x * P.gap)) ?_ ?_ ((sharpExp_integrable hgap).const_mul C) ?_
  · rw [integral_neg, integral_const_mul, dipolePhi_integral _ _ hκ, ← mul_div_assoc] at lim
    refine lim.congr' ?_
    filter_upwards [eventually_gt_atTop 0] with L hL
    rw [integral_const_mul]
    have e := integral_comp_mul_left_Ioi (fun k => pairVal (P.at L) k) 0 (inv_pos.mpr hL)
    rw [mul_zero, inv_inv, smul_eq_mul] at e
    have e' : (fun x : ℝ => pairVal (P.at L) (x / L)) = fun x => pairVal (P.at L) (L⁻¹ * x) := by funext x; rw [div_eq_inv_mul]
    rw [e', e]
    ring
  · filter_upwards [eventually_ge_atTop P.L] with L hL
    exact (((pairVal_measurable (h.at hL)).comp (measurable_id.div_const L)).const_mul _).aestronglyMeasurable
  · filter_upwards [eventually_ge_atTop P.L, eventually_ge_atTop (12 * Real.exp 1 * P.L)] with L hL hL2
    refine (ae_restrict_iff' measurableSet_Ioi).mpr (.of_forall fun x hx => ?_)
    exact hC L hL2 x hx _ (pairVal_part (h.at hL) (div_pos hx (h.L_pos.trans_le hL)))
  · refine (ae_restrict_iff' measurableSet_Ioi).mpr (.of_forall fun x hx => ?_)
    refine part_dipole h ha hb h3 hx (v := fun L => pairVal (P.at L) (x / L)) ?_
    filter_upwards [eventually_ge_atTop P.L] with L hL
    exact pairVal_part (h.at hL) (div_pos hx (h.L_pos.trans_le hL))

/-! ## perfect conductors in vacuum -/

theorem dipoleExpected_pos {ν : ℝ} (hν : 0 < ν) : 0 < 1.25 * ftmtm0 (ν / Real.sinh ν) (Real.cosh ν) + 1.25 * ftmtm1 (ν / Real.sinh ν) (Real.cosh ν) +
    2 * ftmte1 (ν / Real.sinh ν) (Real.cosh ν) := by
  have h1 : 0 < ν / Real.sinh ν := div_pos hν (Real.sinh_pos_iff.mpr hν)
  have h2 := Real.cosh_pos ν
  unfold ftmtm0 ftmtm1 ftmte1
  positivity

theorem vacuum_static : vacuum.epsilon 0 = .ok 1 := by
  obtain ⟨e, h1, -, h2⟩ := dielectric_static vacuumM_ok.diel vacuumM_ok.phys
  rw [h1]
  congr 1
  refine tendsto_nhds_unique h2 (tendsto_const_nhds.congr' ?_)
  filter_upwards [self_mem_nhdsWithin] with k hk
  exact (vacuumM_eps hk).symm

/-- **C114, the functional test.** tests/test_functional.py `DipoleLimit` in the limit it approximates: for perfectly conducting spheres in vacuum the ratio of the
free energy and the analytical expression of the test converges to 1, whatever the radii, the cut-offs, `precision` and the temperature. -/
theorem C114_functional_test {p : ℝ → FTParams} (h : PairOK P) (h1 : P.mat1.cls = .pec) (h2 : P.mat2.cls = .pec) (h3 : P.mat3 = vacuum)
    (hg : ∀ L, P.L ≤ L → (p L).geo = pairGeo exactBes frac (P.at L)) (hp : ∀ L, (p L).nprocs.isZero)
    (han : ∀ L, (p L).analyticN0 = true) {i : ℕ} (hmx : ∀ L, i < (p L).maxstep.toNat) {ν : ℝ} (hν : 0 < ν)
    (hT : ∀ L, P.L ≤ L → (i + 1 : ℕ) * (p L).deltaT * L = ν) (hN : Tendsto (fun L => (p L).nmax) atTop atTop) :
    ∃ F : ℝ → List ℝ, (∀ L, P.L ≤ L → 0 ≤ (p L).nmax → (freeEnergy (p L) FT.fresh).1 = .ok (F L) ∧ (F L).length = (p L).maxstep.toNat) ∧
      Tendsto (fun L => (F L).getD i 0 / dipoleExpected P.r1 P.r2 L ν) atTop (𝓝 1) := by
  have h30 : P.mat3.epsilon 0 = .ok 1 := by rw [h3]; exact vacuum_static
  obtain ⟨F, f1, f2⟩ := C114_free_energy h (aE := 1) (aM := -(1 / 2)) (bE := 1) (bM := -(1 / 2)) (.inl ⟨h1, rfl, rfl⟩) (.inl ⟨h2, rfl, rfl⟩) h30 hg hp han hmx hν hT hN
  refine ⟨F, f1, ?_⟩
  have hD := dipoleExpected_pos hν
  have hr : 0 < (P.r1 * P.r2) ^ 3 := pow_pos (mul_pos h.h1 h.h2) 3
  set D := 1.25 * ftmtm0 (ν / Real.sinh ν) (Real.cosh ν) + 1.25 * ftmtm1 (ν / Real.sinh ν) (Real.cosh ν) + 2 * ftmte1 (ν / Real.sinh ν) (Real.cosh ν) with hDd
  have e : -((P.r1 * P.r2) ^ 3 * dipoleFree (1 * 1 + -(1 / 2) * -(1 / 2)) (1 * -(1 / 2) + -(1 / 2) * 1) (Real.sqrt 1 * ν) / Real.sqrt 1) = -((P.r1 * P.r2) ^ 3 * D) := by
    rw [hDd, Real.sqrt_one, show (1 : ℝ) * ν = ν from one_mul ν]
    unfold dipoleFree
    ring
  rw [e] at f2
  have f3 := f2.div_const (-((P.r1 * P.r2) ^ 3 * D))
  rw [div_self (by nlinarith [mul_pos hr hD])] at f3
  refine f3.congr' ?_
  filter_upwards [eventually_gt_atTop 0] with L hL
  unfold dipoleExpected
  rw [← hDd, div_pow]
  field_simp

/-! ## concrete cases -/

/-- The spheres of tests/test_functional.py:18-31. -/
noncomputable def testPair : PairIn := ⟨⟨.pec, [], none⟩, ⟨.pec, [], none⟩, vacuum, 0.9, 0.6, 40, 1, 1, 1e-5⟩

theorem testPair_ok : PairOK testPair :=
  ⟨pec_sphere, pec_sphere, vacuumM_ok, by norm_num [testPair], by norm_num [testPair], by norm_num [testPair], by norm_num [testPair], by norm_num [testPair]⟩

/-- The test for distances from 40 upwards, with the temperature step `0.4/L`, 100 temperatures and at least `L` frequencies. -/
example (i : ℕ) (hi : i < 100) : ∃ F : ℝ → List ℝ,
    (∀ L, 40 ≤ L → (freeEnergy ⟨0.4 / L, ⌈L⌉, 100, true, .int 0, pairGeo exactBes (fun _ _ => 0) (testPair.at L)⟩ FT.fresh).1 = .ok (F L) ∧ (F L).length = 100) ∧
    Tendsto (fun L => (F L).getD i 0 / dipoleExpected 0.9 0.6 L ((i + 1 : ℕ) * 0.4)) atTop (𝓝 1) := by
  obtain ⟨F, h1, h2⟩ := C114_functional_test (i := i) (ν := (i + 1 : ℕ) * 0.4)
    (p := fun L => ⟨0.4 / L, ⌈L⌉, 100, true, .int 0, pairGeo exactBes (fun _ _ => 0) (testPair.at L)⟩) testPair_ok rfl rfl rfl (fun _ _ => rfl) (fun _ => rfl)
    (fun _ => rfl) (fun _ => hi) (by positivity)
    (fun L hL => by have : (40 : ℝ) ≤ L := hL; simp only; field_simp) tendsto_ceil_atTop
  exact ⟨F, fun L hL => h1 L hL (Int.ceil_nonneg (by linarith)), h2⟩

theorem gold_dipole : DipoleOf goldPair.mat1 goldPair.mat3 1 0 :=
  .inr (.inr ⟨⟨by simp [goldPair], ⟨⟨1.37e16, 0, 5.77e13⟩, by simp [goldPair, eGold], by norm_num, rfl⟩, by norm_num [goldPair, eGold]⟩, rfl, rfl⟩)

/-- Two gold spheres of radius 1 and 4 in vacuum: `L⁷` times the energy at zero temperature converges to `-736`. -/
example : ∃ E : ℝ → ℝ, (∀ L, 6 ≤ L → e0 exactQuad (pairAt exactBes (fun _ _ => 0) (goldPair.at L)) 0.01 500 0 .inf = .ok (E L)) ∧
    Tendsto (fun L => L ^ 7 * E L) atTop (𝓝 (-736)) := by
  obtain ⟨E, h1, h2⟩ := C114_zero_temperature (frac := fun _ _ => 0) (deltaT := 0.01) (nmax := 500) goldPair_ok exactQuad_exact gold_dipole gold_dipole
    (e3 := 1) vacuum_static
  refine ⟨E, h1, ?_⟩
  convert h2 using 2
  norm_num [goldPair]

/-- The same spheres at the temperature 2: `L⁶` times the free energy converges to `-384`. -/
example : ∃ F : ℝ → List ℝ,
    (∀ L, 6 ≤ L → (freeEnergy ⟨0.01, 500, 200, true, .int 0, pairGeo exactBes (fun _ _ => 0) (goldPair.at L)⟩ FT.fresh).1 = .ok (F L) ∧ (F L).length = 200) ∧
    Tendsto (fun L => L ^ 6 * (F L).getD 199 0) atTop (𝓝 (-384)) := by
  obtain ⟨F, h1, h2⟩ := C114_high_temperature (i := 199) (T := 2)
    (p := fun L => ⟨0.01, 500, 200, true, .int 0, pairGeo exactBes (fun _ _ => 0) (goldPair.at L)⟩) goldPair_ok gold_dipole gold_dipole (fun _ _ => rfl) (fun _ => rfl)
    (fun _ => rfl) (fun _ => by norm_num) (by norm_num) (fun L hL => by norm_num) (fun _ => by norm_num)
  refine ⟨F, h1, ?_⟩
  convert h2 using 2
  norm_num [goldPair]

/-- Polarisabilities of two water spheres in vacuum: the interaction at one wavenumber. -/
example (aE aM : ℝ) (h : DipoleOf ⟨.lorentz, eWater, none⟩ vacuum aE aM) : ∃ V : ℝ → List ℝ,
    (∀ L, 6 ≤ L → pairVals exactBes ⟨⟨.lorentz, eWater, none⟩, ⟨.lorentz, eWater, none⟩, vacuum, 1, 4, L, 20, 20, 1e-5⟩ [2 / L] = .ok (V L)) ∧
    Tendsto (fun L => L ^ 6 * (V L).getD 0 0) atTop (𝓝 (-(64 * dipolePhi (aE * aE + aM * aM) (aE * aM + aM * aE) 2))) := by
  obtain ⟨V, h1, h2⟩ := C114_mSumme (P := ⟨⟨.lorentz, eWater, none⟩, ⟨.lorentz, eWater, none⟩, vacuum, 1, 4, 6, 20, 20, 1e-5⟩)
    ⟨⟨.inr (.inl water_diel), water_diel.2, rfl⟩, ⟨.inr (.inl water_diel), water_diel.2, rfl⟩, vacuumM_ok, by norm_num, by norm_num, by norm_num, by norm_num, by norm_num⟩ h h vacuum_static (xs := [2]) (by simp) (by simp)
  refine ⟨V, fun L hL => (h1 L hL).1, ?_⟩
  have := h2 0 2 rfl
  rw [Real.sqrt_one, one_mul] at this
  norm_num at this
  exact this

end CasSph
