import Verif.Props.Dipole
import Verif.Props.Thermo

/-! # C116: high temperatures -/

namespace CasSph

open Spec Filter Topology
open scoped Classical

variable {P : PairIn} {frac : ℝ → ℝ → ℝ} {p : FTParams}

/-- The value at one wavenumber, wherever the sum over `m` has been cut. -/
theorem part_bound (h : PairOK P) {k : ℝ} (hk : 0 < k) {v : ℝ} (hv : PartSum P k v) :
    |v| ≤ freeC P.r1 P.r2 P.L * sharpExp (k * (P.L - (P.r1 + P.r2))) ∧
    (EqualContrast P.mat1 P.mat2 P.mat3 → v ≤ 0) ∧ (OppositeContrast P.mat1 P.mat2 P.mat3 → 0 ≤ v) := by
  obtain ⟨M, hM1, hM, rfl⟩ := hv
  have e' : lnDetV P 0 k + 2 * ∑ m ∈ Finset.Icc 1 M, lnDetV P m k = mSum (fun m (_ : Fin 1) => lnDetV P m k) M 0 := rfl
  have hm : ∀ m ≤ P.lmax, max 1 m ≤ P.lmax := fun m hm => by have := h.hl; omega
  obtain ⟨a, b, S⟩ := h.pair hk
  obtain ⟨q0, q1, -, hq⟩ := S.geometric
  have x1 : Real.exp (-(2 * optGap ⟨P.mat3.epsV k, 1⟩ P.r1 P.r2 P.L k)) < 1 := by
    rw [Real.exp_lt_one_iff]; linarith [S.gap_pos]
  have hb : ∀ m ≤ P.lmax, |lnDetV P m k| ≤ pairTrace ⟨P.mat3.epsV k, 1⟩ P.r1 P.r2 P.L k 0 /
      Real.sqrt (1 - Real.exp (-(2 * optGap ⟨P.mat3.epsV k, 1⟩ P.r1 P.r2 P.L k))) * pairRatio ⟨P.mat3.epsV k, 1⟩ P.r1 P.r2 P.L ^ (m - 1) := by
    intro m hm'
    refine (lnDetV_val h (hm m hm') hk).1.trans (le_of_eq ?_)
    have := hq m
    unfold pairBound at this
    rw [div_mul_eq_mul_div] at this
    have := (div_left_inj' (sub_pos.mpr x1).ne').mp this
    rw [this, div_mul_eq_mul_div]
  rw [e']
  refine ⟨((mSum_geometric (v := fun m (_ : Fin 1) => lnDetV P m k) (i := 0) hM q0.le q1 hb).2).trans
    (pair_le_sharp h.h1 h.h2 h.sep hk (h.m3.one_le hk)), fun hc => ?_, fun hc => ?_⟩
  · obtain ⟨σ, ea, eb⟩ := hc.finite k hk
    exact (mSum_nonpos (v := fun m (_ : Fin 1) => lnDetV P m k) (i := 0) hM fun m hm' => ((lnDetV_val h (hm m hm') hk).2 σ σ ea eb).1 rfl).2
  · obtain ⟨σ, ea, eb⟩ := hc.finite k hk
    exact (mSum_nonneg (v := fun m (_ : Fin 1) => lnDetV P m k) (i := 0) hM fun m hm' => ((lnDetV_val h (hm m hm') hk).2 _ _ ea eb).2 (ne_neg_sign ea)).1

/-- Bound on everything but the zero frequency at the scaled temperature `T`. -/
noncomputable def highBound (r1 r2 L T : ℝ) : ℝ := T * (freeC r1 r2 L * (sharpExp (T * (L - (r1 + r2))) / (1 - Real.exp (-(T * (L - (r1 + r2)))))))

theorem sharp_sum {a : ℝ} (ha : 0 < a) (n : ℕ) : ∑ j ∈ Finset.range n, sharpExp (((j : ℝ) + 1) * a) ≤ sharpExp a / (1 - Real.exp (-a)) := by
  have h1 : Real.exp (-a) < 1 := by rw [Real.exp_lt_one_iff]; linarith
  have hb : ∀ j : ℕ, sharpExp (((j : ℝ) + 1) * a) ≤ sharpExp a * Real.exp (-a) ^ j := by
    intro j
    have hx : a ≤ ((j : ℝ) + 1) * a := by nlinarith [(Nat.cast_nonneg j : (0 : ℝ) ≤ j)]
    unfold sharpExp
    rw [div_mul_eq_mul_div, ← Real.exp_nat_mul, ← Real.exp_add]
    have e1 : Real.exp (-(2 * a)) < 1 := by rw [Real.exp_lt_one_iff]; linarith
    have e2 : Real.exp (-(2 * (((j : ℝ) + 1) * a))) ≤ Real.exp (-(2 * a)) := Real.exp_le_exp.mpr (by linarith)
    refine div_le_div₀ (Real.exp_pos _).le (Real.exp_le_exp.mpr (by linarith)) (Real.sqrt_pos.mpr (by linarith)) (Real.sqrt_le_sqrt (by linarith))
  refine (Finset.sum_le_sum fun j _ => hb j).trans ?_
  rw [← Finset.mul_sum, div_eq_mul_inv]
  refine mul_le_mul_of_nonneg_left ?_ (sharpExp_nonneg _)
  rw [← tsum_geometric_of_lt_one (Real.exp_pos _).le h1]
  exact (summable_geometric_of_lt_one (Real.exp_pos _).le h1).sum_le_tsum _ fun _ _ => by positivity

/-- **C116, `free_energy`.** At every temperature `T` the free energy differs from `T/2` times `mSumme_k0` at most by the bound, whatever the number of
frequencies, the cut-offs and the precision. -/
theorem C116_free_energy (h : PairOK P) (hg : p.geo = pairGeo exactBes frac P) (hp : p.nprocs.isZero) (ha : p.analyticN0 = true) (hT : 0 < p.deltaT)
    (hN : 0 ≤ p.nmax) :
    ∃ z, pairK0 frac P = .ok z ∧ ∃ F : List ℝ, (freeEnergy p FT.fresh).1 = .ok F ∧ F.length = p.maxstep.toNat ∧
      ∀ (i : ℕ) (x : ℝ), F[i]? = some x →
        |x - (i + 1) * p.deltaT / 2 * z| ≤ highBound P.r1 P.r2 P.L ((i + 1) * p.deltaT) ∧
        (EqualContrast P.mat1 P.mat2 P.mat3 → x ≤ (i + 1) * p.deltaT / 2 * z) ∧
        (OppositeContrast P.mat1 P.mat2 P.mat3 → (i + 1) * p.deltaT / 2 * z ≤ x) := by
  obtain ⟨z, hz, -⟩ := C100_mSumme_k0 h frac
  obtain ⟨F, hF, hl, hval⟩ := free_values h hz hg hp ha hT hN
  refine ⟨z, hz, F, hF, hl, fun i x hx => ?_⟩
  have hi : i < F.length := by
    by_contra hh
    rw [List.getElem?_eq_none (by omega)] at hx
    simp at hx
  have e := hval i hi
  rw [hx] at e
  injection e with e
  have hTi : 0 < ((i : ℝ) + 1) * p.deltaT := by positivity
  have hd : 0 < P.L - (P.r1 + P.r2) := sub_pos.mpr h.sep
  set S := ∑ j ∈ Finset.range (p.nmax.toNat / (i + 1)), sliceVal (pairGeo exactBes frac P) p.deltaT p.nmax.toNat ((j + 1) * (i + 1)) with hS
  have hd' : x - (i + 1) * p.deltaT / 2 * z = (i + 1) * p.deltaT * S := by
    rw [e]; push_cast; ring
  have key := fun j (hj : j ∈ Finset.range (p.nmax.toNat / (i + 1))) =>
    part_bound h (mul_pos hT (by positivity)) (sliceVal_part (frac := frac) h hT (N := p.nmax.toNat) (n := (j + 1) * (i + 1))
      (Nat.one_le_iff_ne_zero.mpr (by positivity)) ((Nat.mul_le_mul_right _ (Finset.mem_range.mp hj)).trans (Nat.div_mul_le_self _ _)))
  refine ⟨?_, fun hc => ?_, fun hc => ?_⟩
  · rw [hd', abs_mul, abs_of_pos hTi]
    unfold highBound
    refine mul_le_mul_of_nonneg_left ((Finset.abs_sum_le_sum_abs _ _).trans ((Finset.sum_le_sum fun j hj => (key j hj).1).trans ?_)) hTi.le
    rw [← Finset.mul_sum]
    refine mul_le_mul_of_nonneg_left (le_trans (le_of_eq ?_) (sharp_sum (mul_pos hTi hd) (p.nmax.toNat / (i + 1)))) (freeC_pos h.h1 h.h2 h.sep).le
    refine Finset.sum_congr rfl fun j _ => ?_
    congr 1
    push_cast
    ring
  · have : S ≤ 0 := Finset.sum_nonpos fun j hj => (key j hj).2.1 hc
    nlinarith
  · have : 0 ≤ S := Finset.sum_nonneg fun j hj => (key j hj).2.2 hc
    nlinarith [mul_nonneg hTi.le this]

/-- **C116, size of the bound.** It falls exponentially. -/
theorem C116_bound (r1 r2 L : ℝ) (h1 : 0 < r1) (h2 : 0 < r2) (hs : r1 + r2 < L) {T : ℝ} (hT : 1 ≤ T * (L - (r1 + r2))) :
    0 < highBound r1 r2 L T ∧ highBound r1 r2 L T ≤ 2 * freeC r1 r2 L * T * Real.exp (-(T * (L - (r1 + r2)))) := by
  have hd : 0 < L - (r1 + r2) := sub_pos.mpr hs
  have hT0 : 0 < T := by by_contra hh; nlinarith
  have hC := freeC_pos h1 h2 hs
  set x := T * (L - (r1 + r2)) with hx
  have hE : Real.exp (-x) ≤ 3 / 8 := by
    have h1 : Real.exp (-x) ≤ Real.exp (-1) := Real.exp_le_exp.mpr (by linarith)
    have h2 := Real.exp_neg_one_lt_d9
    norm_num at h2 ⊢
    linarith
  have hE0 := Real.exp_pos (-x)
  have hE2 : Real.exp (-(2 * x)) = Real.exp (-x) ^ 2 := by rw [← Real.exp_nat_mul]; congr 1; push_cast; ring
  have hsq : 9 / 10 ≤ Real.sqrt (1 - Real.exp (-(2 * x))) := by
    refine Real.le_sqrt_of_sq_le ?_
    rw [hE2]
    nlinarith
  have hsharp : sharpExp x / (1 - Real.exp (-x)) ≤ 2 * Real.exp (-x) := by
    unfold sharpExp
    rw [div_div, div_le_iff₀ (by nlinarith)]
    have : 1 / 2 ≤ Real.sqrt (1 - Real.exp (-(2 * x))) * (1 - Real.exp (-x)) := by nlinarith
    nlinarith
  unfold highBound
  constructor
  · have : 0 < sharpExp x := div_pos hE0 (by linarith)
    have : 0 < 1 - Real.exp (-x) := by linarith
    positivity
  · calc T * (freeC r1 r2 L * (sharpExp x / (1 - Real.exp (-x)))) ≤ T * (freeC r1 r2 L * (2 * Real.exp (-x))) := by gcongr
      _ = _ := by ring

/-- **C116, `entropy`.** Away from the first and last temperature the entropy differs from `-1/2` times `mSumme_k0` by the bounds at the two temperatures
of the difference quotient. -/
theorem C116_entropy (h : PairOK P) (hg : p.geo = pairGeo exactBes frac P) (hp : p.nprocs.isZero) (ha : p.analyticN0 = true) (hT : 0 < p.deltaT)
    (hN : 0 ≤ p.nmax) (hm : 2 ≤ p.maxstep) :
    ∃ z, pairK0 frac P = .ok z ∧ ∃ S : List ℝ, (entropy p FT.fresh).1 = .ok S ∧ S.length = p.maxstep.toNat ∧
      ∀ (i : ℕ) (s : ℝ), i + 3 ≤ S.length → S[i + 1]? = some s →
        |s + z / 2| ≤ (highBound P.r1 P.r2 P.L ((i + 1) * p.deltaT) + highBound P.r1 P.r2 P.L ((i + 3) * p.deltaT)) / (2 * p.deltaT) := by
  obtain ⟨z, hz, F, hF, hl, hval⟩ := C116_free_energy h hg hp ha hT hN
  obtain ⟨S, hS, hgr⟩ := C29_entropy p FT.fresh (freeEnergy p FT.fresh).2 F (Prod.ext hF rfl) (by omega)
  refine ⟨z, hz, S, by rw [hS], hgr.length.trans hl, fun i s hi hs => ?_⟩
  rw [hgr.length] at hi
  have e0 : F[i]? = some F[i] := List.getElem?_eq_getElem (by omega)
  have e1 : F[i + 2]? = some F[i + 2] := List.getElem?_eq_getElem (by omega)
  have e := hgr.inner i s _ _ hs e0 e1
  have b0 := (hval i _ e0).1
  have b1 := (hval (i + 2) _ e1).1
  push_cast at b1
  rw [show (i : ℝ) + 2 + 1 = i + 3 by ring] at b1
  rw [abs_le] at b0 b1
  have hs2 : s + z / 2 = ((F[i] - (i + 1) * p.deltaT / 2 * z) - (F[i + 2] - (i + 3) * p.deltaT / 2 * z)) / (2 * p.deltaT) := by
    rw [e]; field_simp; ring
  rw [hs2, abs_div, abs_of_pos (show 0 < 2 * p.deltaT by positivity)]
  refine div_le_div_of_nonneg_right ?_ (by positivity)
  rw [abs_le]
  constructor <;> linarith

theorem highBound_limit (r1 r2 L : ℝ) (h1 : 0 < r1) (h2 : 0 < r2) (hs : r1 + r2 < L) : Tendsto (highBound r1 r2 L) atTop (𝓝 0) := by
  have hd : 0 < L - (r1 + r2) := sub_pos.mpr hs
  have hx : Tendsto (fun T : ℝ => T * (L - (r1 + r2))) atTop atTop := tendsto_id.atTop_mul_const hd
  have lim : Tendsto (fun T : ℝ => 2 * freeC r1 r2 L / (L - (r1 + r2)) * ((T * (L - (r1 + r2))) ^ 1 * Real.exp (-(T * (L - (r1 + r2)))))) atTop (𝓝 0) := by
    have := ((Real.tendsto_pow_mul_exp_neg_atTop_nhds_zero 1).comp hx).const_mul (2 * freeC r1 r2 L / (L - (r1 + r2)))
    rwa [mul_zero] at this
  refine squeeze_zero' ?_ ?_ lim
  · filter_upwards [hx.eventually_ge_atTop 1] with T hT
    exact (C116_bound r1 r2 L h1 h2 hs hT).1.le
  · filter_upwards [hx.eventually_ge_atTop 1] with T hT
    refine (C116_bound r1 r2 L h1 h2 hs hT).2.trans (le_of_eq ?_)
    field_simp

/-- **C116, limit.** For growing temperature steps, at every temperature of the list, the free energy approaches `T/2` times `mSumme_k0`. -/
theorem C116_limit {p : ℕ → FTParams} (h : PairOK P) (hg : ∀ n, (p n).geo = pairGeo exactBes frac P) (hp : ∀ n, (p n).nprocs.isZero)
    (ha : ∀ n, (p n).analyticN0 = true) (hT : ∀ n, 0 < (p n).deltaT) (hTl : Tendsto (fun n => (p n).deltaT) atTop atTop) (hN : ∀ n, 0 ≤ (p n).nmax) (i : ℕ)
    (hi : ∀ n, (i : ℤ) < (p n).maxstep) :
    ∃ z, pairK0 frac P = .ok z ∧ ∃ x : ℕ → ℝ, (∀ n, ∃ F : List ℝ, (freeEnergy (p n) FT.fresh).1 = .ok F ∧ F[i]? = some (x n)) ∧
      Tendsto (fun n => x n - (i + 1) * (p n).deltaT / 2 * z) atTop (𝓝 0) := by
  obtain ⟨z, hz, -⟩ := C100_mSumme_k0 h frac
  choose z' hz' F hF hl hval using fun n => C116_free_energy h (hg n) (hp n) (ha n) (hT n) (hN n)
  have hzz : ∀ n, z' n = z := fun n => by have := (hz' n).symm.trans hz; injection this
  have hlt : ∀ n, i < (F n).length := fun n => by rw [hl]; have := hi n; omega
  refine ⟨z, hz, fun n => (F n)[i]'(hlt n), fun n => ⟨F n, hF n, List.getElem?_eq_getElem (hlt n)⟩, ?_⟩
  refine squeeze_zero_norm (fun n => ?_) ((highBound_limit P.r1 P.r2 P.L h.h1 h.h2 h.sep).comp ((hTl.const_mul_atTop (show 0 < (i : ℝ) + 1 by positivity))))
  have := (hval n i _ (List.getElem?_eq_getElem (hlt n))).1
  rw [hzz] at this
  exact this

/-! ## Example -/

/-- Gold spheres (radii 1 and 4, distance 6) at the scaled temperatures 20, 40, 60: the entropy at 40 is that of the zero frequency up to the bound. -/
example : ∃ z, pairK0 (fun _ _ => 0) goldPair = .ok z ∧ ∃ S : List ℝ,
    (entropy ⟨20, 500, 3, true, .int 0, pairGeo exactBes (fun _ _ => 0) goldPair⟩ FT.fresh).1 = .ok S ∧ S.length = 3 ∧
      ∀ s, S[1]? = some s → |s + z / 2| ≤ (highBound 1 4 6 20 + highBound 1 4 6 60) / 40 := by
  obtain ⟨z, hz, S, hS, hl, hb⟩ := C116_entropy (p := ⟨20, 500, 3, true, .int 0, pairGeo exactBes (fun _ _ => 0) goldPair⟩) goldPair_ok rfl rfl rfl
    (by norm_num) (by norm_num) (by norm_num)
  refine ⟨z, hz, S, hS, hl, fun s hs => ?_⟩
  have := hb 0 s (by rw [hl]; norm_num) hs
  norm_num [goldPair] at this
  exact this

end CasSph
