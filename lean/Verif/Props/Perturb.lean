import Verif.Lemmas.PerturbPair

/-! # C126: errors of the Mie coefficients and of the matrix -/

namespace CasSph

open Spec Filter Topology

variable {frac : ℝ → ℝ → ℝ}

/-! ## Entries of the matrix -/

/-- **C126, entries.** Two separate spheres, any `m` and cut-offs: if every entry of the round-trip matrix has a relative error of at
most `δ`, the determinant stays positive and `ln det(1 - M)` has at most the relative error `gain δ θ` for equal contrast and `2 gain δ θ`
for opposite contrast, where `θ < 1` depends only on the radii and the distance. -/
theorem C126_entries {mA mB md : Material} {r1 r2 L k : ℝ} {med : Medium} {a b : MieCoef} (S : FinitePair mA mB md r1 r2 L k med a b) {σa σb : ℝ}
    (ea : DenseSign mA md k σa) (eb : DenseSign mB md k σb) {lmax lssmax m : ℕ} {B : Blocks (lmax + 1 - transLmin m)}
    (hB : BlocksAt md L k lmax lssmax m a b B) {δ : ℝ} (hδ : 0 ≤ δ) (hs : (1 + δ) * shrink (r1 * Real.sqrt med.mu) (r2 * Real.sqrt med.mu) L < 1)
    {M : Matrix (Fin (lmax + 1 - transLmin m) ⊕ Fin (lmax + 1 - transLmin m)) (Fin (lmax + 1 - transLmin m) ⊕ Fin (lmax + 1 - transLmin m)) ℝ}
    (hM : EntryErr δ M B.full) :
    0 < (1 - M).det ∧
      (σa = σb → |Real.log (1 - M).det - Real.log (1 - B.full).det| ≤
        gain δ (shrink (r1 * Real.sqrt med.mu) (r2 * Real.sqrt med.mu) L) * |Real.log (1 - B.full).det|) ∧
      (σa ≠ σb → |Real.log (1 - M).det - Real.log (1 - B.full).det| ≤
        2 * gain δ (shrink (r1 * Real.sqrt med.mu) (r2 * Real.sqrt med.mu) L) * |Real.log (1 - B.full).det|) := by
  have G : GapPair md r1 r2 L k med := S.gap
  obtain ⟨A, hA⟩ := reflects_of_mie S.hmd S.hp S.hk S.h1 S.hmed ea S.ha
  obtain ⟨B0, hB0⟩ := reflects_of_mie S.hmd S.hp S.hk S.h2 S.hmed eb S.hb
  have hf := (S.array_of m hA hB0).2.2 hB
  have hH := G.hs_ratio m hA.scatters hB0.scatters
  have h0 := G.kern_nonneg m A B0
  obtain ⟨G', hG', hd⟩ := hf.perturb (fun i j => by
    simp only [Matrix.submatrix_apply]
    unfold gram
    simp only [Matrix.smul_apply, Matrix.mul_apply, Matrix.transpose_apply]
    congr 1
    exact Finset.sum_congr rfl fun s _ => mul_comm _ _) hM
  have eG : G' = (G'.submatrix (ilv (lmax + 1 - transLmin m)).symm (ilv (lmax + 1 - transLmin m)).symm).submatrix (ilv (lmax + 1 - transLmin m))
      (ilv (lmax + 1 - transLmin m)) := by
    ext i j
    simp
  rw [eG] at hG'
  have q := hH.perturb_rel h0 (ea.prod eb) hδ hs (n := 2 * (lmax + 1 - transLmin m)) (p := 2 * (lssmax + 1 - transLmin m))
    (A := G'.submatrix (ilv (lmax + 1 - transLmin m)).symm (ilv (lmax + 1 - transLmin m)).symm) (fun i j => by
      have := hd ((ilv (lmax + 1 - transLmin m)).symm i) ((ilv (lmax + 1 - transLmin m)).symm j)
      simpa using this)
  rw [(det_reindex hG').1, (det_reindex hf).1]
  refine ⟨q.1, fun h => ?_, fun h => ?_⟩
  · exact q.2.2.1 (ea.one eb h)
  · have := q.2.2.2 (ea.neg eb h)
    unfold gain
    rwa [← mul_div_assoc]

/-! ## Mie coefficients -/

/-- **C126, `single_m`.** Two homogeneous spheres: if the Mie coefficients have relative errors of at most `δ`, `single_m` still returns
one finite number, with at most the relative error `gain ((1+δ)²-1) θ` for equal contrast and twice that in all cases. -/
theorem C126_single_m {P : PairIn} (h : PairOK P) {k : ℝ} (hk : 0 < k) {δ : ℝ} (hδ : 0 ≤ δ) (hs : (1 + δ) ^ 2 * shrink P.r1 P.r2 P.L < 1)
    {w w' : WaveIn} (hw : waveIn exactBes P k = .ok w) (he : WaveErr P.lmax P.lssmax δ w' w w) {m : ℕ} (hm : m ≤ P.lmax) :
    ∃ x x' : ℝ, (∃ N, ∀ fuel, N < fuel → singleM fuel 0.9 P.lmax P.lssmax m [w] = some (.ok [(x : EReal)]) ∧
        singleM fuel 0.9 P.lmax P.lssmax m [w'] = some (.ok [(x' : EReal)])) ∧
      |x' - x| ≤ 2 * gain ((1 + δ) ^ 2 - 1) (shrink P.r1 P.r2 P.L) * |x| ∧
      ((∃ σ, DenseSign P.mat1 P.mat3 k σ ∧ DenseSign P.mat2 P.mat3 k σ) → |x' - x| ≤ gain ((1 + δ) ^ 2 - 1) (shrink P.r1 P.r2 P.L) * |x|) := by
  obtain ⟨B', hB', hp, e1, e2⟩ := h.perturb hk hδ hs hw he hm
  obtain ⟨w1, hw1, hv⟩ := pair_singleM h hk
  rw [hw] at hw1
  injection hw1 with hw1
  subst hw1
  obtain ⟨N1, q1⟩ := hv m hm
  obtain ⟨N2, q2⟩ := singleM_value (d := 1) (by omega) (w := fun _ => w') (B := fun _ => B') (fun _ => hB') (fun _ => hp) (conv := 0.9) (by norm_num)
  refine ⟨_, _, ⟨max N1 N2, fun fuel hf => ⟨q1 fuel (by omega), ?_⟩⟩, e1, e2⟩
  simpa using q2 fuel (by omega)

/-- **C126, stratified spheres.** Two homogeneous or stratified spheres: if the errors of the Mie coefficients are at most `δ` times the
coefficients of perfect conductors of the outer radii, `single_m` returns one finite number, and its error is at most `gain ((1+δ)²-1) θ` times
the value `y` of the perfect conductors. -/
theorem C126_stratified {P : BallPair} {R1 R2 : ℝ} (h : BallPairOK P R1 R2) {k : ℝ} (hk : 0 < k) {δ : ℝ} (hδ : 0 ≤ δ)
    (hs : (1 + δ) ^ 2 * shrink R1 R2 P.L < 1) {w w' w0 : WaveIn} (hw : ballWave exactBes P k = .ok w) (hw0 : waveIn exactBes (P.metal R1 R2) k = .ok w0)
    (he : WaveErr P.lmax P.lssmax δ w' w w0) {m : ℕ} (hm : m ≤ P.lmax) :
    ∃ x x' y : ℝ, (∃ N, ∀ fuel, N < fuel → singleM fuel 0.9 P.lmax P.lssmax m [w] = some (.ok [(x : EReal)]) ∧
        singleM fuel 0.9 P.lmax P.lssmax m [w'] = some (.ok [(x' : EReal)]) ∧ singleM fuel 0.9 P.lmax P.lssmax m [w0] = some (.ok [(y : EReal)])) ∧
      |x' - x| ≤ gain ((1 + δ) ^ 2 - 1) (shrink R1 R2 P.L) * |y| := by
  obtain ⟨B', hB', hp, e1⟩ := h.perturb hk hδ hs hw hw0 he hm
  obtain ⟨⟨w1, hw1, hv⟩, -, -, -⟩ := h.facts hk
  rw [hw] at hw1
  injection hw1 with hw1
  subst hw1
  obtain ⟨B, hB, hpB, eB⟩ := hv m hm
  obtain ⟨w2, hw2, hv2⟩ := pair_singleM h.metal hk
  rw [hw0] at hw2
  injection hw2 with hw2
  subst hw2
  obtain ⟨N3, q3⟩ := hv2 m hm
  obtain ⟨N1, q1⟩ := singleM_value (d := 1) (by omega) (w := fun _ => w) (B := fun _ => B) (fun _ => hB) (fun _ => hpB) (conv := 0.9) (by norm_num)
  obtain ⟨N2, q2⟩ := singleM_value (d := 1) (by omega) (w := fun _ => w') (B := fun _ => B') (fun _ => hB') (fun _ => hp) (conv := 0.9) (by norm_num)
  refine ⟨lnBall P m k, Real.log (1 - B'.full).det, lnDetV (P.metal R1 R2) m k,
    ⟨max N1 (max N2 N3), fun fuel hf => ⟨?_, ?_, q3 fuel (by omega)⟩⟩, ?_⟩
  · rw [eB]; simpa using q1 fuel (by omega)
  · simpa using q2 fuel (by omega)
  · rw [abs_of_nonpos (h.metal_nonpos hk m hm)]; exact e1

/-! ## The sum over `m` -/

/-- The inputs `wave` of all wavenumbers are those of the pair up to relative errors `δ` of the Mie coefficients. -/
def InputErr (P : PairIn) (δ : ℝ) (wave : ℝ → Res WaveIn) : Prop :=
  ∀ k, 0 < k → ∃ w w', waveIn exactBes P k = .ok w ∧ wave k = .ok w' ∧ WaveErr P.lmax P.lssmax δ w' w w

/-- The terms of the sum over `m` for these inputs. -/
theorem inputErr_terms {P : PairIn} (h : PairOK P) {δ : ℝ} (hδ : 0 ≤ δ) (hs : (1 + δ) ^ 2 * shrink P.r1 P.r2 P.L < 1) {wave : ℝ → Res WaveIn}
    (hw : InputErr P δ wave) : ∃ u : ℕ → ℝ → ℝ,
      (∀ k, 0 < k → ∃ w, wave k = .ok w ∧ ∀ m : ℕ, m ≤ P.lmax → ∃ B, blockmatricesAt P.lmax P.lssmax m true w.nL w.bes w.a w.b = .ok B ∧
        0 < (1 - B.full).det ∧ u m k = Real.log (1 - B.full).det) ∧
      ∀ k, 0 < k → ∀ m ≤ P.lmax, |u m k - lnDetV P m k| ≤ 2 * gain ((1 + δ) ^ 2 - 1) (shrink P.r1 P.r2 P.L) * |lnDetV P m k| ∧
        ((∃ σ, DenseSign P.mat1 P.mat3 k σ ∧ DenseSign P.mat2 P.mat3 k σ) →
          |u m k - lnDetV P m k| ≤ gain ((1 + δ) ^ 2 - 1) (shrink P.r1 P.r2 P.L) * |lnDetV P m k|) := by
  have key : ∀ k m, ∃ x, 0 < k → m ≤ P.lmax → ∀ w', wave k = .ok w' → ∃ B, blockmatricesAt P.lmax P.lssmax m true w'.nL w'.bes w'.a w'.b = .ok B ∧
        0 < (1 - B.full).det ∧ x = Real.log (1 - B.full).det ∧
        |x - lnDetV P m k| ≤ 2 * gain ((1 + δ) ^ 2 - 1) (shrink P.r1 P.r2 P.L) * |lnDetV P m k| ∧
        ((∃ σ, DenseSign P.mat1 P.mat3 k σ ∧ DenseSign P.mat2 P.mat3 k σ) →
          |x - lnDetV P m k| ≤ gain ((1 + δ) ^ 2 - 1) (shrink P.r1 P.r2 P.L) * |lnDetV P m k|) := by
    intro k m
    by_cases hk : 0 < k ∧ m ≤ P.lmax
    · obtain ⟨w, w', e1, e2, e3⟩ := hw k hk.1
      obtain ⟨B, q1, q2, q3, q4⟩ := h.perturb hk.1 hδ hs e1 e3 hk.2
      refine ⟨Real.log (1 - B.full).det, fun _ _ w1 hw1 => ?_⟩
      rw [e2] at hw1
      injection hw1 with hw1
      subst hw1
      exact ⟨B, q1, q2, rfl, q3, q4⟩
    · exact ⟨0, fun h1 h2 => absurd ⟨h1, h2⟩ hk⟩
  choose u hu using key
  refine ⟨fun m k => u k m, fun k hk => ?_, fun k hk m hm => ?_⟩
  · obtain ⟨w, w', e1, e2, e3⟩ := hw k hk
    refine ⟨w', e2, fun m hm => ?_⟩
    obtain ⟨B, q1, q2, q3, -⟩ := hu k m hk hm w' e2
    exact ⟨B, q1, q2, q3⟩
  · obtain ⟨w, w', e1, e2, e3⟩ := hw k hk
    obtain ⟨B, q1, q2, q3, q4⟩ := hu k m hk hm w' e2
    exact q4

/-- Sums of terms of one sign with relative errors. -/
theorem sum_rel {s : Finset ℕ} {u v : ℕ → ℝ} {g u0 v0 : ℝ} (h0 : |u0 - v0| ≤ g * |v0|) (h : ∀ m ∈ s, |u m - v m| ≤ g * |v m|)
    (hv : (v0 ≤ 0 ∧ ∀ m ∈ s, v m ≤ 0) ∨ (0 ≤ v0 ∧ ∀ m ∈ s, 0 ≤ v m)) {c d : ℝ} (hc : 0 ≤ c) (hd : 0 ≤ d) :
    |(d * u0 + c * ∑ m ∈ s, u m) - (d * v0 + c * ∑ m ∈ s, v m)| ≤ g * |d * v0 + c * ∑ m ∈ s, v m| := by
  have e : (d * u0 + c * ∑ m ∈ s, u m) - (d * v0 + c * ∑ m ∈ s, v m) = d * (u0 - v0) + c * ∑ m ∈ s, (u m - v m) := by
    rw [Finset.sum_sub_distrib]; ring
  have t := abs_add_le (d * (u0 - v0)) (c * ∑ m ∈ s, (u m - v m))
  rw [abs_mul, abs_mul, abs_of_nonneg hc, abs_of_nonneg hd] at t
  have s1 := (Finset.abs_sum_le_sum_abs (fun m => u m - v m) s).trans (Finset.sum_le_sum h)
  have s2 := mul_le_mul_of_nonneg_left s1 hc
  have s0 := mul_le_mul_of_nonneg_left h0 hd
  rw [e]
  refine t.trans ((add_le_add s0 s2).trans (le_of_eq ?_))
  rw [← Finset.mul_sum]
  rcases hv with ⟨z, hz⟩ | ⟨z, hz⟩
  · have : ∑ m ∈ s, |v m| = -∑ m ∈ s, v m := by
      rw [← Finset.sum_neg_distrib]; exact Finset.sum_congr rfl fun m hm => abs_of_nonpos (hz m hm)
    rw [this, abs_of_nonpos z, abs_of_nonpos (by
      have := mul_nonneg hc (neg_nonneg.mpr (Finset.sum_nonpos hz)); have := mul_nonneg hd (neg_nonneg.mpr z); linarith)]
    ring
  · have : ∑ m ∈ s, |v m| = ∑ m ∈ s, v m := Finset.sum_congr rfl fun m hm => abs_of_nonneg (hz m hm)
    rw [this, abs_of_nonneg z, abs_of_nonneg (by
      have := mul_nonneg hc (Finset.sum_nonneg hz); have := mul_nonneg hd z; linarith)]
    ring

theorem lnDetV_one_sign {P : PairIn} (h : PairOK P) {k : ℝ} (hk : 0 < k) : (∀ m ≤ P.lmax, lnDetV P m k ≤ 0) ∨ ∀ m ≤ P.lmax, 0 ≤ lnDetV P m k := by
  have hm : ∀ m ≤ P.lmax, max 1 m ≤ P.lmax := fun m hm => by have := h.hl; omega
  obtain ⟨σa, ea⟩ := dense_total h.m1 h.m3 hk
  obtain ⟨σb, eb⟩ := dense_total h.m2 h.m3 hk
  by_cases e : σa = σb
  · exact .inl fun m h' => ((lnDetV_val h (hm m h') hk).2 σa σb ea eb).1 e
  · exact .inr fun m h' => ((lnDetV_val h (hm m h') hk).2 σa σb ea eb).2 e

/-- **C126, `mSumme`.** Two homogeneous spheres, precision zero: if the Mie coefficients have relative errors of at most `δ` with
`2 gain < 1`, `mSumme` returns one number per wavenumber, with at most the relative error `2 gain ((1+δ)²-1) θ`, and half of this for equal
contrast. -/
theorem C126_mSumme {P : PairIn} (h : PairOK P) (hp : P.precision ≤ 0) {δ : ℝ} (hδ : 0 ≤ δ) (hs : (1 + δ) ^ 2 * shrink P.r1 P.r2 P.L < 1)
    (hg : 2 * gain ((1 + δ) ^ 2 - 1) (shrink P.r1 P.r2 P.L) < 1) {wave : ℝ → Res WaveIn} (hw : InputErr P δ wave)
    {ks : List ℝ} (hne : ks ≠ []) (hk : ∀ k ∈ ks, 0 < k) :
    ∃ vs vs', pairVals exactBes P ks = .ok vs ∧ valsOf P.lmax P.lssmax P.precision wave ks = .ok vs' ∧ vs.length = ks.length ∧
      vs'.length = ks.length ∧ ∀ (j : ℕ) (k x x' : ℝ), ks[j]? = some k → vs[j]? = some x → vs'[j]? = some x' →
        |x' - x| ≤ 2 * gain ((1 + δ) ^ 2 - 1) (shrink P.r1 P.r2 P.L) * |x| ∧
        ((∃ σ, DenseSign P.mat1 P.mat3 k σ ∧ DenseSign P.mat2 P.mat3 k σ) → |x' - x| ≤ gain ((1 + δ) ^ 2 - 1) (shrink P.r1 P.r2 P.L) * |x|) := by
  obtain ⟨u, hu, hb⟩ := inputErr_terms h hδ hs hw
  obtain ⟨g, hgd⟩ : ∃ g, g = gain ((1 + δ) ^ 2 - 1) (shrink P.r1 P.r2 P.L) := ⟨_, rfl⟩
  rw [← hgd] at hg hb ⊢
  have hd : 0 < ks.length := List.length_pos_iff.mpr hne
  obtain ⟨M, h1, h2, h3, -⟩ := C13_mSumme hd (lmax := P.lmax) (precision := P.precision)
    (L := fun m => .ok fun i : Fin ks.length => u m (ks.get i)) (v := fun m i => u m (ks.get i)) fun _ _ => rfl
  have hm : ∀ m ≤ P.lmax, max 1 m ≤ P.lmax := fun m hm => by have := h.hl; omega
  have hfull : ∀ i, mSum (fun m (i : Fin ks.length) => u m (ks.get i)) M i = u 0 (ks.get i) + 2 * ∑ m ∈ Finset.Icc 1 P.lmax, u m (ks.get i) := by
    intro i
    rcases h3 with h3 | rfl
    · rcases h3 with h3 | ⟨-, r, -, hr⟩
      · have hki := hk _ (List.get_mem ks i)
        have hall : ∀ m ≤ P.lmax, u m (ks.get i) = 0 := by
          by_cases hc : HasContrast P.mat1 P.mat3 (ks.get i) ∧ HasContrast P.mat2 P.mat3 (ks.get i)
          · exfalso
            obtain ⟨σa, ea⟩ := dense_total h.m1 h.m3 hki
            obtain ⟨σb, eb⟩ := dense_total h.m2 h.m3 hki
            have hs := fun m hm' => lnDetV_strict h (hm m hm') hki hc.1 hc.2 ea eb
            have hz := h3 i
            unfold mSum at hz
            simp only at hz
            have hb' := fun m hm => _root_.abs_le.mp (hb _ hki m hm).1
            by_cases hσ : σa = σb
            · have neg : ∀ m ≤ P.lmax, u m (ks.get i) < 0 := fun m hm' => by
                have a1 := (hs m hm').1 hσ
                have a2 := (hb' m hm').2
                rw [abs_of_neg a1] at a2
                nlinarith
              have := neg 0 (by omega)
              have := Finset.sum_nonpos fun m (hm' : m ∈ Finset.Icc 1 M) => (neg m ((Finset.mem_Icc.mp hm').2.trans h2)).le
              linarith
            · have pos : ∀ m ≤ P.lmax, 0 < u m (ks.get i) := fun m hm' => by
                have a1 := (hs m hm').2 hσ
                have a2 := (hb' m hm').1
                rw [abs_of_pos a1] at a2
                nlinarith
              have := pos 0 (by omega)
              have := Finset.sum_nonneg fun m (hm' : m ∈ Finset.Icc 1 M) => (pos m ((Finset.mem_Icc.mp hm').2.trans h2)).le
              linarith
          · intro m hm'
            have := (hb _ hki m hm').1
            rw [lnDetV_zero h hki hc m, sub_zero, abs_zero, mul_zero] at this
            exact abs_nonpos_iff.mp this
        unfold mSum
        simp only
        rw [hall 0 (by omega), Finset.sum_eq_zero fun m hm' => hall m ((Finset.mem_Icc.mp hm').2.trans h2),
          Finset.sum_eq_zero fun m hm' => hall m (Finset.mem_Icc.mp hm').2]
      · exact absurd hr (not_lt.mpr (by have := abs_nonneg (|mSum (fun m (i : Fin ks.length) => u m (ks.get i)) M r /
          mSum (fun m (i : Fin ks.length) => u m (ks.get i)) (M - 1) r| - 1); linarith))
    · rfl
  refine ⟨ks.map (pairSum P), ks.map fun k => u 0 k + 2 * ∑ m ∈ Finset.Icc 1 P.lmax, u m k, pairVals_sum h hp hne hk, ?_, by simp, by simp,
    fun j k x x' hj hx hx' => ?_⟩
  · rw [valsOf_eq (u := u) hne fun k hkm => hu k (hk k hkm), h1, ok_bind]
    congr 1
    refine List.ext_getElem (by simp) fun j hj1 hj2 => ?_
    rw [List.getElem_ofFn, List.getElem_map, hfull]
    rfl
  · rw [List.getElem?_map, hj] at hx hx'
    injection hx with hx
    injection hx' with hx'
    subst hx hx'
    have hk0 := hk k (List.mem_of_getElem? hj)
    have hv : (lnDetV P 0 k ≤ 0 ∧ ∀ m ∈ Finset.Icc 1 P.lmax, lnDetV P m k ≤ 0) ∨ (0 ≤ lnDetV P 0 k ∧ ∀ m ∈ Finset.Icc 1 P.lmax, 0 ≤ lnDetV P m k) := by
      rcases lnDetV_one_sign h hk0 with hz | hz
      · exact .inl ⟨hz 0 (by omega), fun m hm => hz m (Finset.mem_Icc.mp hm).2⟩
      · exact .inr ⟨hz 0 (by omega), fun m hm => hz m (Finset.mem_Icc.mp hm).2⟩
    have e : pairSum P k = 1 * lnDetV P 0 k + 2 * ∑ m ∈ Finset.Icc 1 P.lmax, lnDetV P m k := by rw [one_mul]; rfl
    have e' : u 0 k + 2 * ∑ m ∈ Finset.Icc 1 P.lmax, u m k = 1 * u 0 k + 2 * ∑ m ∈ Finset.Icc 1 P.lmax, u m k := by rw [one_mul]
    simp only
    rw [e, e']
    exact ⟨sum_rel (hb k hk0 0 (by omega)).1 (fun m hm => (hb k hk0 m (Finset.mem_Icc.mp hm).2).1) hv (by norm_num) (by norm_num),
      fun hc => sum_rel ((hb k hk0 0 (by omega)).2 hc) (fun m hm => (hb k hk0 m (Finset.mem_Icc.mp hm).2).2 hc) hv (by norm_num) (by norm_num)⟩

/-- A value of `mSumme` with its errors, seen from the Matsubara sum. -/
theorem inputErr_slice {P : PairIn} (h : PairOK P) (hp : P.precision ≤ 0) {δ : ℝ} (hδ : 0 ≤ δ) (hs : (1 + δ) ^ 2 * shrink P.r1 P.r2 P.L < 1)
    (hg : 2 * gain ((1 + δ) ^ 2 - 1) (shrink P.r1 P.r2 P.L) < 1) {wave : ℝ → Res WaveIn} (hw : InputErr P δ wave) {g' : Geo}
    (hv : g'.vals = valsOf P.lmax P.lssmax P.precision wave) :
    ValsOk g' ∧ ∀ {deltaT : ℝ}, 0 < deltaT → ∀ {N n : ℕ}, 1 ≤ n → n ≤ N →
      |sliceVal g' deltaT N n - sliceVal (pairGeo exactBes frac P) deltaT N n| ≤
        2 * gain ((1 + δ) ^ 2 - 1) (shrink P.r1 P.r2 P.L) * |sliceVal (pairGeo exactBes frac P) deltaT N n| ∧
      (EqualContrast P.mat1 P.mat2 P.mat3 → |sliceVal g' deltaT N n - sliceVal (pairGeo exactBes frac P) deltaT N n| ≤
        gain ((1 + δ) ^ 2 - 1) (shrink P.r1 P.r2 P.L) * |sliceVal (pairGeo exactBes frac P) deltaT N n|) := by
  refine ⟨fun ks hne hk => ?_, fun {deltaT} hT {N n} hn hN => ?_⟩
  · obtain ⟨vs, vs', -, h2, -, h4, -⟩ := C126_mSumme h hp hδ hs hg hw hne hk
    exact ⟨vs', by rw [hv]; exact h2, h4⟩
  · obtain ⟨k1, k2, k3⟩ := sliceKs_mem hT hn hN
    obtain ⟨vs, vs', h1, h2, h3, h4, h5⟩ := C126_mSumme h hp hδ hs hg hw k1 k2
    have hlt : n - sliceLo n < (sliceKs deltaT N n).length := by
      by_contra hh
      rw [List.getElem?_eq_none (by omega)] at k3
      cases k3
    have e : sliceVal (pairGeo exactBes frac P) deltaT N n = vs[n - sliceLo n]'(by omega) := by
      unfold sliceVal
      rw [show (pairGeo exactBes frac P).vals = pairVals exactBes P from rfl, h1]
      simp only
      rw [List.getD_eq_getElem?_getD, List.getElem?_eq_getElem (by omega)]
      rfl
    have e' : sliceVal g' deltaT N n = vs'[n - sliceLo n]'(by omega) := by
      unfold sliceVal
      rw [hv]
      simp only
      rw [h2]
      simp only
      rw [List.getD_eq_getElem?_getD, List.getElem?_eq_getElem (by omega)]
      rfl
    rw [e, e']
    have q := h5 _ _ _ _ k3 (List.getElem?_eq_getElem (by omega)) (List.getElem?_eq_getElem (by omega))
    exact ⟨q.1, fun hc => q.2 (hc.finite _ (mul_pos hT (by exact_mod_cast hn)))⟩

/-- **C126, free energy.** If the Mie coefficients at all positive wavenumbers have relative errors of at most `δ` (and the static term,
if the analytical one is used, a relative error of at most `c`), the free energies at all temperatures have relative errors of at most `c`:
this is `gain ((1+δ)²-1) θ` for equal contrast and twice that for opposite contrast. -/
theorem C126_free_energy {P : PairIn} (h : PairOK P) (hp : P.precision ≤ 0) {δ : ℝ} (hδ : 0 ≤ δ) (hs : (1 + δ) ^ 2 * shrink P.r1 P.r2 P.L < 1)
    (hg : 2 * gain ((1 + δ) ^ 2 - 1) (shrink P.r1 P.r2 P.L) < 1) {wave : ℝ → Res WaveIn} (hw : InputErr P δ wave) {p p' : FTParams} {g' : Geo}
    (hv : g'.vals = valsOf P.lmax P.lssmax P.precision wave) (hgeo : p.geo = pairGeo exactBes frac P) (hp' : p' = { p with geo := g' })
    (hn : p.nprocs.isZero) (hT : 0 < p.deltaT) (hN : 1 ≤ p.nmax) {c : ℝ}
    (hc : EqualContrast P.mat1 P.mat2 P.mat3 ∧ c = gain ((1 + δ) ^ 2 - 1) (shrink P.r1 P.r2 P.L) ∨
      OppositeContrast P.mat1 P.mat2 P.mat3 ∧ c = 2 * gain ((1 + δ) ^ 2 - 1) (shrink P.r1 P.r2 P.L))
    (hz : p.analyticN0 = true → ∃ z z', pairK0 frac P = .ok z ∧ g'.k0 = .ok z' ∧ |z' - z| ≤ c * |z|) :
    ∃ F F' : List ℝ, (freeEnergy p FT.fresh).1 = .ok F ∧ (freeEnergy p' FT.fresh).1 = .ok F' ∧ F.length = p.maxstep.toNat ∧
      F'.length = p.maxstep.toNat ∧ ∀ (i : ℕ) (x x' : ℝ), F[i]? = some x → F'[i]? = some x' → |x' - x| ≤ c * |x| := by
  subst hp'
  obtain ⟨ok', sl⟩ := inputErr_slice (frac := frac) h hp hδ hs hg hw hv
  obtain ⟨N, hN'⟩ := Int.eq_ofNat_of_zero_le (by omega : 0 ≤ p.nmax)
  have hN1 : 1 ≤ N := by omega
  have okp : ValsOk p.geo := hgeo ▸ pairGeo_valsOk h
  have key : ∃ z z', |z' - z| ≤ c * |z| ∧ (EqualContrast P.mat1 P.mat2 P.mat3 → z ≤ 0) ∧ (OppositeContrast P.mat1 P.mat2 P.mat3 → 0 ≤ z) ∧
      (∃ F : List ℝ, (freeEnergy p FT.fresh).1 = .ok F ∧ F.length = p.maxstep.toNat ∧ ∀ i : ℕ, 1 ≤ i → (i : ℤ) ≤ p.maxstep →
        F[i - 1]? = some (i * p.deltaT * (0.5 * z + ∑ j ∈ Finset.range (N / i), sliceVal p.geo p.deltaT N ((j + 1) * i)))) ∧
      ∃ F : List ℝ, (freeEnergy { p with geo := g' } FT.fresh).1 = .ok F ∧ F.length = p.maxstep.toNat ∧ ∀ i : ℕ, 1 ≤ i → (i : ℤ) ≤ p.maxstep →
        F[i - 1]? = some (i * p.deltaT * (0.5 * z' + ∑ j ∈ Finset.range (N / i), sliceVal g' p.deltaT N ((j + 1) * i))) := by
    rcases Bool.eq_false_or_eq_true p.analyticN0 with ha | ha
    · obtain ⟨z, z', e1, e2, e3⟩ := hz ha
      obtain ⟨z1, q1, -, q3, q4⟩ := C100_mSumme_k0 h frac
      rw [e1] at q1
      injection q1 with q1
      subst q1
      exact ⟨z, z', e3, q3, q4, freeEnergy_slices p okp (by rw [hgeo]; exact e1) hn ha hT hN', freeEnergy_slices { p with geo := g' } ok' e2 hn ha hT hN'⟩
    · obtain ⟨vs, vs', h1, h2, h3, h4, h5⟩ := C126_mSumme h hp hδ hs hg hw (ks := [1e-10]) (by simp) (by norm_num)
      obtain ⟨z, rfl⟩ : ∃ z, vs = [z] := List.length_eq_one_iff.mp h3
      obtain ⟨z', rfl⟩ : ∃ z, vs' = [z] := List.length_eq_one_iff.mp h4
      have q := h5 0 _ z z' rfl rfl rfl
      obtain ⟨vs, s1, -, s3⟩ := C100_mSumme h (ks := [1e-10]) (by simp) (by norm_num)
      rw [h1] at s1
      injection s1 with s1
      subst s1
      have s := (s3 0 _ z rfl rfl).2
      refine ⟨z, z', ?_, s.1, s.2, freeEnergy_slices_num p okp (by rw [hgeo]; exact h1) hn ha hT hN1 hN',
        freeEnergy_slices_num { p with geo := g' } ok' (by rw [hv]; exact h2) hn ha hT hN1 hN'⟩
      rcases hc with ⟨hc, rfl⟩ | ⟨hc, rfl⟩
      · exact q.2 (hc.finite _ (by norm_num))
      · exact q.1
  obtain ⟨z, z', hzz, z1, z2, ⟨F, hF, hlen, hval⟩, F', hF', hlen', hval'⟩ := key
  refine ⟨F, F', hF, hF', hlen, hlen', fun i x x' hx hx' => ?_⟩
  have hi : i < F.length := by
    by_contra hh
    rw [List.getElem?_eq_none (by omega)] at hx
    cases hx
  have e := hval (i + 1) (by omega) (by omega)
  have e' := hval' (i + 1) (by omega) (by omega)
  rw [Nat.add_sub_cancel, hx, hgeo] at e
  rw [Nat.add_sub_cancel, hx'] at e'
  injection e with e
  injection e' with e'
  have hsl : ∀ j ∈ Finset.range (N / (i + 1)), (j + 1) * (i + 1) ≤ N := fun j hj =>
    (Nat.mul_le_mul_right _ (Finset.mem_range.mp hj)).trans (Nat.div_mul_le_self _ _)
  have h1 : ∀ j, 1 ≤ (j + 1) * (i + 1) := fun j => Nat.one_le_iff_ne_zero.mpr (by positivity)
  have hpos : (0 : ℝ) < (i + 1 : ℕ) * p.deltaT := by positivity
  rw [e, e', ← mul_sub, abs_mul (((i + 1 : ℕ) : ℝ) * p.deltaT), abs_mul (((i + 1 : ℕ) : ℝ) * p.deltaT), abs_of_pos hpos, mul_left_comm]
  refine mul_le_mul_of_nonneg_left ?_ hpos.le
  have hsg := fun j hj => (pairGeo_slice (frac := frac) h hT (h1 j) (hsl j hj)).2
  have hsv := fun j hj => sl hT (h1 j) (hsl j hj)
  have e1 : ∀ (g : Geo) (z : ℝ), 0.5 * z + ∑ j ∈ Finset.range (N / (i + 1)), sliceVal g p.deltaT N ((j + 1) * (i + 1)) =
      0.5 * z + 1 * ∑ j ∈ Finset.range (N / (i + 1)), sliceVal g p.deltaT N ((j + 1) * (i + 1)) := fun g z => by rw [one_mul]
  rw [e1, e1]
  rcases hc with ⟨hc, rfl⟩ | ⟨hc, rfl⟩
  · exact sum_rel hzz (fun j hj => (hsv j hj).2 hc) (.inl ⟨z1 hc, fun j hj => (hsg j hj).1 hc⟩) (by norm_num) (by norm_num)
  · exact sum_rel hzz (fun j hj => (hsv j hj).1) (.inr ⟨z2 hc, fun j hj => (hsg j hj).2 hc⟩) (by norm_num) (by norm_num)

/-! ## Example -/

/-- The input with the TE coefficients of the first sphere too large by the factor `1 + 1e-10`. -/
noncomputable def tooLargeTE (w : WaveIn) : WaveIn :=
  { w with a := ⟨fun l => (1 + 1e-10) * w.a.TE l, w.a.TM, w.a.ln⟩ }

/-- This input at every wavenumber. -/
noncomputable def offTE (P : PairIn) (k : ℝ) : Res WaveIn := do
  let w ← waveIn exactBes P k
  .ok (tooLargeTE w)

theorem offTE_err {P : PairIn} (h : PairOK P) : InputErr P 1e-10 (offTE P) := fun k hk => by
  obtain ⟨a, b, S⟩ := h.pair hk
  obtain ⟨w, hw, -⟩ := waveIn_ok' S
  refine ⟨w, tooLargeTE w, hw, by unfold offTE; rw [hw, ok_bind], rfl, rfl, fun l _ _ => ⟨?_, ?_⟩, fun l _ _ => ⟨?_, ?_⟩⟩
  · unfold teOf tooLargeTE
    simp only
    rw [show (1 + 1e-10) * w.a.TE l * Real.exp (w.a.ln l) - w.a.TE l * Real.exp (w.a.ln l) = 1e-10 * (w.a.TE l * Real.exp (w.a.ln l)) by ring,
      abs_mul, abs_of_pos (by norm_num)]
  · unfold tmOf tooLargeTE
    rw [sub_self, abs_zero]; positivity
  · unfold tooLargeTE; rw [sub_self, abs_zero]; positivity
  · unfold tooLargeTE; rw [sub_self, abs_zero]; positivity

/-- Two gold spheres in water: these errors change the free energies by less than 1e-9, relatively. -/
example : ∃ F F', (freeEnergy ⟨0.01, 500, 200, false, .int 0, pairGeo exactBes frac
      ⟨⟨.lorentz, eGold, none⟩, ⟨.lorentz, eGold, none⟩, ⟨.lorentz, eWater, none⟩, 1, 4, 6, 20, 25, 0⟩⟩ FT.fresh).1 = .ok F ∧
    (freeEnergy ⟨0.01, 500, 200, false, .int 0, ⟨false, fun _ => .ok (), valsOf 20 25 0 (offTE
      ⟨⟨.lorentz, eGold, none⟩, ⟨.lorentz, eGold, none⟩, ⟨.lorentz, eWater, none⟩, 1, 4, 6, 20, 25, 0⟩), .ok 0⟩⟩ FT.fresh).1 = .ok F' ∧
    F.length = 200 ∧ F'.length = 200 ∧ ∀ (i : ℕ) (x x' : ℝ), F[i]? = some x → F'[i]? = some x' → |x' - x| ≤ 1e-9 * |x| := by
  have h : PairOK ⟨⟨.lorentz, eGold, none⟩, ⟨.lorentz, eGold, none⟩, ⟨.lorentz, eWater, none⟩, 1, 4, 6, 20, 25, 0⟩ :=
    ⟨gold_sphere, gold_sphere, water_medium, by norm_num, by norm_num, by norm_num, by norm_num, by norm_num⟩
  have e : shrink 1 4 6 = 16 / 27 := by unfold shrink; norm_num
  have g : gain ((1 + 1e-10) ^ 2 - 1) (16 / 27) ≤ 1e-9 := by unfold gain; norm_num
  obtain ⟨F, F', h1, h2, h3, h4, h5⟩ := C126_free_energy (frac := frac) (p := ⟨0.01, 500, 200, false, .int 0, _⟩) h le_rfl (δ := 1e-10) (by norm_num)
    (by simp only; rw [e]; norm_num) (by simp only; rw [e]; linarith) (offTE_err h) (g' := ⟨false, fun _ => .ok (), valsOf 20 25 0 (offTE
      ⟨⟨.lorentz, eGold, none⟩, ⟨.lorentz, eGold, none⟩, ⟨.lorentz, eWater, none⟩, 1, 4, 6, 20, 25, 0⟩), .ok 0⟩) rfl rfl rfl rfl (by norm_num) (by norm_num)
    (.inl ⟨equalContrast_same gold_sphere water_medium, rfl⟩) (by simp)
  refine ⟨F, F', h1, h2, h3, h4, fun i x x' hx hx' => (h5 i x x' hx hx').trans (mul_le_mul_of_nonneg_right ?_ (abs_nonneg _))⟩
  simp only
  rw [e]
  exact g

end CasSph
