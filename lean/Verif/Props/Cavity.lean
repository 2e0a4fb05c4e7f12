import Verif.Lemmas.CavityPair
import Verif.Lemmas.CutOff

/-! # C120: a sphere inside a spherical cavity at non-zero wavenumbers -/

namespace CasSph

open Spec Filter Topology Matrix

/-- `ln det(1 - M)` of one `m`, from the matrices assembled by `blockmatrices`. -/
noncomputable def lnGeo (P : PairIn) (m : ℕ) (k : ℝ) : ℝ :=
  match geoWave exactBes P k with
  | .ok w => match blockmatricesAt P.lmax P.lssmax m P.ext w.nL w.bes w.a w.b with
    | .ok B => Real.log (1 - B.full).det
    | .error _ => 0
  | .error _ => 0

section
variable {P : PairIn} {k : ℝ}

theorem CavOK.cut (h : CavOK P) {a b : ℕ} (ha : 1 ≤ a) (hb : a ≤ b) : CavOK (P.cut a b) :=
  ⟨h.m1, h.m2, h.m3, h.h1, h.hL, h.inside, ha, hb⟩

theorem CavOK.lnGeo_eq (h : CavOK P) {a b m : ℕ} {w : WaveIn} (hw : geoWave exactBes (P.cut a b) k = .ok w)
    {B : Blocks (a + 1 - transLmin m)} (hB : blockmatricesAt a b m false w.nL w.bes w.a w.b = .ok B) :
    lnGeo (P.cut a b) m k = Real.log (1 - B.full).det := by
  have hext : (P.cut a b).ext = false := h.ext
  unfold lnGeo
  rw [hw]
  simp only
  rw [hext, show blockmatricesAt (P.cut a b).lmax (P.cut a b).lssmax m false w.nL w.bes w.a w.b = .ok B from hB]
  rfl

/-- The values for all cut-offs come from one array. -/
theorem CavOK.array (h : CavOK P) (hk : 0 < k) {σa σb : ℝ} (ea : DenseSign P.mat1 P.mat3 k σa) (eb : DenseSign P.mat2 P.mat3 k σb) :
    ∃ H : ℕ → ℕ → ℕ → ℝ, (∀ m, GramGood (H m) (σa * σb) (cavBound P k * cavRatio P ^ (m - 1))) ∧
      (HasContrast P.mat1 P.mat3 k → HasContrast P.mat2 P.mat3 k → ∀ m, H m 0 0 ≠ 0) ∧
      ∀ lmax lssmax m : ℕ, max 1 m ≤ lmax → max 1 m ≤ lssmax → lnGeo (P.cut lmax lssmax) m k =
        Real.log (1 - gram (σa * σb) (H m) (2 * (lmax + 1 - transLmin m)) (2 * (lssmax + 1 - transLmin m))).det := by
  obtain ⟨H, hG, h0, hw⟩ := h.wave hk ea eb
  refine ⟨H, hG, h0, fun a b m hm hm' => ?_⟩
  obtain ⟨w, h1, h2⟩ := hw a b
  obtain ⟨B, h3, h4⟩ := h2 m hm hm'
  rw [h.lnGeo_eq h1 h3, h4]

/-- **C120, determinants.** A sphere inside a cavity, at any non-zero wavenumber: the input of `blockmatrices` exists, and for every
`m ≤ lmax` the matrices exist and `det(1 - M)` is positive (so that the sign which `balanced_slogdet` discards is `+1`); its logarithm
decreases geometrically with `m`, with a bound that depends on the geometry only and falls exponentially with the wavenumber. -/
theorem C120_positive (h : CavOK P) (hk : 0 < k) :
    ∃ w, geoWave exactBes P k = .ok w ∧ ∀ m ≤ P.lmax, ∃ B, blockmatricesAt P.lmax P.lssmax m P.ext w.nL w.bes w.a w.b = .ok B ∧
      0 < (1 - B.full).det ∧ lnGeo P m k = Real.log (1 - B.full).det ∧
      |Real.log (1 - B.full).det| ≤ cavBound P k * cavRatio P ^ (m - 1) := by
  obtain ⟨σa, ea⟩ := dense_total h.m1 h.m3 hk
  obtain ⟨σb, eb⟩ := dense_total h.m2 h.m3 hk
  obtain ⟨H, hG, -, hw⟩ := h.wave hk ea eb
  obtain ⟨w, h1, h2⟩ := hw P.lmax P.lssmax
  refine ⟨w, h1, fun m hm => ?_⟩
  have := h.hl; have := h.hls
  obtain ⟨B, h3, h4⟩ := h2 m (by omega) (by omega)
  refine ⟨B, by rw [h.ext]; exact h3, ?_, h.lnGeo_eq h1 h3, ?_⟩
  · rw [h4]; exact (hG m).pos _ _
  · rw [h4]; exact (hG m).bound _ _

/-- **C120, sign.** `ln det(1 - M) ≤ 0` if sphere and wall are both denser than the filling of the cavity or both less dense;
otherwise it is not negative.  This is the rule for two separate spheres (C96). -/
theorem C120_sign (h : CavOK P) (hk : 0 < k) {σa σb : ℝ} (ea : DenseSign P.mat1 P.mat3 k σa) (eb : DenseSign P.mat2 P.mat3 k σb)
    {m : ℕ} (hm : m ≤ P.lmax) : (σa = σb → lnGeo P m k ≤ 0) ∧ (σa ≠ σb → 0 ≤ lnGeo P m k) := by
  obtain ⟨H, hG, -, hw⟩ := h.array hk ea eb
  have := h.hl; have := h.hls
  rw [show lnGeo P m k = _ from hw P.lmax P.lssmax m (by omega) (by omega)]
  exact ⟨fun e => (hG m).attr (ea.one eb e) _ _, fun e => (hG m).rep (ea.neg eb e) _ _⟩

/-- **C120, strict sign.** If the filling differs from both sphere and wall (`HasContrast`: a perfect conductor or another permittivity), no `m` gives
zero. -/
theorem C120_strict (h : CavOK P) (hk : 0 < k) (c1 : HasContrast P.mat1 P.mat3 k) (c2 : HasContrast P.mat2 P.mat3 k) {σa σb : ℝ}
    (ea : DenseSign P.mat1 P.mat3 k σa) (eb : DenseSign P.mat2 P.mat3 k σb) {m : ℕ} (hm : m ≤ P.lmax) :
    (σa = σb → lnGeo P m k < 0) ∧ (σa ≠ σb → 0 < lnGeo P m k) := by
  obtain ⟨H, hG, h0, hw⟩ := h.array hk ea eb
  have := h.hl; have := h.hls
  have hlm : transLmin (m : ℤ) = max 1 m := by unfold transLmin; omega
  rw [show lnGeo P m k = _ from hw P.lmax P.lssmax m (by omega) (by omega)]
  have hs := (hG m).strict (h0 c1 c2 m) (n := 2 * (P.lmax + 1 - transLmin (m : ℤ))) (p := 2 * (P.lssmax + 1 - transLmin (m : ℤ))) (by omega) (by omega)
  exact ⟨fun e => hs.1 (ea.one eb e), fun e => hs.2 (ea.neg eb e)⟩

/-- **C120, monotonicity.** Raising either cut-off increases the modulus of every contribution. -/
theorem C120_monotone (h : CavOK P) (hk : 0 < k) {a b a' b' m : ℕ} (hm : max 1 m ≤ a) (hm' : max 1 m ≤ b) (ha : a ≤ a') (hb : b ≤ b') :
    |lnGeo (P.cut a b) m k| ≤ |lnGeo (P.cut a' b') m k| ∧ |lnGeo (P.cut a' b') m k| ≤ cavBound P k * cavRatio P ^ (m - 1) := by
  obtain ⟨σa, ea⟩ := dense_total h.m1 h.m3 hk
  obtain ⟨σb, eb⟩ := dense_total h.m2 h.m3 hk
  obtain ⟨H, hG, -, hw⟩ := h.array hk ea eb
  rw [hw a b m hm hm', hw a' b' m (hm.trans ha) (hm'.trans hb)]
  refine ⟨?_, (hG m).bound _ _⟩
  have n1 : 2 * (a + 1 - transLmin (m : ℤ)) ≤ 2 * (a' + 1 - transLmin (m : ℤ)) := by omega
  have n2 : 2 * (b + 1 - transLmin (m : ℤ)) ≤ 2 * (b' + 1 - transLmin (m : ℤ)) := by omega
  rcases (hG m).sgn with e | e
  · rw [abs_of_nonpos ((hG m).attr e _ _), abs_of_nonpos ((hG m).attr e _ _)]
    exact neg_le_neg ((hG m).down e n1 n2)
  · rw [abs_of_nonneg ((hG m).rep e _ _), abs_of_nonneg ((hG m).rep e _ _)]
    exact (hG m).up e n1 n2

/-- **C120, convergence.** The complete sum over `m` converges when `lmax → ∞` with any `lssmax ≥ lmax`. -/
theorem C120_converges (h : CavOK P) (hk : 0 < k) {lss : ℕ → ℕ} (hlss : ∀ l, l ≤ lss l) :
    ∃ v, |v| ≤ 3 * cavBound P k / (1 - cavRatio P) ∧
      Tendsto (fun lmax => mSum (fun m (_ : Fin 1) => lnGeo (P.cut lmax (lss lmax)) m k) lmax 0) atTop (𝓝 v) := by
  obtain ⟨σa, ea⟩ := dense_total h.m1 h.m3 hk
  obtain ⟨σb, eb⟩ := dense_total h.m2 h.m3 hk
  obtain ⟨H, hG, -, hw⟩ := h.array hk ea eb
  obtain ⟨q0, q1⟩ := h.ratio
  have hlim : ∀ m : ℕ, ∃ u, Tendsto (fun l => lnGeo (P.cut l (lss l)) m k) atTop (𝓝 u) := by
    intro m
    obtain ⟨v, -, hv⟩ := (hG m).limit
    refine ⟨v, ?_⟩
    have hidx : Tendsto (fun c : ℕ => (2 * (c + 1 - transLmin (m : ℤ)), 2 * (lss c + 1 - transLmin (m : ℤ)))) atTop atTop := by
      rw [← prod_atTop_atTop_eq]
      have : Tendsto (fun c : ℕ => 2 * (c + 1 - transLmin (m : ℤ))) atTop atTop :=
        (tendsto_id.const_mul_atTop' (by norm_num : 0 < 2)).comp ((tendsto_sub_atTop_nat _).comp (tendsto_add_atTop_nat 1))
      exact this.prodMk (tendsto_atTop_mono (fun c => by have := hlss c; omega) this)
    refine (hv.comp hidx).congr' ?_
    filter_upwards [eventually_ge_atTop (max 1 m)] with c hc
    exact (hw c (lss c) m hc (hc.trans (hlss c))).symm
  choose u hu using hlim
  refine mSum_limit (f := fun l m => lnGeo (P.cut l (lss l)) m k) q0.le q1 (fun l m hm => ?_) hu
  rw [hw l (lss l) m hm (hm.trans (hlss l))]
  exact (hG m).bound _ _

/-- **C120, `single_m`.** For any non-zero wavenumbers `single_m` returns one finite number for each of them, `ln det(1 - M)`. -/
theorem C120_single_m (h : CavOK P) {d : ℕ} (hd : 0 < d) {ks : Fin d → ℝ} (hk : ∀ i, 0 < ks i) :
    ∃ w : Fin d → WaveIn, (∀ i, geoWave exactBes P (ks i) = .ok (w i)) ∧ ∀ m ≤ P.lmax, ∀ conv < 1, ∃ N, ∀ fuel, N < fuel →
      singleM fuel conv P.lmax P.lssmax m (List.ofFn w) P.ext = some (.ok (List.ofFn fun i => ((lnGeo P m (ks i) : ℝ) : EReal))) := by
  choose w hw hB using fun i => C120_positive h (hk i)
  refine ⟨w, hw, fun m hm conv hc => ?_⟩
  choose B h1 h2 h3 h4 using fun i => hB i m hm
  simp only [h3]
  exact singleM_value hd h1 h2 hc

/-- **C120, `mSumme`.** For any non-zero wavenumbers `mSumme` returns one number for each of them: the sum over `m ≤ M` for some
`M ≤ lmax`, bounded by a constant that depends on the geometry only and decreases exponentially with the wavenumber, with the sign
of C120_sign. -/
theorem C120_mSumme (h : CavOK P) {ks : List ℝ} (hne : ks ≠ []) (hk : ∀ k ∈ ks, 0 < k) :
    ∃ M ≤ P.lmax, geoVals exactBes P ks = .ok (ks.map fun k => lnGeo P 0 k + 2 * ∑ m ∈ Finset.Icc 1 M, lnGeo P m k) ∧
      ∀ k ∈ ks, |lnGeo P 0 k + 2 * ∑ m ∈ Finset.Icc 1 M, lnGeo P m k| ≤ 3 * cavBound P k / (1 - cavRatio P) ∧
        |(lnGeo P 0 k + 2 * ∑ m ∈ Finset.Icc 1 M, lnGeo P m k) - (lnGeo P 0 k + 2 * ∑ m ∈ Finset.Icc 1 P.lmax, lnGeo P m k)| ≤
          2 * cavBound P k * cavRatio P ^ M / (1 - cavRatio P) ∧
        ∀ σa σb, DenseSign P.mat1 P.mat3 k σa → DenseSign P.mat2 P.mat3 k σb →
          (σa = σb → lnGeo P 0 k + 2 * ∑ m ∈ Finset.Icc 1 M, lnGeo P m k ≤ 0) ∧
          (σa ≠ σb → 0 ≤ lnGeo P 0 k + 2 * ∑ m ∈ Finset.Icc 1 M, lnGeo P m k) := by
  have hd : 0 < ks.length := List.length_pos_iff.mpr hne
  obtain ⟨M, h1, h2, -⟩ := C13_mSumme hd (lmax := P.lmax) (precision := P.precision)
    (L := fun m => .ok fun i : Fin ks.length => lnGeo P m (ks.get i)) (v := fun m i => lnGeo P m (ks.get i)) fun _ _ => rfl
  obtain ⟨q0, q1⟩ := h.ratio
  refine ⟨M, h2, ?_, fun k hkm => ?_⟩
  · unfold geoVals
    rw [valsOf_eq (u := fun m k => lnGeo P m k) hne fun k hkm => ?_, h1, ok_bind]
    · congr 1
      refine List.ext_getElem (by simp) fun j hj1 hj2 => ?_
      rw [List.getElem_ofFn, List.getElem_map]
      rfl
    · obtain ⟨w, hw, hB⟩ := C120_positive h (hk k hkm)
      refine ⟨w, hw, fun m hm => ?_⟩
      obtain ⟨B, h3, h4, h5, -⟩ := hB m hm
      exact ⟨B, h3, h4, h5⟩
  · have hb : ∀ m ≤ P.lmax, |lnGeo P m k| ≤ cavBound P k * cavRatio P ^ (m - 1) := by
      intro m hm
      obtain ⟨w, -, hB⟩ := C120_positive h (hk k hkm)
      obtain ⟨B, -, -, h5, h6⟩ := hB m hm
      rw [h5]; exact h6
    obtain ⟨g1, g2⟩ := mSum_geometric (v := fun m (_ : Fin 1) => lnGeo P m k) (i := 0) h2 q0.le q1 hb
    refine ⟨g2, g1, fun σa σb ea eb => ⟨fun e => ?_, fun e => ?_⟩⟩
    · exact (mSum_nonpos (v := fun m (_ : Fin 1) => lnGeo P m k) (i := 0) h2 fun m hm => (C120_sign h (hk k hkm) ea eb hm).1 e).2
    · exact (mSum_nonneg (v := fun m (_ : Fin 1) => lnGeo P m k) (i := 0) h2 fun m hm => (C120_sign h (hk k hkm) ea eb hm).2 e).1

/-- **C120, separate spheres.** The model with the `ext_flag` dispatch agrees with that of two separate spheres. -/
theorem C120_separate (T : BesTable) (h : P.r1 + P.r2 < P.L) (ks : List ℝ) : geoVals T P ks = pairVals T P ks := by
  have hext : P.ext = true := by unfold PairIn.ext; simpa using h
  have hw : geoWave T P = waveIn T P := by
    funext k
    unfold geoWave waveIn transRow
    rw [hext]
    simp only [not_true, if_true, if_false]
    cases mieTable T P.mat1 P.mat3 P.lmax k P.r1 with
    | error e => rfl
    | ok a =>
      rw [ok_bind, ok_bind]
      cases mieTable T P.mat2 P.mat3 P.lssmax k P.r2 with
      | error e => rfl
      | ok b =>
        rw [ok_bind, ok_bind]
        cases P.mat3.epsilon k with
        | error e => rfl
        | ok e =>
          rw [ok_bind, ok_bind]
          cases transBessels [k * P.L * Real.sqrt e] (.int (P.lmax + P.lssmax + 1 : ℕ)) 1 with
          | error e => rfl
          | ok r => rfl
  unfold geoVals
  rw [hw, hext, pairVals_valsOf]

end

/-! ## The hypotheses can be met -/

theorem vac_medium : MediumMat ⟨.lorentz, [], none⟩ := ⟨vac_diel.1, vac_diel.2, rfl⟩

/-- A gold sphere in an empty cavity in gold: attraction at every wavenumber. -/
example {r1 r2 L : ℝ} (h1 : 0 < r1) (hL : 0 < L) (hi : L + r1 < r2) {k : ℝ} (hk : 0 < k) :
    ∃ x, geoVals exactBes ⟨⟨.lorentz, eGold, none⟩, ⟨.lorentz, eGold, none⟩, ⟨.lorentz, [], none⟩, r1, r2, L, 10, 12, 1e-5⟩ [k] = .ok [x] ∧ x ≤ 0 := by
  have h : CavOK ⟨⟨.lorentz, eGold, none⟩, ⟨.lorentz, eGold, none⟩, ⟨.lorentz, [], none⟩, r1, r2, L, 10, 12, 1e-5⟩ :=
    ⟨gold_sphere, gold_sphere, vac_medium, h1, hL, hi, by norm_num, by norm_num⟩
  obtain ⟨M, -, hM, hv⟩ := C120_mSumme h (ks := [k]) (by simp) (by simpa using hk)
  have e := dense_vacuum gold_physical hk
  exact ⟨_, hM, ((hv k (by simp)).2.2 1 1 e e).1 rfl⟩

/-- Perfect conductors: every `m` attracts. -/
example {r1 r2 L : ℝ} (h1 : 0 < r1) (hL : 0 < L) (hi : L + r1 < r2) {k : ℝ} (hk : 0 < k) {m : ℕ} (hm : m ≤ 10) :
    lnGeo ⟨⟨.pec, [], none⟩, ⟨.pec, [], none⟩, ⟨.lorentz, eWater, none⟩, r1, r2, L, 10, 12, 1e-5⟩ m k < 0 := by
  have h : CavOK ⟨⟨.pec, [], none⟩, ⟨.pec, [], none⟩, ⟨.lorentz, eWater, none⟩, r1, r2, L, 10, 12, 1e-5⟩ :=
    ⟨pec_sphere, pec_sphere, water_medium, h1, hL, hi, by norm_num, by norm_num⟩
  exact (C120_strict h hk (.inl rfl) (.inl rfl) (σa := 1) (σb := 1) (.inl ⟨rfl, .inl rfl⟩) (.inl ⟨rfl, .inl rfl⟩) hm).1 rfl

/-- A bubble in a water-filled cavity in a perfect conductor: repulsion at every wavenumber. -/
example {r1 r2 L : ℝ} (h1 : 0 < r1) (hL : 0 < L) (hi : L + r1 < r2) {k : ℝ} (hk : 0 < k) :
    ∃ x, geoVals exactBes ⟨⟨.lorentz, [], none⟩, ⟨.pec, [], none⟩, ⟨.lorentz, eWater, none⟩, r1, r2, L, 10, 12, 1e-5⟩ [k] = .ok [x] ∧ 0 ≤ x := by
  have h : CavOK ⟨⟨.lorentz, [], none⟩, ⟨.pec, [], none⟩, ⟨.lorentz, eWater, none⟩, r1, r2, L, 10, 12, 1e-5⟩ :=
    ⟨vac_sphere, pec_sphere, water_medium, h1, hL, hi, by norm_num, by norm_num⟩
  obtain ⟨M, -, hM, hv⟩ := C120_mSumme h (ks := [k]) (by simp) (by simpa using hk)
  exact ⟨_, hM, ((hv k (by simp)).2.2 (-1) 1 (bubble_dense water_diel.2 hk) (.inl ⟨rfl, .inl rfl⟩)).2 (by norm_num)⟩

end CasSph
