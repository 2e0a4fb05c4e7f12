import Verif.Props.CavityBudget
import Verif.Props.MSumError

/-! # C153: early termination of the sums over `m` for a sphere inside a cavity -/

namespace CasSph

open Spec Filter Topology MeasureTheory Set

variable {P : PairIn} {frac : ℝ → ℝ → ℝ} {lnK : ℝ → ℕ → ℝ} {R1 R2 : ℝ} {a b : ℕ}

theorem CavOK.complete (h : CavOK P) : CavOK P.complete := ⟨h.1, h.2, h.3, h.4, h.5, h.6, h.7, h.8⟩

theorem lnGeo_complete (P : PairIn) (m : ℕ) (k : ℝ) : lnGeo P.complete m k = lnGeo P m k := by
  have e1 : geoWave exactBes P.complete k = geoWave exactBes P k := rfl
  unfold lnGeo
  rw [e1]
  cases geoWave exactBes P k with
  | error => rfl
  | ok w =>
    have e2 : blockmatricesAt P.complete.lmax P.complete.lssmax (m : ℤ) P.complete.ext w.nL w.bes w.a w.b = blockmatricesAt P.lmax P.lssmax (m : ℤ) P.ext w.nL w.bes w.a w.b := rfl
    simp only
    cases e3 : blockmatricesAt P.lmax P.lssmax (m : ℤ) P.ext w.nL w.bes w.a w.b with
    | error => rw [e3] at e2; simp only [e2]
    | ok B => rw [e3] at e2; simp only [e2]; rfl

theorem cavSum_complete (P : PairIn) (k : ℝ) : cavSum P.complete k = cavSum P k := by
  have e1 : P.complete.lmax = P.lmax := rfl
  unfold cavSum
  simp only [lnGeo_complete, e1]

/-- The subspaces from `m = 2` on, as a part of the bound of C120. -/
noncomputable def stopPart (P : PairIn) : ℝ := 2 / 3 * cavRatio P

theorem CavOK.stop_nonneg (h : CavOK P) : 0 ≤ stopPart P := by
  have := h.ratio.1
  unfold stopPart
  positivity

/-- What `mSumme` returns: the sum up to some `M ≥ 1`, the same for all wavenumbers. -/
theorem CavOK.stop (h : CavOK P) {ks : List ℝ} (hne : ks ≠ []) (hk : ∀ k ∈ ks, 0 < k) :
    ∃ M, 1 ≤ M ∧ M ≤ P.lmax ∧ geoVals exactBes P ks = .ok (ks.map fun k => lnGeo P 0 k + 2 * ∑ m ∈ Finset.Icc 1 M, lnGeo P m k) ∧
      (M = P.lmax ∨ SmallChange P.precision (fun m (i : Fin ks.length) => lnGeo P m (ks.get i)) M) := by
  have hd : 0 < ks.length := List.length_pos_iff.mpr hne
  obtain ⟨M, h1, h2, h3, -⟩ := C13_mSumme hd (lmax := P.lmax) (precision := P.precision)
    (L := fun m => .ok fun i : Fin ks.length => lnGeo P m (ks.get i)) (v := fun m i => lnGeo P m (ks.get i)) fun _ _ => rfl
  have fin : ∀ M', (∀ i, mSum (fun m (i : Fin ks.length) => lnGeo P m (ks.get i)) M i = mSum (fun m (i : Fin ks.length) => lnGeo P m (ks.get i)) M' i) →
      geoVals exactBes P ks = .ok (ks.map fun k => lnGeo P 0 k + 2 * ∑ m ∈ Finset.Icc 1 M', lnGeo P m k) := by
    intro M' hM'
    rw [h.vals_eq hne hk, h1, ok_bind]
    congr 1
    refine List.ext_getElem (by simp) fun j hj1 hj2 => ?_
    rw [List.getElem_ofFn, List.getElem_map, hM']
    rfl
  rcases h3 with h3 | rfl
  · rcases h3 with h3 | h3
    · refine ⟨P.lmax, h.hl, le_rfl, fin _ fun i => ?_, .inl rfl⟩
      have hki := hk _ (List.get_mem ks i)
      have hall : ∀ m ≤ P.lmax, lnGeo P m (ks.get i) = 0 := by
        refine fun m hm => h.lnGeo_zero hki (fun hc => ?_) hm
        obtain ⟨σa, ea⟩ := dense_total h.m1 h.m3 hki
        obtain ⟨σb, eb⟩ := dense_total h.m2 h.m3 hki
        have hs := fun (m : ℕ) (hm' : m ≤ P.lmax) => C120_strict h hki hc.1 hc.2 ea eb hm'
        have hz := h3 i
        unfold mSum at hz
        simp only at hz
        by_cases hσ : σa = σb
        · have := (hs 0 (by omega)).1 hσ
          have := Finset.sum_nonpos fun m (hm' : m ∈ Finset.Icc 1 M) => ((hs m ((Finset.mem_Icc.mp hm').2.trans h2)).1 hσ).le
          linarith
        · have := (hs 0 (by omega)).2 hσ
          have := Finset.sum_nonneg fun m (hm' : m ∈ Finset.Icc 1 M) => ((hs m ((Finset.mem_Icc.mp hm').2.trans h2)).2 hσ).le
          linarith
      have e1 : ∀ N ≤ P.lmax, ∑ m ∈ Finset.Icc 1 N, lnGeo P m (ks.get i) = 0 := fun N hN =>
        Finset.sum_eq_zero fun m hm => hall m ((Finset.mem_Icc.mp hm).2.trans hN)
      unfold mSum
      simp only [e1 M h2, e1 P.lmax le_rfl]
    · exact ⟨M, h3.1, h2, fin M fun _ => rfl, .inr h3⟩
  · exact ⟨_, h.hl, le_rfl, fin _ fun _ => rfl, .inl rfl⟩

/-- One partial sum against the complete one. -/
theorem CavOK.stop_err (h : CavOK P) {k : ℝ} (hk : 0 < k) {M : ℕ} (h1 : 1 ≤ M) (hM : M ≤ P.lmax) {x : ℝ}
    (hx : x = lnGeo P 0 k + 2 * ∑ m ∈ Finset.Icc 1 M, lnGeo P m k) :
    |cavSum P k - x| ≤ 2 / 3 * cavRatio P ^ M * cavExp P k ∧ |cavSum P k - x| ≤ stopPart P * cavExp P k ∧
      ∀ σa σb, DenseSign P.mat1 P.mat3 k σa → DenseSign P.mat2 P.mat3 k σb → (σa = σb → cavSum P k ≤ x ∧ x ≤ 0) ∧ (σa ≠ σb → 0 ≤ x ∧ x ≤ cavSum P k) := by
  obtain ⟨q0, q1⟩ := h.ratio
  have hb : ∀ m ≤ P.lmax, |lnGeo P m k| ≤ cavBound P k * cavRatio P ^ (m - 1) := by
    intro m hm
    obtain ⟨w, -, hB⟩ := C120_positive h hk
    obtain ⟨B, -, -, h5, h6⟩ := hB m hm
    rw [h5]; exact h6
  have g1 : |x - cavSum P k| ≤ 2 * cavBound P k * cavRatio P ^ M / (1 - cavRatio P) := by
    rw [hx]
    exact (mSum_geometric (v := fun m (_ : Fin 1) => lnGeo P m k) (i := 0) hM q0.le q1 hb).1
  have hq : 0 < 1 - cavRatio P := sub_pos.mpr q1
  have g2 : |cavSum P k - x| ≤ 2 / 3 * cavRatio P ^ M * cavExp P k := by
    rw [abs_sub_comm]
    have := (cavBound_le h hk).1
    unfold cavExp
    calc _ ≤ 2 * cavBound P k * cavRatio P ^ M / (1 - cavRatio P) := g1
      _ ≤ 2 * (6 * Real.exp (-(k * cavGap P)) / (1 - cavRatio P) ^ 2) * cavRatio P ^ M / (1 - cavRatio P) := by gcongr
      _ = _ := by field_simp; ring
  refine ⟨g2, g2.trans ?_, fun σa σb ea eb => ⟨fun e => ?_, fun e => ?_⟩⟩
  · refine mul_le_mul_of_nonneg_right (mul_le_mul_of_nonneg_left ?_ (by norm_num)) (cavExp_pos h k).le
    calc cavRatio P ^ M ≤ cavRatio P ^ 1 := pow_le_pow_of_le_one q0.le q1.le h1
      _ = _ := pow_one _
  · rw [hx]
    exact mSum_nonpos (v := fun m (_ : Fin 1) => lnGeo P m k) (i := 0) hM fun m hm => (C120_sign h hk ea eb hm).1 e
  · rw [hx]
    exact mSum_nonneg (v := fun m (_ : Fin 1) => lnGeo P m k) (i := 0) hM fun m hm => (C120_sign h hk ea eb hm).2 e

/-- **C153, `mSumme`.** For every precision the values that are returned differ from the complete sums by at most `2 q^M/3` of the bound of C120, where `M ≥ 1` is the last subspace
of the sum, and lie between zero and the complete sums. -/
theorem C153_mSumme (h : CavOK P) {ks : List ℝ} (hne : ks ≠ []) (hk : ∀ k ∈ ks, 0 < k) :
    ∃ vs ws M, geoVals exactBes P ks = .ok vs ∧ geoVals exactBes P.complete ks = .ok ws ∧ vs.length = ks.length ∧ ws.length = ks.length ∧ 1 ≤ M ∧ M ≤ P.lmax ∧
      (M = P.lmax ∨ SmallChange P.precision (fun m (i : Fin ks.length) => lnGeo P m (ks.get i)) M) ∧
      ∀ (j : ℕ) (k x y : ℝ), ks[j]? = some k → vs[j]? = some x → ws[j]? = some y →
        |y - x| ≤ 2 / 3 * cavRatio P ^ M * cavExp P k ∧ |y - x| ≤ stopPart P * cavExp P k ∧
        ∀ σa σb, DenseSign P.mat1 P.mat3 k σa → DenseSign P.mat2 P.mat3 k σb → (σa = σb → y ≤ x ∧ x ≤ 0) ∧ (σa ≠ σb → 0 ≤ x ∧ x ≤ y) := by
  obtain ⟨M, m1, m2, e1, e2⟩ := h.stop hne hk
  refine ⟨_, _, M, e1, h.complete.vals_sum le_rfl hne hk, by simp, by simp, m1, m2, e2, fun j k x y hj hx hy => ?_⟩
  rw [List.getElem?_map, hj] at hx hy
  injection hx with hx
  injection hy with hy
  rw [← hy, cavSum_complete]
  exact h.stop_err (hk k (List.mem_of_getElem? hj)) m1 m2 hx.symm

theorem CavOK.stop_val (h : CavOK P) {k : ℝ} (hk : 0 < k) : |cavVal P.complete k - cavVal P k| ≤ stopPart P * cavExp P k ∧
    ∀ σa σb, DenseSign P.mat1 P.mat3 k σa → DenseSign P.mat2 P.mat3 k σb → (σa = σb → cavVal P.complete k ≤ cavVal P k ∧ cavVal P k ≤ 0) ∧
      (σa ≠ σb → 0 ≤ cavVal P k ∧ cavVal P k ≤ cavVal P.complete k) := by
  obtain ⟨vs, ws, M, e1, e2, -, -, -, -, -, e3⟩ := C153_mSumme h (ks := [k]) (by simp) (by simpa using hk)
  rw [h.val_ok hk] at e1
  rw [h.complete.val_ok hk] at e2
  injection e1 with e1
  injection e2 with e2
  subst e1 e2
  exact (e3 0 k _ _ rfl rfl rfl).2

/-- **C153, `e0`.** -/
theorem C153_zero_temperature {q : Quad} {deltaT : ℝ} {nmax : ℤ} (h : CavOK P) (hR : CavFits P R1 R2) (ha : P.lmax ≤ a)
    (hb : P.lssmax ≤ b) (hab : a ≤ b) (hq : q.Exact) {k0 : ℝ} (hk0 : 0 ≤ k0) {k1 : Upper} (hk1 : ∀ x, k1 = .num x → k0 ≤ x)
    (hk1' : k1 = .none → k0 ≤ nmax * deltaT) :
    ∃ E E0 E', e0 q (geoAt exactBes frac lnK P) deltaT nmax k0 k1 = .ok E ∧ e0 q (geoAt exactBes frac lnK P.complete) deltaT nmax k0 k1 = .ok E0 ∧
      e0 q (geoAt exactBes frac lnK (P.complete.cut a b)) deltaT nmax k0 k1 = .ok E' ∧
      |E0 - E| ≤ stopPart P * cavZero P k0 ∧ (P.Same → E0 ≤ E ∧ E ≤ 0) ∧ (P.Opposite → 0 ≤ E ∧ E ≤ E0) ∧
      |E' - E| ≤ stopPart P * cavZero P k0 +
        ((P.r1 / R1) ^ (2 * P.lmax + 1) * cavZero { P with r1 := R1 } k0 + (R2 / P.r2) ^ (2 * P.lssmax + 1) * cavZero { P with r2 := R2 } k0) := by
  have hc := h.complete
  obtain ⟨s1, s2⟩ := e0Range_sub (deltaT := deltaT) (nmax := nmax) k0 k1
  have hpos : ∀ k ∈ e0Range deltaT nmax k0 k1, 0 < k := fun k hk => hk0.trans_lt (s1 hk)
  have i0 := h.val_integrable.mono_set hpos
  have i1 := hc.val_integrable.mono_set hpos
  obtain ⟨E0, E', g1, g2, g3⟩ := C151_zero_temperature (frac := frac) (lnK := lnK) (deltaT := deltaT) (nmax := nmax) hc le_rfl (R1 := R1) (R2 := R2) ⟨hR.1, hR.2, hR.3, hR.4⟩
    ha hb hab hq hk0 hk1 hk1'
  have v0 := cav_e0_value (frac := frac) (lnK := lnK) hc hq hk0 hk1 hk1'
  rw [g1] at v0
  injection v0 with v0
  have i2 : IntegrableOn (fun k => stopPart P * cavExp P k) (Ioi k0) volume := (cavExp_integrable h k0).const_mul _
  have c1 : |E0 - ∫ k in e0Range deltaT nmax k0 k1, cavVal P k| ≤ stopPart P * cavZero P k0 := by
    rw [v0, ← integral_sub i1 i0]
    calc |∫ k in e0Range deltaT nmax k0 k1, cavVal P.complete k - cavVal P k| ≤ ∫ k in e0Range deltaT nmax k0 k1, stopPart P * cavExp P k := by
          refine norm_integral_le_of_norm_le (f := fun k => cavVal P.complete k - cavVal P k) (i2.mono_set s1) ((ae_restrict_iff' s2).mpr (.of_forall fun k hk => ?_))
          exact (h.stop_val (hpos k hk)).1
      _ ≤ ∫ k in Ioi k0, stopPart P * cavExp P k :=
          setIntegral_mono_set i2 (.of_forall fun k => mul_nonneg h.stop_nonneg (cavExp_pos h k).le) (LE.le.eventuallyLE s1)
      _ = _ := by
          unfold cavZero
          rw [integral_const_mul, cavExp_integral h]
  refine ⟨_, E0, E', cav_e0_value h hq hk0 hk1 hk1', g1, g2, c1, fun hs => ⟨?_, ?_⟩, fun hs => ⟨?_, ?_⟩, ?_⟩
  · rw [v0]
    refine setIntegral_mono_on i1 i0 s2 fun k hk => ?_
    obtain ⟨σ, ea, eb⟩ := hs k (hpos k hk)
    exact (((h.stop_val (hpos k hk)).2 σ σ ea eb).1 rfl).1
  · refine setIntegral_nonpos s2 fun k hk => ?_
    obtain ⟨σ, ea, eb⟩ := hs k (hpos k hk)
    exact (((h.stop_val (hpos k hk)).2 σ σ ea eb).1 rfl).2
  · refine setIntegral_nonneg s2 fun k hk => ?_
    obtain ⟨σ, ea, eb⟩ := hs k (hpos k hk)
    exact (((h.stop_val (hpos k hk)).2 σ (-σ) ea eb).2 (ne_neg_sign ea)).1
  · rw [v0]
    refine setIntegral_mono_on i0 i1 s2 fun k hk => ?_
    obtain ⟨σ, ea, eb⟩ := hs k (hpos k hk)
    exact (((h.stop_val (hpos k hk)).2 σ (-σ) ea eb).2 (ne_neg_sign ea)).2
  · have := abs_sub_le E' E0 (∫ k in e0Range deltaT nmax k0 k1, cavVal P k)
    have g3' : |E' - E0| ≤ (P.r1 / R1) ^ (2 * P.lmax + 1) * cavZero { P with r1 := R1 } k0 + (R2 / P.r2) ^ (2 * P.lssmax + 1) * cavZero { P with r2 := R2 } k0 := g3
    linarith

theorem CavOK.stop_slice (h : CavOK P) {deltaT : ℝ} (hT : 0 < deltaT) {N n : ℕ} (hn : 1 ≤ n) (hN : n ≤ N) :
    |sliceVal (geoGeo exactBes frac lnK P.complete) deltaT N n - sliceVal (geoGeo exactBes frac lnK P) deltaT N n| ≤ stopPart P * cavExp P (deltaT * n) ∧
      ∀ σa σb, DenseSign P.mat1 P.mat3 (deltaT * n) σa → DenseSign P.mat2 P.mat3 (deltaT * n) σb →
        (σa = σb → sliceVal (geoGeo exactBes frac lnK P.complete) deltaT N n ≤ sliceVal (geoGeo exactBes frac lnK P) deltaT N n) ∧
        (σa ≠ σb → sliceVal (geoGeo exactBes frac lnK P) deltaT N n ≤ sliceVal (geoGeo exactBes frac lnK P.complete) deltaT N n) := by
  obtain ⟨k1, k2, k3⟩ := sliceKs_mem hT hn hN
  obtain ⟨vs, ws, M, e1, e2, l1, l2, -, -, -, hj⟩ := C153_mSumme h k1 k2
  have hlt : n - sliceLo n < (sliceKs deltaT N n).length := (List.getElem?_eq_some_iff.mp k3).1
  have hv := List.getElem?_eq_getElem (l := vs) (i := n - sliceLo n) (by omega)
  have hw := List.getElem?_eq_getElem (l := ws) (i := n - sliceLo n) (by omega)
  obtain ⟨-, b1, b2⟩ := hj _ _ _ _ k3 hv hw
  unfold sliceVal geoGeo
  simp only
  rw [e1, e2]
  simp only
  rw [List.getD_eq_getElem?_getD, List.getD_eq_getElem?_getD, hv, hw, Option.getD_some, Option.getD_some]
  exact ⟨b1, fun σa σb ea eb => ⟨fun e => ((b2 σa σb ea eb).1 e).1, fun e => ((b2 σa σb ea eb).2 e).2⟩⟩

/-- **C153, `free_energy`.** -/
theorem C153_free_energy {p p' : FTParams} (h : CavOK P) (hg : p.geo = geoGeo exactBes frac lnK P) (hp' : p' = { p with geo := geoGeo exactBes frac lnK P.complete })
    (hp : p.nprocs.isZero) (han : p.analyticN0 = false) (hT : 0 < p.deltaT) (hN : 1 ≤ p.nmax) :
    ∃ F F' : List ℝ, (freeEnergy p FT.fresh).1 = .ok F ∧ (freeEnergy p' FT.fresh).1 = .ok F' ∧ F.length = p.maxstep.toNat ∧ F'.length = p.maxstep.toNat ∧
      ∀ (i : ℕ) (x y : ℝ), F[i]? = some x → F'[i]? = some y →
        |y - x| ≤ stopPart P * cavFree P ((i + 1) * p.deltaT) ∧ (P.Same → y ≤ x ∧ x ≤ 0) ∧ (P.Opposite → 0 ≤ x ∧ x ≤ y) := by
  subst hp'
  obtain ⟨N, hN'⟩ := Int.eq_ofNat_of_zero_le (by omega : 0 ≤ p.nmax)
  have hN1 : 1 ≤ N := by omega
  have hk0 : (0 : ℝ) < 1e-10 := by norm_num
  obtain ⟨zb1, zb2⟩ := h.stop_val hk0
  obtain ⟨F, hF, hl, hval⟩ := freeEnergy_slices_num p (z := cavVal P 1e-10) (hg ▸ geoGeo_valsOk h) (by rw [hg]; exact h.val_ok hk0) hp han hT hN1 hN'
  obtain ⟨F', hF', hl', hval'⟩ := freeEnergy_slices_num { p with geo := geoGeo exactBes frac lnK P.complete } (z := cavVal P.complete 1e-10) (geoGeo_valsOk h.complete)
    (h.complete.val_ok hk0) hp han hT hN1 hN'
  obtain ⟨F1, f1, -, f3⟩ := C121_free_energy h hg hp han hT hN
  rw [hF] at f1
  injection f1 with f1
  subst f1
  refine ⟨F, F', hF, hF', hl, hl', fun i x y hx hy => ?_⟩
  have hi : i < F.length := (List.getElem?_eq_some_iff.mp hx).1
  obtain ⟨-, x1, x2⟩ := f3 i x hx
  have hv := hval (i + 1) (by omega) (by omega)
  have hv' := hval' (i + 1) (by omega) (by simp only; omega)
  rw [Nat.add_sub_cancel, hx, hg] at hv
  rw [Nat.add_sub_cancel, hy] at hv'
  injection hv with hx
  injection hv' with hy
  simp only at hy
  have hmem : ∀ j ∈ Finset.range (N / (i + 1)), 1 ≤ (j + 1) * (i + 1) ∧ (j + 1) * (i + 1) ≤ N := by
    intro j hj
    have hj := Finset.mem_range.mp hj
    exact ⟨Nat.mul_pos (by omega) (by omega), (Nat.mul_le_mul_right _ (by omega : j + 1 ≤ N / (i + 1))).trans (Nat.div_mul_le_self _ _)⟩
  have key := fun j hj => h.stop_slice (frac := frac) (lnK := lnK) hT (hmem j hj).1 (hmem j hj).2
  have hkp : ∀ j : ℕ, 0 < p.deltaT * ((j + 1) * (i + 1) : ℕ) := fun j => by positivity
  have hTi : 0 < ((i + 1 : ℕ) : ℝ) * p.deltaT := by positivity
  have ecast : ((i + 1 : ℕ) : ℝ) = (i : ℝ) + 1 := by push_cast; ring
  have hsl : (P.Same → y ≤ x) ∧ (P.Opposite → x ≤ y) := by
    rw [hx, hy]
    refine ⟨fun hs => mul_le_mul_of_nonneg_left (add_le_add ?_ (Finset.sum_le_sum fun j hj => ?_)) hTi.le,
      fun hs => mul_le_mul_of_nonneg_left (add_le_add ?_ (Finset.sum_le_sum fun j hj => ?_)) hTi.le⟩
    · obtain ⟨σ, ea, eb⟩ := hs _ hk0
      exact mul_le_mul_of_nonneg_left ((zb2 σ σ ea eb).1 rfl).1 (by norm_num)
    · obtain ⟨σ, ea, eb⟩ := hs _ (hkp j)
      exact ((key j hj).2 σ σ ea eb).1 rfl
    · obtain ⟨σ, ea, eb⟩ := hs _ hk0
      exact mul_le_mul_of_nonneg_left ((zb2 σ (-σ) ea eb).2 (ne_neg_sign ea)).2 (by norm_num)
    · obtain ⟨σ, ea, eb⟩ := hs _ (hkp j)
      exact ((key j hj).2 σ (-σ) ea eb).2 (ne_neg_sign ea)
  refine ⟨?_, fun hs => ⟨hsl.1 hs, x1 hs⟩, fun hs => ⟨x2 hs, hsl.2 hs⟩⟩
  have ek : ∀ j : ℕ, p.deltaT * ((j + 1) * (i + 1) : ℕ) = ((i : ℝ) + 1) * p.deltaT * ((j : ℝ) + 1) := fun j => by push_cast; ring
  have s := Finset.sum_le_sum fun j hj => (key j hj).1
  have s' := Finset.abs_sum_le_sum_abs (fun j : ℕ => sliceVal (geoGeo exactBes frac lnK P.complete) p.deltaT N ((j + 1) * (i + 1)) -
    sliceVal (geoGeo exactBes frac lnK P) p.deltaT N ((j + 1) * (i + 1))) (Finset.range (N / (i + 1)))
  rw [Finset.sum_sub_distrib] at s'
  simp only [ek] at s
  rw [← Finset.mul_sum] at s
  rw [ecast] at hx hy hTi
  have b1 := mul_le_mul_of_nonneg_left (cavExp_free h hTi (N / (i + 1))) h.stop_nonneg
  refine le_trans ?_ b1
  rw [hx, hy, ← mul_sub, abs_mul, abs_of_pos hTi, mul_left_comm]
  refine mul_le_mul_of_nonneg_left ?_ hTi.le
  rw [add_sub_add_comm, ← mul_sub, mul_add]
  refine (abs_add_le _ _).trans (add_le_add ?_ (s'.trans s))
  rw [abs_mul, abs_of_pos (by norm_num : (0 : ℝ) < 0.5)]
  linarith

/-- **C153, all errors together.** A computed free energy with any precision against complete sums over `m`, larger cut-offs and more Matsubara wavenumbers. -/
theorem C153_total {p p' : FTParams} (h : CavOK P) (hR : CavFits P R1 R2) (ha : P.lmax ≤ a) (hb : P.lssmax ≤ b) (hab : a ≤ b) {N N' : ℕ} (hN : p.nmax = N) (hN1 : 1 ≤ N)
    (hNN : N ≤ N') (hg : p.geo = geoGeo exactBes frac lnK P) (hp' : p' = { p with nmax := N', geo := geoGeo exactBes frac lnK (P.complete.cut a b) }) (hp : p.nprocs.isZero)
    (han : p.analyticN0 = false) (hT : 0 < p.deltaT) :
    ∃ F F' : List ℝ, (freeEnergy p FT.fresh).1 = .ok F ∧ (freeEnergy p' FT.fresh).1 = .ok F' ∧ F.length = p.maxstep.toNat ∧ F'.length = p.maxstep.toNat ∧
      ∀ (i : ℕ) (x y : ℝ), F[i]? = some x → F'[i]? = some y →
        |y - x| ≤ stopPart P * cavFree P ((i + 1) * p.deltaT) + cavErr P R1 R2 ((i + 1) * p.deltaT) P.lmax P.lssmax (N / (i + 1)) := by
  obtain ⟨F, G, f1, g1, l1, l2, e1⟩ := C153_free_energy (frac := frac) (lnK := lnK) h hg rfl hp han hT (by omega)
  obtain ⟨G', F', g1', f2, -, l3, e2⟩ := C152_free_energy (frac := frac) (lnK := lnK) (p := { p with geo := geoGeo exactBes frac lnK P.complete }) h.complete le_rfl
    (R1 := R1) (R2 := R2) ⟨hR.1, hR.2, hR.3, hR.4⟩ ha hb hab hN hN1 hNN rfl hp' hp han hT
  rw [g1] at g1'
  injection g1' with g1'
  subst g1'
  refine ⟨F, F', f1, f2, l1, l3, fun i x y hx hy => ?_⟩
  have hi : i < F.length := (List.getElem?_eq_some_iff.mp hx).1
  have hz := List.getElem?_eq_getElem (l := G) (i := i) (by omega)
  have c1 := (e1 i x _ hx hz).1
  have c2 : |y - G[i]'(by omega)| ≤ cavErr P R1 R2 ((i + 1) * p.deltaT) P.lmax P.lssmax (N / (i + 1)) := e2 i _ y hz hy
  have := abs_sub_le y (G[i]'(by omega)) x
  linarith

/-- **C153, distance from the limit.** A computed free energy with any precision against the limit of complete sums, infinite cut-offs and all Matsubara wavenumbers. -/
theorem C153_limit {p : FTParams} (h : CavOK P) {N : ℕ} (hN : p.nmax = N) (hN1 : 1 ≤ N) (hg : p.geo = geoGeo exactBes frac lnK P) (hp : p.nprocs.isZero)
    (han : p.analyticN0 = false) (hT : 0 < p.deltaT) :
    ∃ f : ℕ → ℝ, IsCavLimit frac lnK P.complete p f ∧ ∃ F : List ℝ, (freeEnergy p FT.fresh).1 = .ok F ∧ F.length = p.maxstep.toNat ∧
      ∀ (i : ℕ) (x : ℝ), F[i]? = some x → ∀ R1 R2, CavFits P R1 R2 →
        |x - f i| ≤ stopPart P * cavFree P ((i + 1) * p.deltaT) + cavErr P R1 R2 ((i + 1) * p.deltaT) P.lmax P.lssmax (N / (i + 1)) := by
  obtain ⟨F, G, f1, g1, l1, l2, e1⟩ := C153_free_energy (frac := frac) (lnK := lnK) h hg rfl hp han hT (by omega)
  obtain ⟨f, f2, f3⟩ := C152_limit frac lnK (p := p) h.complete le_rfl hp han hT
  obtain ⟨G', r1, -, r4⟩ := f3 P.lmax P.lssmax N h.hl h.hls hN1
  have ep : { p with nmax := (N : ℤ), geo := geoGeo exactBes frac lnK (P.complete.cut P.lmax P.lssmax) } = { p with geo := geoGeo exactBes frac lnK P.complete } := by
    rw [show P.complete.cut P.lmax P.lssmax = P.complete from cut_self P.complete, ← hN]
  unfold cavRun at r1
  rw [ep, g1] at r1
  injection r1 with r1
  subst r1
  refine ⟨f, f2, F, f1, l1, fun i x hx R1 R2 hR => ?_⟩
  have hi : i < F.length := (List.getElem?_eq_some_iff.mp hx).1
  have hz := List.getElem?_eq_getElem (l := G) (i := i) (by omega)
  have c1 := (e1 i x _ hx hz).1
  have c2 : |G[i]'(by omega) - f i| ≤ cavErr P R1 R2 ((i + 1) * p.deltaT) P.lmax P.lssmax (N / (i + 1)) := r4 i _ hz R1 R2 ⟨hR.1, hR.2, hR.3, hR.4⟩
  have := abs_sub_le x (G[i]'(by omega)) (f i)
  rw [abs_sub_comm] at c1
  linarith

/-- **C153, `entropy`.** The computed entropy with any precision against minus the difference quotients of the limits of the free energy. -/
theorem C153_entropy {p : FTParams} (h : CavOK P) (hR : CavFits P R1 R2) {N : ℕ} (hN : p.nmax = N) (hN1 : 1 ≤ N)
    (hg : p.geo = geoGeo exactBes frac lnK P) (hp : p.nprocs.isZero) (han : p.analyticN0 = false) (hT : 0 < p.deltaT) (hm : 2 ≤ p.maxstep) {β : ℝ}
    (hβ : ∀ i < p.maxstep.toNat, stopPart P * cavFree P ((i + 1) * p.deltaT) + cavErr P R1 R2 ((i + 1) * p.deltaT) P.lmax P.lssmax (N / (i + 1)) ≤ β) :
    ∃ f : ℕ → ℝ, IsCavLimit frac lnK P.complete p f ∧ ∃ S S' : List ℝ, (entropy p FT.fresh).1 = .ok S ∧
      IsNegGradient ((List.range p.maxstep.toNat).map f) S' p.deltaT ∧ S.length = p.maxstep.toNat ∧ S'.length = p.maxstep.toNat ∧
      ∀ (i : ℕ) (s s' : ℝ), S[i]? = some s → S'[i]? = some s' → |s' - s| ≤ 2 * β / p.deltaT := by
  obtain ⟨f, f1, F, r1, l1, r4⟩ := C153_limit (frac := frac) (lnK := lnK) h hN hN1 hg hp han hT
  have gl : ((List.range p.maxstep.toNat).map f).length = p.maxstep.toNat := by rw [List.length_map, List.length_range]
  obtain ⟨S, S', s1, s2, s3, s4, s5⟩ := gradient_close (F := F) (G := (List.range p.maxstep.toNat).map f) (β := β) hT (by rw [l1, gl]) (by rw [gl]; omega)
    (fun i v x hv hx => by
      have hi : i < p.maxstep.toNat := by
        rw [← l1]
        exact (List.getElem?_eq_some_iff.mp hv).1
      rw [List.getElem?_map, List.getElem?_range hi, Option.map_some, Option.some.injEq] at hx
      subst hx
      rw [abs_sub_comm]
      exact (r4 i v hv R1 R2 hR).trans (hβ i hi))
  obtain ⟨S2, t1, t2⟩ := npGradient_spec (F := (List.range p.maxstep.toNat).map f) (h := p.deltaT) (by rw [gl]; omega)
  rw [s2] at t1
  injection t1 with t1
  subst t1
  refine ⟨f, f1, S.map (- ·), S'.map (- ·), ?_, t2, by rw [List.length_map, s3, gl], by rw [List.length_map, s4, gl], fun i s s' hs hs' => ?_⟩
  · rw [entropy_eq, r1]
    simp only [Except.bind, s1, Except.map]
  · rw [List.getElem?_map, Option.map_eq_some_iff] at hs hs'
    obtain ⟨t, ht, rfl⟩ := hs
    obtain ⟨t', ht', rfl⟩ := hs'
    rw [← abs_neg, show -(-t' - -t) = t' - t by ring]
    exact s5 i t t' ht ht'

/-- A gold sphere in a gold cavity with the precision `1e-8`: 500 wavenumbers, cut-offs 20 and 80, against complete sums, 5000 wavenumbers and cut-offs 1000. -/
example (frac : ℝ → ℝ → ℝ) (lnK : ℝ → ℕ → ℝ) : ∃ F F' : List ℝ,
    (freeEnergy ⟨0.01, 500, 200, false, .int 0, geoGeo exactBes frac lnK { goldCav with precision := 1e-8 }⟩ FT.fresh).1 = .ok F ∧
    (freeEnergy ⟨0.01, 5000, 200, false, .int 0, geoGeo exactBes frac lnK (goldCav.cut 1000 1000)⟩ FT.fresh).1 = .ok F' ∧ F.length = 200 ∧ F'.length = 200 ∧
    ∀ x y : ℝ, F[0]? = some x → F'[0]? = some y → |y - x| ≤ stopPart goldCav * cavFree goldCav 0.01 + cavErr goldCav 1.05 3.95 0.01 20 80 500 := by
  have hok : CavOK { goldCav with precision := 1e-8 } := have h := goldCav_ok; ⟨h.1, h.2, h.3, h.4, h.5, h.6, h.7, h.8⟩
  have hfit : CavFits { goldCav with precision := 1e-8 } 1.05 3.95 := have h := goldCav_fits; ⟨h.1, h.2, h.3, h.4⟩
  obtain ⟨F, F', h1, h2, h3, h4, h5⟩ := C153_total (p := ⟨0.01, 500, 200, false, .int 0, geoGeo exactBes frac lnK { goldCav with precision := 1e-8 }⟩) hok
    hfit (a := 1000) (b := 1000) (by norm_num [goldCav]) (by norm_num [goldCav]) le_rfl (N := 500) (N' := 5000) rfl (by norm_num) (by norm_num) rfl rfl rfl rfl
    (by norm_num)
  refine ⟨F, F', h1, h2, h3, h4, fun x y hx hy => ?_⟩
  have h6 := h5 0 x y hx hy
  have e : (((0 : ℕ) : ℝ) + 1) * 0.01 = 0.01 := by norm_num
  simp only [e] at h6
  exact h6

/-- Its entropy against the limit. -/
example (frac : ℝ → ℝ → ℝ) (lnK : ℝ → ℕ → ℝ) {β : ℝ} (hβ : β = (Finset.range 200).sup' ⟨0, by simp⟩ fun i : ℕ =>
      stopPart goldCav * cavFree goldCav ((i + 1) * 0.01) + cavErr goldCav 1.05 3.95 ((i + 1) * 0.01) 20 80 (500 / (i + 1))) :
    ∃ f : ℕ → ℝ, IsCavLimit frac lnK goldCav ⟨0.01, 500, 200, false, .int 0, geoGeo exactBes frac lnK { goldCav with precision := 1e-8 }⟩ f ∧
      ∃ S S' : List ℝ, (entropy ⟨0.01, 500, 200, false, .int 0, geoGeo exactBes frac lnK { goldCav with precision := 1e-8 }⟩ FT.fresh).1 = .ok S ∧
      IsNegGradient ((List.range 200).map f) S' 0.01 ∧ S.length = 200 ∧ S'.length = 200 ∧
      ∀ (i : ℕ) (s s' : ℝ), S[i]? = some s → S'[i]? = some s' → |s' - s| ≤ 2 * β / 0.01 := by
  have hok : CavOK { goldCav with precision := 1e-8 } := have h := goldCav_ok; ⟨h.1, h.2, h.3, h.4, h.5, h.6, h.7, h.8⟩
  have hfit : CavFits { goldCav with precision := 1e-8 } 1.05 3.95 := have h := goldCav_fits; ⟨h.1, h.2, h.3, h.4⟩
  exact C153_entropy (p := ⟨0.01, 500, 200, false, .int 0, geoGeo exactBes frac lnK { goldCav with precision := 1e-8 }⟩) hok hfit (N := 500) rfl (by norm_num) rfl rfl rfl
    (by norm_num) (by norm_num) (fun i hi => by
      rw [hβ]
      exact Finset.le_sup' (fun i : ℕ => stopPart goldCav * cavFree goldCav (((i : ℝ) + 1) * 0.01) + cavErr goldCav 1.05 3.95 (((i : ℝ) + 1) * 0.01) 20 80 (500 / (i + 1)))
        (Finset.mem_range.mpr hi))

/-- Its energy at zero temperature. -/
example (frac : ℝ → ℝ → ℝ) (lnK : ℝ → ℕ → ℝ) : ∃ E E0,
    e0 exactQuad (geoAt exactBes frac lnK { goldCav with precision := 1e-8 }) 0 0 0 .inf = .ok E ∧ e0 exactQuad (geoAt exactBes frac lnK goldCav) 0 0 0 .inf = .ok E0 ∧
      |E0 - E| ≤ stopPart goldCav * cavZero goldCav 0 ∧ E0 ≤ E ∧ E ≤ 0 := by
  have hok : CavOK { goldCav with precision := 1e-8 } := have h := goldCav_ok; ⟨h.1, h.2, h.3, h.4, h.5, h.6, h.7, h.8⟩
  have hfit : CavFits { goldCav with precision := 1e-8 } 1.05 3.95 := have h := goldCav_fits; ⟨h.1, h.2, h.3, h.4⟩
  obtain ⟨E, E0, -, h1, h2, -, h3, h4, -, -⟩ := C153_zero_temperature (frac := frac) (lnK := lnK) (deltaT := 0) (nmax := 0) hok hfit (a := 1000) (b := 1000)
    (by norm_num [goldCav]) (by norm_num [goldCav]) le_rfl exactQuad_exact (k0 := 0) le_rfl (k1 := .inf) (by simp) (by simp)
  exact ⟨E, E0, h1, h2, h3, h4 goldCav_same⟩

end CasSph
