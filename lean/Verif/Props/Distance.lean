import Verif.Lemmas.PairGramK0
import Verif.Props.ZeroTemp

/-! # C107, C108: exchange of the spheres, dependence on the distance -/

namespace CasSph

open Spec Filter Topology MeasureTheory Set
open scoped Classical

variable {P P' : PairIn} {frac : ℝ → ℝ → ℝ} {q : Quad} {deltaT : ℝ} {nmax : ℤ}

/-! ## C107 -/

theorem pairVals_congr (h : PairOK P) (h' : PairOK P') (hl : P'.lmax = P.lmax) (hp : P'.precision = P.precision) {ks : List ℝ} (hne : ks ≠ [])
    (hk : ∀ k ∈ ks, 0 < k) (he : ∀ m ≤ P.lmax, ∀ k ∈ ks, lnDetV P' m k = lnDetV P m k) : pairVals exactBes P' ks = pairVals exactBes P ks := by
  rw [pairVals_eq h hne hk, pairVals_eq h' hne hk, hl, hp]
  rw [mSummeNonzero_congr (L' := fun m => .ok fun i : Fin ks.length => lnDetV P m (ks.get i))]
  intro m hm
  congr 1
  funext i
  exact he m hm _ (List.get_mem ks i)

/-- **C107, `mSumme`.** With equal cut-offs for both spheres the values do not depend on which sphere is called the first. -/
theorem C107_mSumme (h : PairOK P) (hl : P.lmax = P.lssmax) {ks : List ℝ} (hne : ks ≠ []) (hk : ∀ k ∈ ks, 0 < k) :
    pairVals exactBes P.swap ks = pairVals exactBes P ks :=
  pairVals_congr h (h.swap hl) hl.symm rfl hne hk fun m hm k hkm => lnDetV_swap h hl (by have := h.hl; omega) (hk k hkm)

/-- **C107, `mSumme_k0`.** The same at zero frequency. -/
theorem C107_mSumme_k0 (h : PairOK P) (hl : P.lmax = P.lssmax) : pairK0 frac P.swap = pairK0 frac P := by
  obtain ⟨⟨σa, ea⟩, ⟨τa, ga⟩⟩ := sign_total h.m1.static h.m3.diel h.m3.phys
  obtain ⟨⟨σb, eb⟩, ⟨τb, gb⟩⟩ := sign_total h.m2.static h.m3.diel h.m3.phys
  obtain ⟨A, A', hA⟩ := ampK0_exists frac h.m1 h.m3 h.h1 ea ga
  obtain ⟨B, B', hB⟩ := ampK0_exists frac h.m2 h.m3 h.h2 eb gb
  rw [pairK0_kern h hA hB, pairK0_kern (h.swap hl) (A := B) (A' := B') (B := A) (B' := A') hB hA]
  simp only [PairIn.swap, k0V_swap, mul_comm σb, mul_comm τb]
  rw [hl]

theorem pairVal_congr (h : PairOK P) (h' : PairOK P') {k : ℝ} (hk : 0 < k) (he : pairVals exactBes P' [k] = pairVals exactBes P [k]) :
    pairVal P' k = pairVal P k := by
  rw [pairVal_ok h hk, pairVal_ok h' hk] at he
  injection he with he
  simpa using he

/-- Values of the free energy of a pair of spheres. -/
theorem free_values {p : FTParams} (h : PairOK P) {z : ℝ} (hz : pairK0 frac P = .ok z) (hg : p.geo = pairGeo exactBes frac P) (hp : p.nprocs.isZero)
    (ha : p.analyticN0 = true) (hT : 0 < p.deltaT) (hN : 0 ≤ p.nmax) :
    ∃ F : List ℝ, (freeEnergy p FT.fresh).1 = .ok F ∧ F.length = p.maxstep.toNat ∧ ∀ i, i < F.length →
      F[i]? = some ((i + 1 : ℕ) * p.deltaT * (0.5 * z + ∑ j ∈ Finset.range (p.nmax.toNat / (i + 1)),
        sliceVal (pairGeo exactBes frac P) p.deltaT p.nmax.toNat ((j + 1) * (i + 1)))) := by
  obtain ⟨N, hN⟩ := Int.eq_ofNat_of_zero_le hN
  obtain ⟨F, hF, hlen, hval⟩ := freeEnergy_slices p (z := z) (hg ▸ pairGeo_valsOk h) (by rw [hg]; exact hz) hp ha hT hN
  refine ⟨F, hF, hlen, fun i hi => ?_⟩
  have := hval (i + 1) (by omega) (by omega)
  rw [Nat.add_sub_cancel] at this
  rw [this, hg, hN]
  rfl

/-- **C107, `free_energy`.** -/
theorem C107_free_energy {p p' : FTParams} (h : PairOK P) (hl : P.lmax = P.lssmax) (hg : p.geo = pairGeo exactBes frac P)
    (hp' : p' = { p with geo := pairGeo exactBes frac P.swap }) (hp : p.nprocs.isZero) (ha : p.analyticN0 = true) (hT : 0 < p.deltaT) (hN : 0 ≤ p.nmax) :
    ∃ F : List ℝ, (freeEnergy p FT.fresh).1 = .ok F ∧ (freeEnergy p' FT.fresh).1 = .ok F := by
  obtain ⟨z, hz, -⟩ := C100_mSumme_k0 h frac
  obtain ⟨F, hF, hlen, hval⟩ := free_values h hz hg hp ha hT hN
  subst hp'
  obtain ⟨F', hF', hlen', hval'⟩ := free_values (p := { p with geo := pairGeo exactBes frac P.swap }) (h.swap hl) ((C107_mSumme_k0 h hl).trans hz) rfl hp ha hT hN
  refine ⟨F, hF, ?_⟩
  rw [hF']
  congr 1
  refine List.ext_getElem? fun i => ?_
  by_cases hi : i < F.length
  · rw [hval i hi, hval' i (by rw [hlen', ← hlen]; exact hi)]
    congr 3
    refine Finset.sum_congr rfl fun j hj => ?_
    have hn : 1 ≤ (j + 1) * (i + 1) := Nat.one_le_iff_ne_zero.mpr (by positivity)
    obtain ⟨k1, k2, -⟩ := sliceKs_mem hT hn ((Nat.mul_le_mul_right _ (Finset.mem_range.mp hj)).trans (Nat.div_mul_le_self _ _))
    unfold sliceVal pairGeo
    simp only
    rw [C107_mSumme h hl k1 k2]
  · have e : F'.length = F.length := hlen'.trans hlen.symm
    rw [List.getElem?_eq_none (by omega), List.getElem?_eq_none (by omega)]

/-- Values of the energy at zero temperature. -/
theorem e0_value (h : PairOK P) (hq : q.Exact) {a : ℝ} (ha : 0 ≤ a) {b : Upper} (hb : ∀ x, b = .num x → a ≤ x) (hb' : b = .none → a ≤ nmax * deltaT) :
    e0 q (pairAt exactBes frac P) deltaT nmax a b = .ok (∫ k in (match b with | .num x => Ioo a x | .inf => Ioi a | .none => Ioo a (nmax * deltaT)), pairVal P k) := by
  have hi := pairVal_integrable h
  have hfin : ∀ b, a ≤ b → q.fin (pairAt exactBes frac P) a b = .ok (∫ k in Ioo a b, pairVal P k) := fun b hab =>
    hq.fin _ _ a b hab (fun k hk _ => pairAt_ok h (ha.trans_lt hk)) (hi.mono_set fun k hk => ha.trans_lt hk.1)
  cases b with
  | num b => exact hfin b (hb b rfl)
  | inf => exact hq.inf _ _ a (fun k hk => pairAt_ok h (ha.trans_lt hk)) (hi.mono_set (Ioi_subset_Ioi ha))
  | none => exact hfin _ (hb' rfl)

theorem e0_set {a : ℝ} (ha : 0 ≤ a) (b : Upper) :
    (match b with | .num x => Ioo a x | .inf => Ioi a | .none => Ioo a (nmax * deltaT)) ⊆ Ioi (0 : ℝ) ∧
    MeasurableSet (match b with | .num x => Ioo a x | .inf => Ioi a | .none => Ioo a (nmax * deltaT)) := by
  cases b with
  | num b => exact ⟨fun k hk => ha.trans_lt hk.1, measurableSet_Ioo⟩
  | inf => exact ⟨fun k hk => ha.trans_lt hk, measurableSet_Ioi⟩
  | none => exact ⟨fun k hk => ha.trans_lt hk.1, measurableSet_Ioo⟩

/-- **C107, `e0`.** -/
theorem C107_zero_temperature (h : PairOK P) (hl : P.lmax = P.lssmax) (hq : q.Exact) {a : ℝ} (ha : 0 ≤ a) {b : Upper} (hb : ∀ x, b = .num x → a ≤ x)
    (hb' : b = .none → a ≤ nmax * deltaT) :
    e0 q (pairAt exactBes frac P.swap) deltaT nmax a b = e0 q (pairAt exactBes frac P) deltaT nmax a b := by
  rw [e0_value h hq ha hb hb', e0_value (h.swap hl) hq ha hb hb']
  obtain ⟨s1, s2⟩ := e0_set (nmax := nmax) (deltaT := deltaT) ha b
  congr 1
  refine setIntegral_congr_fun s2 fun k hk => ?_
  exact pairVal_congr h (h.swap hl) (s1 hk) (C107_mSumme h hl (by simp) (by simpa using s1 hk))

/-! ## C108 -/

theorem pairSum_far (h : PairOK P) {L : ℝ} (hL : P.L ≤ L) (hc : EqualContrast P.mat1 P.mat2 P.mat3) {k : ℝ} (hk : 0 < k) :
    Real.exp (-(2 * k * (L - P.L))) * pairSum P k ≤ pairSum (P.at L) k := by
  obtain ⟨σ, ea, eb⟩ := hc.finite k hk
  have hm : ∀ m ≤ P.lmax, max 1 m ≤ P.lmax := fun m hm => by have := h.hl; omega
  have key := fun m hm' => lnDetV_far h hL (hm m hm') hk ea eb
  unfold pairSum
  have h0 := key 0 (by omega)
  have hs : Real.exp (-(2 * k * (L - P.L))) * ∑ m ∈ Finset.Icc 1 P.lmax, lnDetV P m k ≤ ∑ m ∈ Finset.Icc 1 P.lmax, lnDetV (P.at L) m k := by
    rw [Finset.mul_sum]
    refine Finset.sum_le_sum fun m hm' => ?_
    have := key m (Finset.mem_Icc.mp hm').2
    linarith
  have e : (P.at L).lmax = P.lmax := rfl
  rw [e]
  linarith

theorem pairSum_nonpos (h : PairOK P) (hc : EqualContrast P.mat1 P.mat2 P.mat3) {k : ℝ} (hk : 0 < k) :
    pairSum P k ≤ 0 ∧ (HasContrast P.mat1 P.mat3 k → HasContrast P.mat2 P.mat3 k → pairSum P k < 0) := by
  obtain ⟨σ, ea, eb⟩ := hc.finite k hk
  have hm : ∀ m ≤ P.lmax, max 1 m ≤ P.lmax := fun m hm => by have := h.hl; omega
  have key := fun m hm' => ((lnDetV_val h (hm m hm') hk).2 σ σ ea eb).1 rfl
  have h0 := key 0 (by omega)
  have hs := Finset.sum_nonpos fun m (hm' : m ∈ Finset.Icc 1 P.lmax) => key m (Finset.mem_Icc.mp hm').2
  unfold pairSum
  refine ⟨by linarith, fun c1 c2 => ?_⟩
  have := (lnDetV_strict h (hm 0 (by omega)) hk c1 c2 ea eb).1 rfl
  linarith

/-- **C108, `mSumme`.** Two spheres with equal contrast, complete sums over `m`: when the distance grows from `L` to `L'` every value
decreases in size by the factor `exp(-2 k (L' - L))` at least. -/
theorem C108_mSumme (h : PairOK P) (hprec : P.precision ≤ 0) {L : ℝ} (hL : P.L ≤ L) (hc : EqualContrast P.mat1 P.mat2 P.mat3) {ks : List ℝ}
    (hne : ks ≠ []) (hk : ∀ k ∈ ks, 0 < k) :
    ∃ vs ws, pairVals exactBes P ks = .ok vs ∧ pairVals exactBes (P.at L) ks = .ok ws ∧ vs.length = ks.length ∧ ws.length = ks.length ∧
      ∀ (j : ℕ) (k x y : ℝ), ks[j]? = some k → vs[j]? = some x → ws[j]? = some y →
        |y| ≤ Real.exp (-(2 * k * (L - P.L))) * |x| ∧ x ≤ y ∧ y ≤ 0 ∧
        (P.L < L → HasContrast P.mat1 P.mat3 k → HasContrast P.mat2 P.mat3 k → x < y) := by
  refine ⟨_, _, pairVals_sum h hprec hne hk, pairVals_sum (h.at hL) hprec hne hk, by simp, by simp, fun j k x y hj hx hy => ?_⟩
  rw [List.getElem?_map, hj] at hx hy
  injection hx with hx
  injection hy with hy
  have hk0 : 0 < k := hk k (List.mem_of_getElem? hj)
  have h1 := pairSum_far h hL hc hk0
  have h2 := (pairSum_nonpos h hc hk0).1
  have h3 := (pairSum_nonpos (h.at hL) hc hk0).1
  rw [hx] at h1 h2
  rw [hy] at h1 h3
  have he : Real.exp (-(2 * k * (L - P.L))) ≤ 1 := by
    rw [Real.exp_le_one_iff]
    have := mul_nonneg hk0.le (sub_nonneg.mpr hL)
    linarith
  refine ⟨by rw [abs_of_nonpos h2, abs_of_nonpos h3]; linarith, by nlinarith, h3, fun hlt c1 c2 => ?_⟩
  have h4 := (pairSum_nonpos h hc hk0).2 c1 c2
  rw [hx] at h4
  have he' : Real.exp (-(2 * k * (L - P.L))) < 1 := by
    rw [Real.exp_lt_one_iff]
    have := mul_pos hk0 (sub_pos.mpr hlt)
    linarith
  nlinarith

/-- **C108, `mSumme_k0`.** The contribution at zero frequency decreases in size like the sixth power of the distance at least. -/
theorem C108_mSumme_k0 (h : PairOK P) (hprec : P.precision ≤ 0) {L : ℝ} (hL : P.L ≤ L) (hc : EqualContrast P.mat1 P.mat2 P.mat3) :
    ∃ z z', pairK0 frac P = .ok z ∧ pairK0 frac (P.at L) = .ok z' ∧ |z'| ≤ (P.L / L) ^ 6 * |z| ∧ z ≤ z' ∧ z' ≤ 0 := by
  obtain ⟨σ, ea, eb⟩ := hc.electric
  obtain ⟨τ, ga, gb⟩ := hc.magnetic
  obtain ⟨A, A', hA⟩ := ampK0_exists frac h.m1 h.m3 h.h1 ea ga
  obtain ⟨B, B', hB⟩ := ampK0_exists frac h.m2 h.m3 h.h2 eb gb
  have sq : ∀ {s : ℝ}, s = 1 ∨ s = -1 → s * s = 1 := by rintro s (rfl | rfl) <;> norm_num
  have e1 := pairK0_kern h hA hB
  have e2 := pairK0_kern (h.at hL) hA hB
  rw [sq ea.sign, sq ga.sign, mSummeK0_full hprec, ok_bind] at e1
  rw [sq ea.sign, sq ga.sign, mSummeK0_full (by exact hprec), ok_bind] at e2
  have hL0 : 0 < P.L := by linarith [h.sep, h.h1, h.h2]
  have hL' : 0 < L := hL0.trans_le hL
  have key : ∀ m, _ := fun m => k0V_far (m := m) h.h1 h.h2 h.sep hL P.lmax P.lssmax hA.1 hA.2.1 hB.1 hB.2.1
  have key' : ∀ m, _ := fun m => (k0V_far (m := m) h.h1 h.h2 (h.sep.trans_le hL) le_rfl P.lmax P.lssmax hA.1 hA.2.1 hB.1 hB.2.1).1
  have q1 : (P.L / L) ^ 6 ≤ 1 := pow_le_one₀ (by positivity) ((div_le_one hL').mpr hL)
  refine ⟨_, _, e1, e2, ?_⟩
  simp only [PairIn.at]
  have s1 := Finset.sum_nonpos fun m (_ : m ∈ Finset.Icc 1 P.lmax) => (key m).1
  have s2 := Finset.sum_nonpos fun m (_ : m ∈ Finset.Icc 1 P.lmax) => key' m
  have s3 : (P.L / L) ^ 6 * ∑ m ∈ Finset.Icc 1 P.lmax, k0V m P.r1 P.r2 P.L P.lmax P.lssmax 1 1 A A' B B' ≤
      ∑ m ∈ Finset.Icc 1 P.lmax, k0V m P.r1 P.r2 L P.lmax P.lssmax 1 1 A A' B B' := by
    rw [Finset.mul_sum]
    exact Finset.sum_le_sum fun m _ => by linarith [(key m).2]
  have t1 := (key 0).1
  have t2 := key' 0
  have t3 := (key 0).2
  generalize k0V 0 P.r1 P.r2 P.L P.lmax P.lssmax 1 1 A A' B B' = a at *
  generalize k0V 0 P.r1 P.r2 L P.lmax P.lssmax 1 1 A A' B B' = b at *
  generalize ∑ m ∈ Finset.Icc 1 P.lmax, k0V m P.r1 P.r2 P.L P.lmax P.lssmax 1 1 A A' B B' = c at *
  generalize ∑ m ∈ Finset.Icc 1 P.lmax, k0V m P.r1 P.r2 L P.lmax P.lssmax 1 1 A A' B B' = d at *
  have q2 : (P.L / L) ^ 6 * (a + 2 * c) ≤ b + 2 * d := by linarith
  refine ⟨by rw [abs_of_nonpos (by linarith), abs_of_nonpos (by linarith)]; linarith, ?_, by linarith⟩
  nlinarith

/-- Comparison of the free energies of two pairs of spheres from the comparison of the contributions of the wavenumbers. -/
theorem free_compare {p p' : FTParams} (h : PairOK P) (h' : PairOK P') (hprec : P.precision ≤ 0) (hprec' : P'.precision ≤ 0) {z z' : ℝ}
    (hz : pairK0 frac P = .ok z) (hz' : pairK0 frac P' = .ok z') (hg : p.geo = pairGeo exactBes frac P)
    (hp' : p' = { p with geo := pairGeo exactBes frac P' }) (hp : p.nprocs.isZero) (ha : p.analyticN0 = true) (hT : 0 < p.deltaT) (hN : 0 ≤ p.nmax) :
    ∃ F F' : List ℝ, (freeEnergy p FT.fresh).1 = .ok F ∧ (freeEnergy p' FT.fresh).1 = .ok F' ∧ F.length = p.maxstep.toNat ∧ F'.length = p.maxstep.toNat ∧
      ∀ (i : ℕ) (x y : ℝ), F[i]? = some x → F'[i]? = some y →
        (∀ c, c * z ≤ z' → (∀ k, (i + 1) * p.deltaT ≤ k → c * pairSum P k ≤ pairSum P' k) → c * x ≤ y) ∧
        (z ≤ z' → (∀ k, 0 < k → pairSum P k ≤ pairSum P' k) → (i : ℤ) + 1 ≤ p.nmax → pairSum P ((i + 1) * p.deltaT) < pairSum P' ((i + 1) * p.deltaT) → x < y) := by
  obtain ⟨F, hF, hlen, hval⟩ := free_values h hz hg hp ha hT hN
  subst hp'
  obtain ⟨F', hF', hlen', hval'⟩ := free_values (p := { p with geo := pairGeo exactBes frac P' }) h' hz' rfl hp ha hT hN
  refine ⟨F, F', hF, hF', hlen, hlen', fun i x y hx hy => ?_⟩
  have hi : i < F.length := by
    by_contra hh
    rw [List.getElem?_eq_none (by omega)] at hx
    simp at hx
  have e1 := hval i hi
  have e2 := hval' i (by rw [hlen', ← hlen]; exact hi)
  rw [hx] at e1
  rw [hy] at e2
  injection e1 with e1
  injection e2 with e2
  simp only at e2
  have hs : ∀ {Q : PairIn}, PairOK Q → Q.precision ≤ 0 → ∑ j ∈ Finset.range (p.nmax.toNat / (i + 1)),
      sliceVal (pairGeo exactBes frac Q) p.deltaT p.nmax.toNat ((j + 1) * (i + 1)) =
      ∑ j ∈ Finset.range (p.nmax.toNat / (i + 1)), pairSum Q (p.deltaT * ((j + 1) * (i + 1) : ℕ)) := by
    intro Q hQ hQp
    refine Finset.sum_congr rfl fun j hj => ?_
    exact sliceVal_sum hQ hQp hT (Nat.one_le_iff_ne_zero.mpr (by positivity))
      ((Nat.mul_le_mul_right _ (Finset.mem_range.mp hj)).trans (Nat.div_mul_le_self _ _))
  rw [hs h hprec] at e1
  rw [hs h' hprec'] at e2
  have hpos : (0 : ℝ) < (i + 1 : ℕ) * p.deltaT := by positivity
  rw [e1, e2]
  refine ⟨fun c hcz hck => ?_, fun hzz hkk hNi hst => mul_lt_mul_of_pos_left ?_ hpos⟩
  · rw [mul_left_comm, mul_add, Finset.mul_sum]
    refine mul_le_mul_of_nonneg_left ?_ hpos.le
    have := Finset.sum_le_sum fun j (_ : j ∈ Finset.range (p.nmax.toNat / (i + 1))) => hck (p.deltaT * ((j + 1) * (i + 1) : ℕ)) (by
      push_cast
      have : (0 : ℝ) ≤ j * ((i + 1) * p.deltaT) := by positivity
      linarith)
    linarith
  · have hNi' : 0 < p.nmax.toNat / (i + 1) := Nat.div_pos (by omega) (by omega)
    have := Finset.sum_lt_sum (fun j (_ : j ∈ Finset.range (p.nmax.toNat / (i + 1))) => hkk (p.deltaT * ((j + 1) * (i + 1) : ℕ)) (by positivity))
      ⟨0, Finset.mem_range.mpr hNi', by
        have e : p.deltaT * (((0 + 1) * (i + 1) : ℕ) : ℝ) = (i + 1) * p.deltaT := by push_cast; ring
        rw [e]; exact hst⟩
    linarith

/-- **C108, `free_energy`.** Two spheres with equal contrast, complete sums over `m`: at every temperature the free energy
increases with the distance, and approaches zero at least like the larger one of `(L/L')⁶` and `exp(-2 T (L' - L))`. -/
theorem C108_free_energy {p p' : FTParams} (h : PairOK P) (hprec : P.precision ≤ 0) {L : ℝ} (hL : P.L ≤ L)
    (hc : EqualContrast P.mat1 P.mat2 P.mat3) (hg : p.geo = pairGeo exactBes frac P) (hp' : p' = { p with geo := pairGeo exactBes frac (P.at L) })
    (hp : p.nprocs.isZero) (ha : p.analyticN0 = true) (hT : 0 < p.deltaT) (hN : 0 ≤ p.nmax) :
    ∃ F F' : List ℝ, (freeEnergy p FT.fresh).1 = .ok F ∧ (freeEnergy p' FT.fresh).1 = .ok F' ∧ F.length = p.maxstep.toNat ∧ F'.length = p.maxstep.toNat ∧
      ∀ (i : ℕ) (x y : ℝ), F[i]? = some x → F'[i]? = some y →
        x ≤ y ∧ y ≤ 0 ∧ |y| ≤ max ((P.L / L) ^ 6) (Real.exp (-(2 * ((i + 1) * p.deltaT) * (L - P.L)))) * |x| ∧
        (P.L < L → (i : ℤ) + 1 ≤ p.nmax → HasContrast P.mat1 P.mat3 ((i + 1) * p.deltaT) → HasContrast P.mat2 P.mat3 ((i + 1) * p.deltaT) → x < y) := by
  obtain ⟨z, z', hz, hz', hz1, hz2, hz3⟩ := C108_mSumme_k0 (frac := frac) h hprec hL hc
  obtain ⟨F, F', hF, hF', hl, hl', hcmp⟩ := free_compare h (h.at hL) hprec hprec hz hz' hg hp' hp ha hT hN
  refine ⟨F, F', hF, hF', hl, hl', fun i x y hx hy => ?_⟩
  obtain ⟨q1, q2⟩ := hcmp i x y hx hy
  have hz0 : z ≤ 0 := hz2.trans hz3
  have hi0 : (0 : ℝ) < (i + 1) * p.deltaT := by positivity
  have hn := fun k (hk : 0 < k) => (pairSum_nonpos h hc hk).1
  have hexp : ∀ k, 0 < k → Real.exp (-(2 * k * (L - P.L))) ≤ 1 := fun k hk => by
    rw [Real.exp_le_one_iff]
    have := mul_nonneg hk.le (sub_nonneg.mpr hL)
    linarith
  have hle : ∀ k, 0 < k → pairSum P k ≤ pairSum (P.at L) k := fun k hk => by
    have := pairSum_far h hL hc hk
    have := hn k hk
    have := hexp k hk
    nlinarith
  have hxy : x ≤ y := by simpa using q1 1 (by simpa using hz2) fun k hk => by simpa using hle k (hi0.trans_le hk)
  obtain ⟨G, hG, -, hG2⟩ := C100_free_energy (p := p') (h.at hL) (by rw [hp']) (by rw [hp']; exact hp) (by rw [hp']; exact ha) (by rw [hp']; exact hT) (by rw [hp']; exact hN)
  rw [hF'] at hG
  injection hG with hG
  subst hG
  have hy0 : y ≤ 0 := (hG2 i y hy).2.1 hc
  refine ⟨hxy, hy0, ?_, fun hlt hNi c1 c2 => ?_⟩
  · rw [abs_of_nonpos hy0, abs_of_nonpos (hxy.trans hy0)]
    rw [abs_of_nonpos hz3, abs_of_nonpos hz0] at hz1
    have := q1 (max ((P.L / L) ^ 6) (Real.exp (-(2 * ((i + 1) * p.deltaT) * (L - P.L))))) ?_ ?_
    · linarith
    · have := mul_le_mul_of_nonneg_right (le_max_left ((P.L / L) ^ 6) (Real.exp (-(2 * ((i + 1) * p.deltaT) * (L - P.L))))) (neg_nonneg.mpr hz0)
      linarith
    · intro k hk
      have hk0 := hi0.trans_le hk
      have h1 := pairSum_far h hL hc hk0
      have h2 : Real.exp (-(2 * k * (L - P.L))) ≤ max ((P.L / L) ^ 6) (Real.exp (-(2 * ((i + 1) * p.deltaT) * (L - P.L)))) := by
        refine le_trans (Real.exp_le_exp.mpr ?_) (le_max_right _ _)
        have := mul_le_mul_of_nonneg_right hk (sub_nonneg.mpr hL)
        linarith
      have := mul_le_mul_of_nonneg_right h2 (neg_nonneg.mpr (hn k hk0))
      linarith
  · refine q2 hz2 hle hNi ?_
    have h1 := pairSum_far h hL hc hi0
    have h2 := (pairSum_nonpos h hc hi0).2 c1 c2
    have h3 : Real.exp (-(2 * ((i + 1) * p.deltaT) * (L - P.L))) < 1 := by
      rw [Real.exp_lt_one_iff]
      have := mul_pos hi0 (sub_pos.mpr hlt)
      linarith
    nlinarith

theorem e0_compare (h : PairOK P) (h' : PairOK P') (hprec : P.precision ≤ 0) (hprec' : P'.precision ≤ 0) (hle : ∀ k, 0 < k → pairSum P k ≤ pairSum P' k)
    {s : Set ℝ} (hs : s ⊆ Ioi 0) (hm : MeasurableSet s) :
    ∫ k in s, pairVal P k ≤ ∫ k in s, pairVal P' k ∧
    ((∀ k, 0 < k → pairSum P k < pairSum P' k) → 0 < volume s → ∫ k in s, pairVal P k < ∫ k in s, pairVal P' k) := by
  have i1 := (pairVal_integrable h).mono_set hs
  have i2 := (pairVal_integrable h').mono_set hs
  refine ⟨setIntegral_mono_on i1 i2 hm fun k hk => ?_, fun hst hv => ?_⟩
  · rw [pairVal_sum h hprec (hs hk), pairVal_sum h' hprec' (hs hk)]
    exact hle k (hs hk)
  · have hpos : ∀ k ∈ s, 0 < pairVal P' k - pairVal P k := fun k hk => by
      rw [pairVal_sum h hprec (hs hk), pairVal_sum h' hprec' (hs hk)]
      linarith [hst k (hs hk)]
    have := (setIntegral_pos_iff_support_of_nonneg_ae (f := fun k => pairVal P' k - pairVal P k)
      ((ae_restrict_iff' hm).mpr (.of_forall fun k hk => (hpos k hk).le)) (i2.sub i1)).mpr
      (hv.trans_le (measure_mono fun k hk => ⟨(hpos k hk).ne', hk⟩))
    rw [integral_sub i2 i1] at this
    linarith

/-- **C108, `e0`.** The energy at zero temperature increases with the distance; strictly, if both spheres differ from the medium at all
wavenumbers and the interval of integration is not empty. -/
theorem C108_zero_temperature (h : PairOK P) (hprec : P.precision ≤ 0) {L : ℝ} (hL : P.L ≤ L) (hc : EqualContrast P.mat1 P.mat2 P.mat3)
    (hq : q.Exact) {a : ℝ} (ha : 0 ≤ a) {b : Upper} (hb : ∀ x, b = .num x → a ≤ x) (hb' : b = .none → a ≤ nmax * deltaT) :
    ∃ E E', e0 q (pairAt exactBes frac P) deltaT nmax a b = .ok E ∧ e0 q (pairAt exactBes frac (P.at L)) deltaT nmax a b = .ok E' ∧
      E ≤ E' ∧ E' ≤ 0 ∧
      (P.L < L → (∀ k, 0 < k → HasContrast P.mat1 P.mat3 k ∧ HasContrast P.mat2 P.mat3 k) → (∀ x, b = .num x → a < x) →
        (b = .none → a < nmax * deltaT) → E < E') := by
  obtain ⟨s1, s2⟩ := e0_set (nmax := nmax) (deltaT := deltaT) ha b
  have hle : ∀ k, 0 < k → pairSum P k ≤ pairSum (P.at L) k := fun k hk => by
    have h1 := pairSum_far h hL hc hk
    have h2 := (pairSum_nonpos h hc hk).1
    have h3 : Real.exp (-(2 * k * (L - P.L))) ≤ 1 := by
      rw [Real.exp_le_one_iff]
      have := mul_nonneg hk.le (sub_nonneg.mpr hL)
      linarith
    nlinarith
  obtain ⟨c1, c2⟩ := e0_compare h (h.at hL) hprec hprec hle s1 s2
  refine ⟨_, _, e0_value h hq ha hb hb', e0_value (h.at hL) hq ha hb hb', c1, ?_, fun hlt hcon hb1 hb2 => c2 (fun k hk => ?_) ?_⟩
  · refine setIntegral_nonpos s2 fun k hk => ?_
    rw [pairVal_sum (h.at hL) hprec (s1 hk)]
    exact (pairSum_nonpos (h.at hL) hc (s1 hk)).1
  · have h1 := pairSum_far h hL hc hk
    have h2 := (pairSum_nonpos h hc hk).2 (hcon k hk).1 (hcon k hk).2
    have h3 : Real.exp (-(2 * k * (L - P.L))) < 1 := by
      rw [Real.exp_lt_one_iff]
      have := mul_pos hk (sub_pos.mpr hlt)
      linarith
    nlinarith
  · have hvol : ∀ b, a < b → 0 < volume (Ioo a b) := fun b hab => by rw [Real.volume_Ioo]; exact ENNReal.ofReal_pos.mpr (by linarith)
    cases b with
    | num b => exact hvol _ (hb1 b rfl)
    | inf => simp only; rw [Real.volume_Ioi]; exact ENNReal.zero_lt_top
    | none => exact hvol _ (hb2 rfl)

/-! ## Examples -/

/-- A pair of gold spheres in vacuum with equal cut-offs and complete sums over `m`. -/
noncomputable def goldPair : PairIn := ⟨⟨.lorentz, eGold, none⟩, ⟨.lorentz, eGold, none⟩, ⟨.lorentz, [], none⟩, 1, 4, 6, 20, 20, 0⟩

theorem goldPair_ok : PairOK goldPair :=
  ⟨gold_sphere, gold_sphere, ⟨vac_diel.1, vac_diel.2, rfl⟩, by norm_num [goldPair], by norm_num [goldPair], by norm_num [goldPair], by norm_num [goldPair],
    by norm_num [goldPair]⟩

example : pairVals exactBes goldPair.swap [1/2, 1] = pairVals exactBes goldPair [1/2, 1] ∧ goldPair.swap.r1 = 4 :=
  ⟨C107_mSumme goldPair_ok rfl (by simp) (by norm_num), rfl⟩

example : ∃ F : List ℝ, (freeEnergy ⟨0.01, 500, 200, true, .int 0, pairGeo exactBes (fun _ _ => 0) goldPair⟩ FT.fresh).1 = .ok F ∧
    (freeEnergy ⟨0.01, 500, 200, true, .int 0, pairGeo exactBes (fun _ _ => 0) goldPair.swap⟩ FT.fresh).1 = .ok F :=
  C107_free_energy goldPair_ok rfl rfl rfl rfl rfl (by norm_num) (by norm_num)

/-- The gold spheres attract each other less at distance 7 than at distance 6, at each of 200 temperatures. -/
example : ∃ F F' : List ℝ, (freeEnergy ⟨0.01, 500, 200, true, .int 0, pairGeo exactBes (fun _ _ => 0) goldPair⟩ FT.fresh).1 = .ok F ∧
    (freeEnergy ⟨0.01, 500, 200, true, .int 0, pairGeo exactBes (fun _ _ => 0) (goldPair.at 7)⟩ FT.fresh).1 = .ok F' ∧ F.length = 200 ∧ F'.length = 200 ∧
    ∀ (i : ℕ) (x y : ℝ), F[i]? = some x → F'[i]? = some y → x < y ∧ y ≤ 0 := by
  obtain ⟨F, F', h1, h2, h3, h4, h5⟩ := C108_free_energy (p := ⟨0.01, 500, 200, true, .int 0, pairGeo exactBes (fun _ _ => 0) goldPair⟩) goldPair_ok le_rfl
    (L := 7) (by norm_num [goldPair]) (equalContrast_same goldPair_ok.m1 goldPair_ok.m3) rfl rfl rfl rfl (by norm_num) (by norm_num)
  refine ⟨F, F', h1, h2, h3, h4, fun i x y hx hy => ?_⟩
  obtain ⟨-, a, -, b⟩ := h5 i x y hx hy
  have hi : i < 200 := by
    by_contra hh
    rw [List.getElem?_eq_none (by rw [h3]; simpa using hh)] at hx
    simp at hx
  have hk : (0 : ℝ) < (i + 1) * 0.01 := by positivity
  exact ⟨b (by norm_num [goldPair]) (by simp only; omega) (gold_contrast hk) (gold_contrast hk), a⟩

example : ∃ E E' : ℝ, e0 exactQuad (pairAt exactBes (fun _ _ => 0) goldPair) 0 0 0 .inf = .ok E ∧
    e0 exactQuad (pairAt exactBes (fun _ _ => 0) (goldPair.at 7)) 0 0 0 .inf = .ok E' ∧ E < E' := by
  obtain ⟨E, E', h1, h2, -, -, h3⟩ := C108_zero_temperature (frac := fun _ _ => 0) (deltaT := 0) (nmax := 0) goldPair_ok le_rfl (L := 7) (by norm_num [goldPair])
    (equalContrast_same goldPair_ok.m1 goldPair_ok.m3) exactQuad_exact le_rfl (b := .inf) (by simp) (by simp)
  exact ⟨E, E', h1, h2, h3 (by norm_num [goldPair]) (fun k hk => ⟨gold_contrast hk, gold_contrast hk⟩) (by simp) (by simp)⟩

end CasSph
