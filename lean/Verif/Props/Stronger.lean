import Verif.Lemmas.StrongerK0
import Verif.Props.CutOff

/-! # C113: the interaction becomes stronger with the contrast of the materials and with the radii of the spheres -/

namespace CasSph

open Spec Filter Topology MeasureTheory Set
open scoped Classical

variable {P P' : PairIn} {frac : ℝ → ℝ → ℝ} {q : Quad} {deltaT : ℝ} {nmax : ℤ}

theorem sign_sq {s : ℝ} (h : s = 1 ∨ s = -1) : s * s = 1 ∧ s * -s = -1 := by rcases h with rfl | rfl <;> norm_num

theorem pairSum_stronger_contrast (h : PairOK P) (h' : PairOK P') (hs : Stronger P P') {k : ℝ} (hk : 0 < k) :
    (EqualContrast P'.mat1 P'.mat2 P'.mat3 → |pairSum P k| ≤ -pairSum P' k) ∧
    (OppositeContrast P.mat1 P.mat2 P.mat3 → OppositeContrast P'.mat1 P'.mat2 P'.mat3 → 0 ≤ pairSum P k ∧ pairSum P k ≤ pairSum P' k) := by
  refine ⟨fun hc' => ?_, fun hc hc' => ⟨(pairSum_sign h hk).2 hc, ?_⟩⟩
  · obtain ⟨σa, ea⟩ := dense_total h.m1 h.m3 hk
    obtain ⟨σb, eb⟩ := dense_total h.m2 h.m3 hk
    obtain ⟨σ, e1, e2⟩ := hc'.finite k hk
    exact (pairSum_stronger h h' hs hk ea eb e1 e2).2.2 (sign_sq e1.sign).1
  · obtain ⟨σ, e1, e2⟩ := hc.finite k hk
    obtain ⟨σ', e1', e2'⟩ := hc'.finite k hk
    exact (pairSum_stronger h h' hs hk e1 e2 e1' e2').2.1 (sign_sq e1.sign).2 (sign_sq e1'.sign).2

/-- **C113, `mSumme`.** `P'` is the pair `P` with larger spheres or materials of more contrast.  If the spheres of `P'` have equal contrast then `P'`
attracts at least as strongly as `P` attracts or repels, whatever the contrast of `P`; if both pairs have opposite contrast then `P'` repels at least as strongly. -/
theorem C113_mSumme (h : PairOK P) (h' : PairOK P') (hs : Stronger P P') (hprec : P.precision ≤ 0) (hprec' : P'.precision ≤ 0) {ks : List ℝ}
    (hne : ks ≠ []) (hk : ∀ k ∈ ks, 0 < k) :
    ∃ vs ws, pairVals exactBes P ks = .ok vs ∧ pairVals exactBes P' ks = .ok ws ∧ vs.length = ks.length ∧ ws.length = ks.length ∧
      ∀ (j : ℕ) (x y : ℝ), vs[j]? = some x → ws[j]? = some y →
        (EqualContrast P'.mat1 P'.mat2 P'.mat3 → |x| ≤ -y) ∧
        (OppositeContrast P.mat1 P.mat2 P.mat3 → OppositeContrast P'.mat1 P'.mat2 P'.mat3 → 0 ≤ x ∧ x ≤ y) := by
  refine ⟨_, _, pairVals_sum h hprec hne hk, pairVals_sum h' hprec' hne hk, by simp, by simp, fun j x y hx hy => ?_⟩
  rw [List.getElem?_map, Option.map_eq_some_iff] at hx hy
  obtain ⟨k, hj, rfl⟩ := hx
  obtain ⟨k', hj', rfl⟩ := hy
  rw [hj] at hj'
  injection hj' with e
  subst e
  exact pairSum_stronger_contrast h h' hs (hk k (List.mem_of_getElem? hj))

/-- **C113, `mSumme_k0`.** The same at zero frequency. -/
theorem C113_mSumme_k0 (h : PairOK P) (h' : PairOK P') (hs : Stronger P P') (hprec : P.precision ≤ 0) (hprec' : P'.precision ≤ 0) (frac : ℝ → ℝ → ℝ) :
    ∃ z z', pairK0 frac P = .ok z ∧ pairK0 frac P' = .ok z' ∧
      (EqualContrast P'.mat1 P'.mat2 P'.mat3 → |z| ≤ -z') ∧
      (OppositeContrast P.mat1 P.mat2 P.mat3 → OppositeContrast P'.mat1 P'.mat2 P'.mat3 → 0 ≤ z ∧ z ≤ z') := by
  obtain ⟨⟨σa, ea⟩, ⟨τa, ga⟩⟩ := sign_total h.m1.static h.m3.diel h.m3.phys
  obtain ⟨⟨σb, eb⟩, ⟨τb, gb⟩⟩ := sign_total h.m2.static h.m3.diel h.m3.phys
  obtain ⟨⟨σa', ea'⟩, ⟨τa', ga'⟩⟩ := sign_total h'.m1.static h'.m3.diel h'.m3.phys
  obtain ⟨⟨σb', eb'⟩, ⟨τb', gb'⟩⟩ := sign_total h'.m2.static h'.m3.diel h'.m3.phys
  obtain ⟨z, z', hz, hz', -⟩ := pairK0_stronger h h' hs hprec hprec' frac ea eb ga gb ea' eb' ga' gb'
  have uniq : ∀ {x x' : ℝ}, pairK0 frac P = .ok x → pairK0 frac P' = .ok x' → x = z ∧ x' = z' := by
    intro x x' h1 h2
    rw [hz] at h1
    rw [hz'] at h2
    injection h1 with h1
    injection h2 with h2
    exact ⟨h1.symm, h2.symm⟩
  refine ⟨z, z', hz, hz', fun hc' => ?_, fun hc hc' => ?_⟩
  · obtain ⟨σ, e1, e2⟩ := hc'.electric
    obtain ⟨τ, g1, g2⟩ := hc'.magnetic
    obtain ⟨x, x', hx, hx', -, -, hb⟩ := pairK0_stronger h h' hs hprec hprec' frac ea eb ga gb e1 e2 g1 g2
    obtain ⟨rfl, rfl⟩ := uniq hx hx'
    exact hb (sign_sq e1.sign).1 (sign_sq g1.sign).1
  · obtain ⟨σ, e1, e2⟩ := hc'.electric
    obtain ⟨τ, g1, g2⟩ := hc'.magnetic
    obtain ⟨ς, f1, f2⟩ := hc.electric
    obtain ⟨υ, k1, k2⟩ := hc.magnetic
    obtain ⟨x, x', hx, hx', -, hb, -⟩ := pairK0_stronger h h' hs hprec hprec' frac f1 f2 k1 k2 e1 e2 g1 g2
    obtain ⟨rfl, rfl⟩ := uniq hx hx'
    obtain ⟨z₀, hz₀, -, -, s2⟩ := C100_mSumme_k0 h frac
    rw [hz] at hz₀
    injection hz₀ with hz₀
    rw [← hz₀] at s2
    exact ⟨s2 hc, hb (sign_sq f1.sign).2 (sign_sq k1.sign).2 (sign_sq e1.sign).2 (sign_sq g1.sign).2⟩

/-- Values of `free_energy` for complete sums over `m`. -/
theorem free_sum {p : FTParams} (h : PairOK P) (hprec : P.precision ≤ 0) {z : ℝ} (hz : pairK0 frac P = .ok z) (hg : p.geo = pairGeo exactBes frac P)
    (hp : p.nprocs.isZero) (ha : p.analyticN0 = true) (hT : 0 < p.deltaT) (hN : 0 ≤ p.nmax) :
    ∃ F : List ℝ, (freeEnergy p FT.fresh).1 = .ok F ∧ F.length = p.maxstep.toNat ∧ ∀ (i : ℕ) (x : ℝ), F[i]? = some x →
      x = (i + 1 : ℕ) * p.deltaT * (0.5 * z + ∑ j ∈ Finset.range (p.nmax.toNat / (i + 1)), pairSum P (p.deltaT * ((j + 1) * (i + 1) : ℕ))) := by
  obtain ⟨F, hF, hlen, hval⟩ := free_values h hz hg hp ha hT hN
  refine ⟨F, hF, hlen, fun i x hx => ?_⟩
  have hi : i < F.length := by
    by_contra hh
    rw [List.getElem?_eq_none (by omega)] at hx
    simp at hx
  have e := hval i hi
  rw [hx] at e
  injection e with e
  rw [e]
  congr 2
  refine Finset.sum_congr rfl fun j hj => ?_
  exact sliceVal_sum h hprec hT (Nat.one_le_iff_ne_zero.mpr (by positivity))
    ((Nat.mul_le_mul_right _ (Finset.mem_range.mp hj)).trans (Nat.div_mul_le_self _ _))

/-- **C113, `free_energy`.** -/
theorem C113_free_energy {p p' : FTParams} (h : PairOK P) (h' : PairOK P') (hs : Stronger P P') (hprec : P.precision ≤ 0) (hprec' : P'.precision ≤ 0)
    (hg : p.geo = pairGeo exactBes frac P) (hp' : p' = { p with geo := pairGeo exactBes frac P' }) (hp : p.nprocs.isZero)
    (han : p.analyticN0 = true) (hT : 0 < p.deltaT) (hN : 0 ≤ p.nmax) :
    ∃ F F' : List ℝ, (freeEnergy p FT.fresh).1 = .ok F ∧ (freeEnergy p' FT.fresh).1 = .ok F' ∧ F.length = p.maxstep.toNat ∧ F'.length = p.maxstep.toNat ∧
      ∀ (i : ℕ) (x y : ℝ), F[i]? = some x → F'[i]? = some y →
        (EqualContrast P'.mat1 P'.mat2 P'.mat3 → |x| ≤ -y) ∧
        (OppositeContrast P.mat1 P.mat2 P.mat3 → OppositeContrast P'.mat1 P'.mat2 P'.mat3 → 0 ≤ x ∧ x ≤ y) := by
  obtain ⟨z, z', hz, hz', z1, z2⟩ := C113_mSumme_k0 h h' hs hprec hprec' frac
  obtain ⟨F, hF, hl, hval⟩ := free_sum h hprec hz hg hp han hT hN
  subst hp'
  obtain ⟨F', hF', hl', hval'⟩ := free_sum (p := { p with geo := pairGeo exactBes frac P' }) h' hprec' hz' rfl hp han hT hN
  refine ⟨F, F', hF, hF', hl, hl', fun i x y hx hy => ?_⟩
  have e1 := hval i x hx
  have e2 := hval' i y hy
  simp only at e2
  have hpos : (0 : ℝ) < (i + 1 : ℕ) * p.deltaT := by positivity
  have hk : ∀ j : ℕ, 0 < p.deltaT * ((j + 1) * (i + 1) : ℕ) := fun j => by positivity
  have key := fun j : ℕ => pairSum_stronger_contrast h h' hs (hk j)
  refine ⟨fun hc' => ?_, fun hc hc' => ?_⟩
  · rw [e1, e2, abs_mul, abs_of_pos hpos, ← mul_neg]
    refine mul_le_mul_of_nonneg_left ?_ hpos.le
    have a := z1 hc'
    have b := Finset.sum_le_sum fun j (_ : j ∈ Finset.range (p.nmax.toNat / (i + 1))) => (key j).1 hc'
    have c := Finset.abs_sum_le_sum_abs (fun j : ℕ => pairSum P (p.deltaT * ((j + 1) * (i + 1) : ℕ))) (Finset.range (p.nmax.toNat / (i + 1)))
    rw [Finset.sum_neg_distrib] at b
    refine (abs_add_le _ _).trans ?_
    rw [abs_mul, abs_of_pos (by norm_num : (0 : ℝ) < 0.5)]
    linarith
  · rw [e1, e2]
    obtain ⟨a1, a2⟩ := z2 hc hc'
    have b := Finset.sum_le_sum fun j (_ : j ∈ Finset.range (p.nmax.toNat / (i + 1))) => ((key j).2 hc hc').2
    have c := Finset.sum_nonneg fun j (_ : j ∈ Finset.range (p.nmax.toNat / (i + 1))) => ((key j).2 hc hc').1
    exact ⟨mul_nonneg hpos.le (by linarith), mul_le_mul_of_nonneg_left (by linarith) hpos.le⟩

/-- **C113, `e0`.** -/
theorem C113_zero_temperature (h : PairOK P) (h' : PairOK P') (hs : Stronger P P') (hprec : P.precision ≤ 0) (hprec' : P'.precision ≤ 0)
    (hq : q.Exact) {a : ℝ} (ha : 0 ≤ a) {b : Upper} (hb : ∀ x, b = .num x → a ≤ x) (hb' : b = .none → a ≤ nmax * deltaT) :
    ∃ E E', e0 q (pairAt exactBes frac P) deltaT nmax a b = .ok E ∧ e0 q (pairAt exactBes frac P') deltaT nmax a b = .ok E' ∧
      (EqualContrast P'.mat1 P'.mat2 P'.mat3 → |E| ≤ -E') ∧
      (OppositeContrast P.mat1 P.mat2 P.mat3 → OppositeContrast P'.mat1 P'.mat2 P'.mat3 → 0 ≤ E ∧ E ≤ E') := by
  obtain ⟨s1, s2⟩ := e0_set (nmax := nmax) (deltaT := deltaT) ha b
  have hm := fun k (hk : 0 < k) => pairSum_stronger_contrast h h' hs hk
  have i1 := (pairVal_integrable h).mono_set s1
  have i2 := (pairVal_integrable h').mono_set s1
  refine ⟨_, _, e0_value h hq ha hb hb', e0_value h' hq ha hb hb', fun hc' => ?_, fun hc hc' => ⟨?_, ?_⟩⟩
  · rw [← integral_neg]
    refine (abs_integral_le_integral_abs).trans (setIntegral_mono_on i1.abs i2.neg s2 fun k hk => ?_)
    rw [pairVal_sum h hprec (s1 hk), pairVal_sum h' hprec' (s1 hk)]
    exact (hm k (s1 hk)).1 hc'
  · refine setIntegral_nonneg s2 fun k hk => ?_
    rw [pairVal_sum h hprec (s1 hk)]
    exact ((hm k (s1 hk)).2 hc hc').1
  · exact (e0_compare h h' hprec hprec' (fun k hk => ((hm k hk).2 hc hc').2) s1 s2).1

/-! ## Perfect conductors -/

/-- The same spheres made of perfect conductors. -/
def PairIn.metal (P : PairIn) : PairIn := { P with mat1 := ⟨.pec, [], none⟩, mat2 := ⟨.pec, [], none⟩ }

theorem PairOK.metal (h : PairOK P) : PairOK P.metal := ⟨pec_sphere, pec_sphere, h.m3, h.h1, h.h2, h.sep, h.hl, h.hls⟩

theorem Stronger.metal (P : PairIn) : Stronger P P.metal :=
  ⟨rfl, rfl, rfl, rfl, le_rfl, le_rfl, fun _ _ => .inl rfl, fun _ _ => .inl rfl⟩

/-- **C113.** Perfect conductors interact most strongly: for all materials of the two spheres, of definite contrast or not, the free energy is in absolute
value at most that of perfectly conducting spheres in the same medium, which attract each other. -/
theorem C113_perfect_conductors {p p' : FTParams} (h : PairOK P) (hprec : P.precision ≤ 0) (hg : p.geo = pairGeo exactBes frac P)
    (hp' : p' = { p with geo := pairGeo exactBes frac P.metal }) (hp : p.nprocs.isZero) (han : p.analyticN0 = true) (hT : 0 < p.deltaT) (hN : 0 ≤ p.nmax) :
    ∃ F F' : List ℝ, (freeEnergy p FT.fresh).1 = .ok F ∧ (freeEnergy p' FT.fresh).1 = .ok F' ∧ F.length = p.maxstep.toNat ∧ F'.length = p.maxstep.toNat ∧
      ∀ (i : ℕ) (x y : ℝ), F[i]? = some x → F'[i]? = some y → |x| ≤ -y := by
  obtain ⟨F, F', h1, h2, h3, h4, h5⟩ := C113_free_energy h h.metal (.metal P) hprec hprec hg hp' hp han hT hN
  exact ⟨F, F', h1, h2, h3, h4, fun i x y hx hy => (h5 i x y hx hy).1 (equalContrast_same pec_sphere h.m3)⟩

/-- **C113.** Likewise at zero temperature. -/
theorem C113_perfect_conductors_zero (h : PairOK P) (hprec : P.precision ≤ 0) (hq : q.Exact) {a : ℝ} (ha : 0 ≤ a) {b : Upper} (hb : ∀ x, b = .num x → a ≤ x)
    (hb' : b = .none → a ≤ nmax * deltaT) :
    ∃ E E', e0 q (pairAt exactBes frac P) deltaT nmax a b = .ok E ∧ e0 q (pairAt exactBes frac P.metal) deltaT nmax a b = .ok E' ∧ |E| ≤ -E' := by
  obtain ⟨E, E', h1, h2, h3, -⟩ := C113_zero_temperature (frac := frac) h h.metal (.metal P) hprec hprec hq ha hb hb'
  exact ⟨E, E', h1, h2, h3 (equalContrast_same pec_sphere h.m3)⟩

/-! ## Larger spheres -/

/-- The same pair with other radii. -/
def PairIn.radii (P : PairIn) (a b : ℝ) : PairIn := { P with r1 := a, r2 := b }

theorem PairOK.radii (h : PairOK P) {a b : ℝ} (ha : 0 < a) (hb : 0 < b) (hs : a + b < P.L) : PairOK (P.radii a b) :=
  ⟨h.m1, h.m2, h.m3, ha, hb, hs, h.hl, h.hls⟩

theorem moreContrast_refl (m md : Material) (k : ℝ) : MoreContrast m m md k := by
  by_cases hp : m.cls = .pec
  · exact .inl hp
  · refine .inr ⟨hp, hp, ?_⟩
    rcases le_total (md.epsV k) (m.epsV k) with h | h
    · exact .inl ⟨h, le_rfl⟩
    · exact .inr ⟨le_rfl, h⟩

theorem Stronger.radii {a b : ℝ} (ha : P.r1 ≤ a) (hb : P.r2 ≤ b) : Stronger P (P.radii a b) :=
  ⟨rfl, rfl, rfl, rfl, ha, hb, fun _ _ => moreContrast_refl _ _ _, fun _ _ => moreContrast_refl _ _ _⟩

/-- **C113.** Enlarging the spheres at fixed centres strengthens the attraction of spheres with equal contrast and the repulsion of spheres with opposite
contrast, at every temperature. -/
theorem C113_radii {p p' : FTParams} (h : PairOK P) (hprec : P.precision ≤ 0) {a b : ℝ} (ha : P.r1 ≤ a) (hb : P.r2 ≤ b) (hab : a + b < P.L)
    (hg : p.geo = pairGeo exactBes frac P) (hp' : p' = { p with geo := pairGeo exactBes frac (P.radii a b) }) (hp : p.nprocs.isZero)
    (han : p.analyticN0 = true) (hT : 0 < p.deltaT) (hN : 0 ≤ p.nmax) :
    ∃ F F' : List ℝ, (freeEnergy p FT.fresh).1 = .ok F ∧ (freeEnergy p' FT.fresh).1 = .ok F' ∧ F.length = p.maxstep.toNat ∧ F'.length = p.maxstep.toNat ∧
      ∀ (i : ℕ) (x y : ℝ), F[i]? = some x → F'[i]? = some y →
        (EqualContrast P.mat1 P.mat2 P.mat3 → y ≤ x ∧ x ≤ 0) ∧ (OppositeContrast P.mat1 P.mat2 P.mat3 → 0 ≤ x ∧ x ≤ y) := by
  have h' := h.radii (h.h1.trans_le ha) (h.h2.trans_le hb) hab
  obtain ⟨F, F', h1, h2, h3, h4, h5⟩ := C113_free_energy h h' (.radii ha hb) hprec hprec hg hp' hp han hT hN
  obtain ⟨G, hG, -, hG2⟩ := C100_free_energy (p := p) h hg hp han hT hN
  rw [h1] at hG
  injection hG with hG
  subst hG
  refine ⟨F, F', h1, h2, h3, h4, fun i x y hx hy => ⟨fun hc => ?_, fun hc => (h5 i x y hx hy).2 hc hc⟩⟩
  have hx0 := (hG2 i x hx).2.1 hc
  have := (h5 i x y hx hy).1 hc
  rw [abs_of_nonpos hx0] at this
  exact ⟨by linarith, hx0⟩

/-! ## Examples -/

/-- Gold spheres attract each other less than perfectly conducting ones, at each of 200 temperatures. -/
example : ∃ F F' : List ℝ, (freeEnergy ⟨0.01, 500, 200, true, .int 0, pairGeo exactBes (fun _ _ => 0) goldPair⟩ FT.fresh).1 = .ok F ∧
    (freeEnergy ⟨0.01, 500, 200, true, .int 0, pairGeo exactBes (fun _ _ => 0) goldPair.metal⟩ FT.fresh).1 = .ok F' ∧ F.length = 200 ∧ F'.length = 200 ∧
    ∀ (i : ℕ) (x y : ℝ), F[i]? = some x → F'[i]? = some y → |x| ≤ -y :=
  C113_perfect_conductors (p := ⟨0.01, 500, 200, true, .int 0, pairGeo exactBes (fun _ _ => 0) goldPair⟩) goldPair_ok le_rfl rfl rfl rfl rfl
    (by norm_num) (by norm_num)

/-- Gold spheres with the radii 1, 4 and 3/2, 17/4. -/
example : ∃ F F' : List ℝ, (freeEnergy ⟨0.01, 500, 200, true, .int 0, pairGeo exactBes (fun _ _ => 0) goldPair⟩ FT.fresh).1 = .ok F ∧
    (freeEnergy ⟨0.01, 500, 200, true, .int 0, pairGeo exactBes (fun _ _ => 0) (goldPair.radii (3/2) (17/4))⟩ FT.fresh).1 = .ok F' ∧ F.length = 200 ∧
    F'.length = 200 ∧ ∀ (i : ℕ) (x y : ℝ), F[i]? = some x → F'[i]? = some y → y ≤ x ∧ x ≤ 0 := by
  obtain ⟨F, F', h1, h2, h3, h4, h5⟩ := C113_radii (p := ⟨0.01, 500, 200, true, .int 0, pairGeo exactBes (fun _ _ => 0) goldPair⟩) goldPair_ok le_rfl
    (a := 3/2) (b := 17/4) (by norm_num [goldPair]) (by norm_num [goldPair]) (by norm_num [goldPair]) rfl rfl rfl rfl (by norm_num) (by norm_num)
  exact ⟨F, F', h1, h2, h3, h4, fun i x y hx hy => (h5 i x y hx hy).1 (equalContrast_same goldPair_ok.m1 goldPair_ok.m3)⟩

/-- Additional oscillators of a dielectric increase its contrast to the vacuum. -/
example (w w' : List Osc) (h : ∀ p ∈ w ++ w', 0 ≤ p.wR ∧ 0 ≤ p.gamma) (k : ℝ) (hk : 0 < k) :
    MoreContrast ⟨.lorentz, w, none⟩ ⟨.lorentz, w ++ w', none⟩ ⟨.lorentz, [], none⟩ k := by
  have val : ∀ w : List Osc, (∀ p ∈ w, 0 ≤ p.wR ∧ 0 ≤ p.gamma) → Material.epsV ⟨.lorentz, w, none⟩ k = 1 + (w.map (lorT k)).sum ∧ 0 ≤ (w.map (lorT k)).sum := by
    intro w hw
    refine ⟨epsV_lorentz rfl ⟨hw, by simp, by simp⟩ hk, List.sum_nonneg fun x hx => ?_⟩
    rw [List.mem_map] at hx
    obtain ⟨p, hpm, rfl⟩ := hx
    exact div_nonneg (sq_nonneg _) (lorDen_pos hk (hw p hpm)).le
  obtain ⟨e1, p1⟩ := val w fun p hp => h p (by simp [hp])
  obtain ⟨e2, p2⟩ := val w' fun p hp => h p (by simp [hp])
  obtain ⟨e3, -⟩ := val (w ++ w') h
  obtain ⟨e4, -⟩ := val [] (by simp)
  rw [List.map_append, List.sum_append] at e3
  refine .inr ⟨by simp, by simp, .inl ⟨?_, ?_⟩⟩
  · rw [e1, e4]; simpa using p1
  · rw [e1, e3]; linarith

end CasSph
