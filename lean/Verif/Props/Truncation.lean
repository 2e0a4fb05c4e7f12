import Verif.Lemmas.Truncation
import Verif.Props.CutOff
import Verif.Props.HighTemp

/-! # C117: the error made by finite cut-offs `lmax` and `lssmax` falls geometrically -/

namespace CasSph

open Spec Filter Topology MeasureTheory Set

variable {P : PairIn} {frac : ℝ → ℝ → ℝ} {R1 R2 : ℝ} {a b : ℕ}

/-- Sizes of two spheres that fit in the place of `P`: one of them larger than in `P`, the other one as in `P`. -/
structure Fits (P : PairIn) (R1 R2 : ℝ) : Prop where
  r1 : P.r1 ≤ R1
  r2 : P.r2 ≤ R2
  sep1 : R1 + P.r2 < P.L
  sep2 : P.r1 + R2 < P.L

theorem Fits.pos1 (hR : Fits P R1 R2) (h : PairOK P) : 0 < R1 := h.h1.trans_le hR.r1
theorem Fits.pos2 (hR : Fits P R1 R2) (h : PairOK P) : 0 < R2 := h.h2.trans_le hR.r2
theorem Fits.q1 (hR : Fits P R1 R2) (h : PairOK P) (n : ℕ) : 0 ≤ (P.r1 / R1) ^ n := pow_nonneg (div_nonneg h.h1.le (hR.pos1 h).le) n
theorem Fits.q2 (hR : Fits P R1 R2) (h : PairOK P) (n : ℕ) : 0 ≤ (P.r2 / R2) ^ n := pow_nonneg (div_nonneg h.h2.le (hR.pos2 h).le) n

theorem pairSum_part (P : PairIn) (hl : 1 ≤ P.lmax) (k : ℝ) : PartSum P k (pairSum P k) := ⟨P.lmax, hl, le_rfl, rfl⟩

/-- The bound on the change at the wavenumber `k`. -/
noncomputable def truncBound (P : PairIn) (R1 R2 k : ℝ) : ℝ :=
  (P.r1 / R1) ^ (2 * P.lmax + 1) * (freeC R1 P.r2 P.L * sharpExp (k * (P.L - (R1 + P.r2)))) +
  (P.r2 / R2) ^ (2 * P.lssmax + 1) * (freeC P.r1 R2 P.L * sharpExp (k * (P.L - (P.r1 + R2))))

theorem pairSum_truncBound (h : PairOK P) (hR : Fits P R1 R2) (ha : P.lmax ≤ a) (hb : P.lssmax ≤ b) (hab : a ≤ b) {k : ℝ} (hk : 0 < k) :
    |pairSum (P.cut a b) k - pairSum P k| ≤ truncBound P R1 R2 k := by
  have t := pairSum_trunc h hk h.hl h.hls ha hb hab hR.r1 hR.r2 hR.sep1 hR.sep2
  rw [cut_self] at t
  refine t.trans (add_le_add (mul_le_mul_of_nonneg_left ?_ (hR.q1 h _)) (mul_le_mul_of_nonneg_left ?_ (hR.q2 h _)))
  · have hc := (h.cut (h.hl.trans ha) hab).mirrorsOf (hR.pos1 h) h.h2 hR.sep1
    exact (neg_le_abs _).trans (part_bound hc hk (pairSum_part _ hc.hl k)).1
  · have hc := (h.cut (h.hl.trans ha) hab).mirrorsOf h.h1 (hR.pos2 h) hR.sep2
    exact (neg_le_abs _).trans (part_bound hc hk (pairSum_part _ hc.hl k)).1

/-- **C117, `mSumme`.** Raising the cut-offs arbitrarily changes no value by more than the bound, for all materials. -/
theorem C117_mSumme (h : PairOK P) (hprec : P.precision ≤ 0) (hR : Fits P R1 R2) (ha : P.lmax ≤ a) (hb : P.lssmax ≤ b) (hab : a ≤ b) {ks : List ℝ}
    (hne : ks ≠ []) (hk : ∀ k ∈ ks, 0 < k) :
    ∃ vs ws, pairVals exactBes P ks = .ok vs ∧ pairVals exactBes (P.cut a b) ks = .ok ws ∧ vs.length = ks.length ∧ ws.length = ks.length ∧
      ∀ (j : ℕ) (k x y : ℝ), ks[j]? = some k → vs[j]? = some x → ws[j]? = some y →
        |y - x| ≤ (P.r1 / R1) ^ (2 * P.lmax + 1) * (freeC R1 P.r2 P.L * sharpExp (k * (P.L - (R1 + P.r2)))) +
          (P.r2 / R2) ^ (2 * P.lssmax + 1) * (freeC P.r1 R2 P.L * sharpExp (k * (P.L - (P.r1 + R2)))) := by
  have hc := h.cut (h.hl.trans ha) hab
  refine ⟨_, _, pairVals_sum h hprec hne hk, pairVals_sum hc hprec hne hk, by simp, by simp, fun j k x y hj hx hy => ?_⟩
  rw [List.getElem?_map, hj] at hx hy
  injection hx with hx
  injection hy with hy
  rw [← hx, ← hy]
  exact pairSum_truncBound h hR ha hb hab (hk k (List.mem_of_getElem? hj))

/-- **C117, `mSumme_k0`.** -/
theorem C117_mSumme_k0 (h : PairOK P) (hprec : P.precision ≤ 0) (hR : Fits P R1 R2) (ha : P.lmax ≤ a) (hb : P.lssmax ≤ b) (hab : a ≤ b) (frac : ℝ → ℝ → ℝ) :
    ∃ z z', pairK0 frac P = .ok z ∧ pairK0 frac (P.cut a b) = .ok z' ∧
      |z' - z| ≤ (P.r1 / R1) ^ (2 * P.lmax + 1) * (4 * staticBound R1 P.r2 P.L 0 / (1 - R1 / (P.L - P.r2))) +
        (P.r2 / R2) ^ (2 * P.lssmax + 1) * (4 * staticBound P.r1 R2 P.L 0 / (1 - P.r1 / (P.L - R2))) := by
  have hc := h.cut (h.hl.trans ha) hab
  obtain ⟨z, z', z1, z2, hz, hz', hz1, hz2, hzb⟩ := pairK0_trunc h hprec frac h.hl h.hls ha hb hab hR.r1 hR.r2 hR.sep1 hR.sep2
  rw [cut_self] at hz
  obtain ⟨y1, hy1, b1, -⟩ := C100_mSumme_k0 (hc.mirrorsOf (hR.pos1 h) h.h2 hR.sep1) frac
  obtain ⟨y2, hy2, b2, -⟩ := C100_mSumme_k0 (hc.mirrorsOf h.h1 (hR.pos2 h) hR.sep2) frac
  rw [hz1] at hy1
  rw [hz2] at hy2
  injection hy1 with e1
  injection hy2 with e2
  subst e1 e2
  refine ⟨z, z', hz, hz', hzb.trans (add_le_add (mul_le_mul_of_nonneg_left ?_ (hR.q1 h _)) (mul_le_mul_of_nonneg_left ?_ (hR.q2 h _)))⟩
  · exact (neg_le_abs z1).trans b1
  · exact (neg_le_abs z2).trans b2

/-- **C117, `free_energy`.** -/
theorem C117_free_energy {p p' : FTParams} (h : PairOK P) (hprec : P.precision ≤ 0) (hR : Fits P R1 R2) (ha : P.lmax ≤ a) (hb : P.lssmax ≤ b) (hab : a ≤ b)
    (hg : p.geo = pairGeo exactBes frac P) (hp' : p' = { p with geo := pairGeo exactBes frac (P.cut a b) }) (hp : p.nprocs.isZero)
    (han : p.analyticN0 = true) (hT : 0 < p.deltaT) (hN : 0 ≤ p.nmax) :
    ∃ F F' : List ℝ, (freeEnergy p FT.fresh).1 = .ok F ∧ (freeEnergy p' FT.fresh).1 = .ok F' ∧ F.length = p.maxstep.toNat ∧ F'.length = p.maxstep.toNat ∧
      ∀ (i : ℕ) (x y : ℝ), F[i]? = some x → F'[i]? = some y →
        |y - x| ≤ (P.r1 / R1) ^ (2 * P.lmax + 1) * freeBound R1 P.r2 P.L ((i + 1) * p.deltaT) +
          (P.r2 / R2) ^ (2 * P.lssmax + 1) * freeBound P.r1 R2 P.L ((i + 1) * p.deltaT) := by
  have hc := h.cut (h.hl.trans ha) hab
  have hc1 := hc.mirrorsOf (hR.pos1 h) h.h2 hR.sep1
  have hc2 := hc.mirrorsOf h.h1 (hR.pos2 h) hR.sep2
  obtain ⟨z, z', z1, z2, hz, hz', hz1, hz2, hzb⟩ := pairK0_trunc h hprec frac h.hl h.hls ha hb hab hR.r1 hR.r2 hR.sep1 hR.sep2
  rw [cut_self] at hz
  obtain ⟨F, hF, hl, hval⟩ := free_sum h hprec hz hg hp han hT hN
  subst hp'
  obtain ⟨F', hF', hl', hval'⟩ := free_sum (p := { p with geo := pairGeo exactBes frac (P.cut a b) }) hc hprec hz' rfl hp han hT hN
  obtain ⟨G, hG, hlG, hvG⟩ := free_sum (p := { p with geo := pairGeo exactBes frac ((P.cut a b).mirrorsOf R1 P.r2) }) hc1 hprec hz1 rfl hp han hT hN
  obtain ⟨K, hK, hlK, hvK⟩ := free_sum (p := { p with geo := pairGeo exactBes frac ((P.cut a b).mirrorsOf P.r1 R2) }) hc2 hprec hz2 rfl hp han hT hN
  obtain ⟨G', hG', -, hBG⟩ := C100_free_energy (p := { p with geo := pairGeo exactBes frac ((P.cut a b).mirrorsOf R1 P.r2) }) hc1 rfl hp han hT hN
  obtain ⟨K', hK', -, hBK⟩ := C100_free_energy (p := { p with geo := pairGeo exactBes frac ((P.cut a b).mirrorsOf P.r1 R2) }) hc2 rfl hp han hT hN
  rw [hG] at hG'
  rw [hK] at hK'
  injection hG' with eG
  injection hK' with eK
  subst eG eK
  refine ⟨F, F', hF, hF', hl, hl', fun i x y hx hy => ?_⟩
  have hi : i < p.maxstep.toNat := by
    rw [← hl]
    by_contra hh
    rw [List.getElem?_eq_none (by omega)] at hx
    simp at hx
  simp only at hlG hlK
  obtain ⟨g, hg'⟩ : ∃ g, G[i]? = some g := ⟨_, List.getElem?_eq_getElem (by omega)⟩
  obtain ⟨κ, hκ⟩ : ∃ κ, K[i]? = some κ := ⟨_, List.getElem?_eq_getElem (by omega)⟩
  have e1 := hval i x hx
  have e2 := hval' i y hy
  have e3 := hvG i g hg'
  have e4 := hvK i κ hκ
  simp only at e2 e3 e4
  have hpos : (0 : ℝ) < (i + 1 : ℕ) * p.deltaT := by positivity
  have hk : ∀ j : ℕ, 0 < p.deltaT * ((j + 1) * (i + 1) : ℕ) := fun j => by positivity
  have key : |y - x| ≤ (P.r1 / R1) ^ (2 * P.lmax + 1) * -g + (P.r2 / R2) ^ (2 * P.lssmax + 1) * -κ := by
    have t := fun j : ℕ => pairSum_trunc h (hk j) h.hl h.hls ha hb hab hR.r1 hR.r2 hR.sep1 hR.sep2
    simp only [cut_self] at t
    have s := Finset.sum_le_sum fun j (_ : j ∈ Finset.range (p.nmax.toNat / (i + 1))) => t j
    have s' := Finset.abs_sum_le_sum_abs (fun j : ℕ => pairSum (P.cut a b) (p.deltaT * ((j + 1) * (i + 1) : ℕ)) - pairSum P (p.deltaT * ((j + 1) * (i + 1) : ℕ)))
      (Finset.range (p.nmax.toNat / (i + 1)))
    rw [Finset.sum_sub_distrib] at s'
    rw [Finset.sum_add_distrib, ← Finset.mul_sum, ← Finset.mul_sum, Finset.sum_neg_distrib, Finset.sum_neg_distrib] at s
    have inner : |(0.5 * z' + ∑ j ∈ Finset.range (p.nmax.toNat / (i + 1)), pairSum (P.cut a b) (p.deltaT * ((j + 1) * (i + 1) : ℕ))) -
        (0.5 * z + ∑ j ∈ Finset.range (p.nmax.toNat / (i + 1)), pairSum P (p.deltaT * ((j + 1) * (i + 1) : ℕ)))| ≤
        (P.r1 / R1) ^ (2 * P.lmax + 1) * -(0.5 * z1 + ∑ j ∈ Finset.range (p.nmax.toNat / (i + 1)), pairSum ((P.cut a b).mirrorsOf R1 P.r2) (p.deltaT * ((j + 1) * (i + 1) : ℕ))) +
        (P.r2 / R2) ^ (2 * P.lssmax + 1) * -(0.5 * z2 + ∑ j ∈ Finset.range (p.nmax.toNat / (i + 1)), pairSum ((P.cut a b).mirrorsOf P.r1 R2) (p.deltaT * ((j + 1) * (i + 1) : ℕ))) := by
      rw [add_sub_add_comm, ← mul_sub]
      refine (abs_add_le _ _).trans ?_
      rw [abs_mul, abs_of_pos (by norm_num : (0 : ℝ) < 0.5)]
      linarith
    rw [e1, e2, e3, e4, ← mul_sub, abs_mul, abs_of_pos hpos]
    have := mul_le_mul_of_nonneg_left inner hpos.le
    linarith
  refine key.trans (add_le_add (mul_le_mul_of_nonneg_left ?_ (hR.q1 h _)) (mul_le_mul_of_nonneg_left ?_ (hR.q2 h _)))
  · exact (neg_le_abs g).trans (hBG i g hg').1
  · exact (neg_le_abs κ).trans (hBK i κ hκ).1

/-- **C117, `free_energy` against its limit.** The limit for infinite cut-offs exists (C111), and every computed value is within the bound of it. -/
theorem C117_free_energy_limit {p : FTParams} (h : PairOK P) (hprec : P.precision ≤ 0) (hR : Fits P R1 R2) (hg : p.geo = pairGeo exactBes frac P)
    (hp : p.nprocs.isZero) (han : p.analyticN0 = true) (hT : 0 < p.deltaT) (hN : 0 ≤ p.nmax) {i : ℕ} (hi : (i : ℤ) < p.maxstep) :
    ∃ v, (∀ lm ls : ℕ → ℕ, Tendsto lm atTop atTop → (∀ n, 1 ≤ lm n) → (∀ n, lm n ≤ ls n) → ∀ F : ℕ → List ℝ,
        (∀ n, (freeEnergy { p with geo := pairGeo exactBes frac (P.cut (lm n) (ls n)) } FT.fresh).1 = .ok (F n)) →
        Tendsto (fun n => (F n).getD i 0) atTop (𝓝 v)) ∧
      ∃ F x, (freeEnergy p FT.fresh).1 = .ok F ∧ F[i]? = some x ∧
        |v - x| ≤ (P.r1 / R1) ^ (2 * P.lmax + 1) * freeBound R1 P.r2 P.L ((i + 1) * p.deltaT) +
          (P.r2 / R2) ^ (2 * P.lssmax + 1) * freeBound P.r1 R2 P.L ((i + 1) * p.deltaT) := by
  obtain ⟨v, -, hv, -⟩ := C111_free_energy_limit (frac := frac) h hprec hp han hT hN hi
  refine ⟨v, hv, ?_⟩
  have key := fun n => C117_free_energy (frac := frac) (p := p) (a := P.lmax + n) (b := P.lssmax + n) h hprec hR (by omega) (by omega)
    (by have := h.hls; omega) hg rfl hp han hT hN
  choose F F' hF hF' hl hl' hb using key
  have hF0 : ∀ n, F n = F 0 := fun n => by
    have e := hF n
    rw [hF 0] at e
    injection e with e
    exact e.symm
  have t := hv (fun n => P.lmax + n) (fun n => P.lssmax + n) (tendsto_atTop_mono (fun n => Nat.le_add_left n _) tendsto_id)
    (fun n => by have := h.hl; omega) (fun n => by have := h.hls; omega) F' hF'
  obtain ⟨x, hx⟩ : ∃ x, (F 0)[i]? = some x := ⟨_, List.getElem?_eq_getElem (by rw [hl]; omega)⟩
  refine ⟨F 0, x, hF 0, hx, le_of_tendsto (t.sub_const x).abs (.of_forall fun n => ?_)⟩
  obtain ⟨y, hy⟩ : ∃ y, (F' n)[i]? = some y := ⟨_, List.getElem?_eq_getElem (by rw [hl']; omega)⟩
  rw [List.getD_eq_getElem?_getD, hy]
  exact hb n i x y (by rw [hF0 n]; exact hx) hy

/-- **C117, `e0`.** -/
theorem C117_zero_temperature {q : Quad} {deltaT : ℝ} {nmax : ℤ} (h : PairOK P) (hprec : P.precision ≤ 0) (hR : Fits P R1 R2) (ha : P.lmax ≤ a) (hb : P.lssmax ≤ b)
    (hab : a ≤ b) (hq : q.Exact) {k0 : ℝ} (hk0 : 0 ≤ k0) {k1 : Upper} (hk1 : ∀ x, k1 = .num x → k0 ≤ x) (hk1' : k1 = .none → k0 ≤ nmax * deltaT) :
    ∃ E E', e0 q (pairAt exactBes frac P) deltaT nmax k0 k1 = .ok E ∧ e0 q (pairAt exactBes frac (P.cut a b)) deltaT nmax k0 k1 = .ok E' ∧
      |E' - E| ≤ (P.r1 / R1) ^ (2 * P.lmax + 1) * zeroBound R1 P.r2 P.L k0 + (P.r2 / R2) ^ (2 * P.lssmax + 1) * zeroBound P.r1 R2 P.L k0 := by
  have hc := h.cut (h.hl.trans ha) hab
  have hc1 := hc.mirrorsOf (hR.pos1 h) h.h2 hR.sep1
  have hc2 := hc.mirrorsOf h.h1 (hR.pos2 h) hR.sep2
  obtain ⟨s1, s2⟩ := e0_set (nmax := nmax) (deltaT := deltaT) hk0 k1
  refine ⟨_, _, e0_value h hq hk0 hk1 hk1', e0_value hc hq hk0 hk1 hk1', ?_⟩
  obtain ⟨E1, hE1, hB1, -⟩ := C104_energy (frac := frac) (deltaT := deltaT) (nmax := nmax) hc1 hq hk0 hk1 hk1'
  obtain ⟨E2, hE2, hB2, -⟩ := C104_energy (frac := frac) (deltaT := deltaT) (nmax := nmax) hc2 hq hk0 hk1 hk1'
  rw [e0_value hc1 hq hk0 hk1 hk1'] at hE1
  rw [e0_value hc2 hq hk0 hk1 hk1'] at hE2
  injection hE1 with hE1
  injection hE2 with hE2
  have i0 := (pairVal_integrable h).mono_set s1
  have i1 := (pairVal_integrable hc).mono_set s1
  have j1 := (pairVal_integrable hc1).mono_set s1
  have j2 := (pairVal_integrable hc2).mono_set s1
  rw [← integral_sub i1 i0]
  refine (abs_integral_le_integral_abs).trans ?_
  have n1 : IntegrableOn (fun k => (P.r1 / R1) ^ (2 * P.lmax + 1) * -pairVal ((P.cut a b).mirrorsOf R1 P.r2) k) _ volume := j1.neg.const_mul _
  have n2 : IntegrableOn (fun k => (P.r2 / R2) ^ (2 * P.lssmax + 1) * -pairVal ((P.cut a b).mirrorsOf P.r1 R2) k) _ volume := j2.neg.const_mul _
  refine (setIntegral_mono_on (i1.sub i0).abs (n1.add n2) s2 fun k hk => ?_).trans ?_
  · have t := pairSum_trunc h (s1 hk) h.hl h.hls ha hb hab hR.r1 hR.r2 hR.sep1 hR.sep2
    simp only [cut_self] at t
    simp only [Pi.add_apply, Pi.sub_apply]
    rw [pairVal_sum h hprec (s1 hk), pairVal_sum hc hprec (s1 hk), pairVal_sum hc1 hprec (s1 hk), pairVal_sum hc2 hprec (s1 hk)]
    exact t
  · simp only [Pi.add_apply]
    rw [integral_add n1 n2, integral_const_mul, integral_const_mul, integral_neg, integral_neg, hE1, hE2]
    exact add_le_add (mul_le_mul_of_nonneg_left ((neg_le_abs E1).trans hB1) (hR.q1 h _)) (mul_le_mul_of_nonneg_left ((neg_le_abs E2).trans hB2) (hR.q2 h _))

/-- **C117, `e0` against its limit.** -/
theorem C117_zero_temperature_limit {q : Quad} {deltaT : ℝ} {nmax : ℤ} (h : PairOK P) (hprec : P.precision ≤ 0) (hR : Fits P R1 R2) (hq : q.Exact) {k0 : ℝ}
    (hk0 : 0 ≤ k0) {k1 : Upper} (hk1 : ∀ x, k1 = .num x → k0 ≤ x) (hk1' : k1 = .none → k0 ≤ nmax * deltaT) :
    ∃ v, (∀ lm ls : ℕ → ℕ, Tendsto lm atTop atTop → (∀ n, 1 ≤ lm n) → (∀ n, lm n ≤ ls n) → ∀ E : ℕ → ℝ,
        (∀ n, e0 q (pairAt exactBes frac (P.cut (lm n) (ls n))) deltaT nmax k0 k1 = .ok (E n)) → Tendsto E atTop (𝓝 v)) ∧
      ∃ E, e0 q (pairAt exactBes frac P) deltaT nmax k0 k1 = .ok E ∧
        |v - E| ≤ (P.r1 / R1) ^ (2 * P.lmax + 1) * zeroBound R1 P.r2 P.L k0 + (P.r2 / R2) ^ (2 * P.lssmax + 1) * zeroBound P.r1 R2 P.L k0 := by
  obtain ⟨v, -, hv, -⟩ := C111_zero_temperature_limit (frac := frac) h hprec hq hk0 hk1 hk1'
  refine ⟨v, hv, ?_⟩
  have key := fun n => C117_zero_temperature (frac := frac) (a := P.lmax + n) (b := P.lssmax + n) h hprec hR (by omega) (by omega)
    (by have := h.hls; omega) hq hk0 hk1 hk1'
  choose E E' hE hE' hb using key
  have hE0 : ∀ n, E n = E 0 := fun n => by
    have e := hE n
    rw [hE 0] at e
    injection e with e
    exact e.symm
  have t := hv (fun n => P.lmax + n) (fun n => P.lssmax + n) (tendsto_atTop_mono (fun n => Nat.le_add_left n _) tendsto_id)
    (fun n => by have := h.hl; omega) (fun n => by have := h.hls; omega) E' hE'
  refine ⟨E 0, hE 0, le_of_tendsto (t.sub_const (E 0)).abs (.of_forall fun n => ?_)⟩
  have := hb n
  rwa [hE0 n] at this

/-! ## How many multipoles are needed -/

/-- Half of the gap may be given to either sphere. -/
theorem fits_half (h : PairOK P) : Fits P (P.r1 + (P.L - (P.r1 + P.r2)) / 2) (P.r2 + (P.L - (P.r1 + P.r2)) / 2) := by
  have := h.sep
  exact ⟨by linarith, by linarith, by linarith, by linarith⟩

theorem ratio_exp {r d : ℝ} (hr : 0 < r) (hd : 0 < d) (n : ℕ) : (r / (r + d / 2)) ^ n ≤ Real.exp (-(n * (d / (2 * r + d)))) := by
  have e : r / (r + d / 2) = 1 - d / (2 * r + d) := by
    field_simp
    ring
  have h1 : r / (r + d / 2) ≤ Real.exp (-(d / (2 * r + d))) := by
    rw [e]
    have := Real.add_one_le_exp (-(d / (2 * r + d)))
    linarith
  calc _ ≤ Real.exp (-(d / (2 * r + d))) ^ n := pow_le_pow_left₀ (by positivity) h1 n
    _ = _ := by rw [← Real.exp_nat_mul]; congr 1; ring

theorem freeBound_nonneg (h : PairOK P) {T : ℝ} (hT : 0 < T) : 0 ≤ freeBound P.r1 P.r2 P.L T := by
  obtain ⟨F, -, hl, hb⟩ := C100_free_energy (frac := fun _ _ => 0) (p := ⟨T, 0, 1, true, .int 0, pairGeo exactBes (fun _ _ => 0) P⟩) h rfl rfl rfl hT le_rfl
  obtain ⟨x, hx⟩ : ∃ x, F[0]? = some x := ⟨_, List.getElem?_eq_getElem (by rw [hl]; norm_num)⟩
  have := (abs_nonneg x).trans (hb 0 x hx).1
  simpa using this

/-- **C117, number of multipoles.** With the distance `d` between the surfaces, the error falls like `exp(-(2 lmax + 1) d/(2 r1 + d))` and
`exp(-(2 lssmax + 1) d/(2 r2 + d))`: the cut-offs have to grow like `r1/d` and `r2/d`. -/
theorem C117_rate {p : FTParams} (h : PairOK P) (hprec : P.precision ≤ 0) (hg : p.geo = pairGeo exactBes frac P)
    (hp : p.nprocs.isZero) (han : p.analyticN0 = true) (hT : 0 < p.deltaT) (hN : 0 ≤ p.nmax) {i : ℕ} (hi : (i : ℤ) < p.maxstep) {d : ℝ}
    (hd : d = P.L - (P.r1 + P.r2)) :
    ∃ v, (∀ lm ls : ℕ → ℕ, Tendsto lm atTop atTop → (∀ n, 1 ≤ lm n) → (∀ n, lm n ≤ ls n) → ∀ F : ℕ → List ℝ,
        (∀ n, (freeEnergy { p with geo := pairGeo exactBes frac (P.cut (lm n) (ls n)) } FT.fresh).1 = .ok (F n)) →
        Tendsto (fun n => (F n).getD i 0) atTop (𝓝 v)) ∧
      ∃ F x, (freeEnergy p FT.fresh).1 = .ok F ∧ F[i]? = some x ∧
        |v - x| ≤ Real.exp (-((2 * P.lmax + 1 : ℕ) * (d / (2 * P.r1 + d)))) * freeBound (P.r1 + d / 2) P.r2 P.L ((i + 1) * p.deltaT) +
          Real.exp (-((2 * P.lssmax + 1 : ℕ) * (d / (2 * P.r2 + d)))) * freeBound P.r1 (P.r2 + d / 2) P.L ((i + 1) * p.deltaT) := by
  subst hd
  have hR := fits_half h
  have hd : 0 < P.L - (P.r1 + P.r2) := sub_pos.mpr h.sep
  obtain ⟨v, hv, F, x, hF, hx, hb⟩ := C117_free_energy_limit (frac := frac) h hprec hR hg hp han hT hN hi
  refine ⟨v, hv, F, x, hF, hx, hb.trans (add_le_add (mul_le_mul_of_nonneg_right (ratio_exp h.h1 hd _) ?_) (mul_le_mul_of_nonneg_right (ratio_exp h.h2 hd _) ?_))⟩
  · exact freeBound_nonneg (h.mirrorsOf (hR.pos1 h) h.h2 hR.sep1) (by positivity)
  · exact freeBound_nonneg (h.mirrorsOf h.h1 (hR.pos2 h) hR.sep2) (by positivity)

/-- **C117, `get_lmax`.** With the automatic cut-off (offset at least one, spheres closer than 30 times the smaller radius) the factor in `C117_rate` of a sphere
of the radius `r` is at most `exp(-(2/13) e^η r_s/(2r + d))`, `η = 3 - 0.33 log10(precision)`, `r_s` the smaller radius: for the larger sphere this
guarantees less, since `r_s/(2r + d)` is smaller. -/
theorem C117_get_lmax {r1 r2 L prec d : ℝ} {o n : ℤ} (h1 : 0 < r1) (h2 : 0 < r2) (hs : r1 + r2 < L) (ho : 1 ≤ o) (hd : d = L - (r1 + r2))
    (hnear : d < 30 * min r1 r2) (hn : getLmax r1 r2 L prec o = .ok n) {r : ℝ} (hr : 0 < r) :
    Real.exp (-((2 * n + 1) * (d / (2 * r + d)))) ≤ Real.exp (-(2 / 13 * Real.exp (3 - 0.33 * Real.logb 10 prec) * (min r1 r2 / (2 * r + d)))) := by
  have hrs : 0 < min r1 r2 := lt_min h1 h2
  have hd0 : 0 < d := by rw [hd]; linarith
  have e : |max r1 r2 - L| - min r1 r2 = d := by
    rw [abs_of_neg (by have := max_le_add_of_nonneg h1.le h2.le; linarith), hd]
    have := max_add_min r1 r2
    linarith
  unfold getLmax at hn
  simp only [e] at hn
  rw [if_neg (by rw [not_le, div_lt_iff₀ hrs]; exact hnear), if_neg hd0.ne'] at hn
  split_ifs at hn
  injection hn with hn
  set x := Real.exp (-(Real.logb 10 prec) * 0.33 + 3) * (min r1 r2 / d) / 13 with hx
  have hx0 : 0 ≤ x := by positivity
  have hle : x ≤ n := by
    have : (⌊x⌋ : ℤ) + 1 ≤ n := by
      rw [← hn]
      unfold pyInt
      rw [if_pos hx0]
      exact (by omega : ⌊x⌋ + 1 ≤ ⌊x⌋ + o).trans (le_max_left _ _)
    have h3 : ((⌊x⌋ + 1 : ℤ) : ℝ) ≤ n := by exact_mod_cast this
    push_cast at h3
    exact (Int.lt_floor_add_one x).le.trans h3
  rw [Real.exp_le_exp, neg_le_neg_iff]
  have e2 : 2 / 13 * Real.exp (3 - 0.33 * Real.logb 10 prec) * (min r1 r2 / (2 * r + d)) = 2 * x * (d / (2 * r + d)) := by
    rw [hx, show -(Real.logb 10 prec) * 0.33 + 3 = 3 - 0.33 * Real.logb 10 prec by ring]
    field_simp
  rw [e2]
  exact mul_le_mul_of_nonneg_right (by linarith) (by positivity)

/-! ## Examples -/

/-- Spheres of the radii 1 and 4 at the distance 1, precision `1e-4`, offset 4. -/
example : ∃ n : ℤ, getLmax 1 4 6 1e-4 4 = .ok n ∧ 1 ≤ n ∧
    Real.exp (-((2 * n + 1) * (1 / (2 * 1 + 1)))) ≤ Real.exp (-(2 / 13 * Real.exp (3 - 0.33 * Real.logb 10 1e-4) * (min 1 4 / (2 * 1 + 1)))) := by
  have hex : ∃ n, getLmax 1 4 6 1e-4 4 = .ok n := by
    unfold getLmax
    norm_num
  obtain ⟨n, hn⟩ := hex
  exact ⟨n, hn, C32_ge_one _ _ _ _ _ _ hn, C117_get_lmax (d := 1) (by norm_num) (by norm_num) (by norm_num) (by norm_num) (by norm_num) (by norm_num) hn one_pos⟩

theorem gold_fits : Fits goldPair 1.5 4.5 := ⟨by norm_num [goldPair], by norm_num [goldPair], by norm_num [goldPair], by norm_num [goldPair]⟩

/-- Gold spheres of the radii 1 and 4 at the distance 1, `lmax = lssmax = 20`: at each of 200 temperatures the free energy with `lmax = lssmax = 1000` differs
from the computed one at most by the given fractions of the bounds. -/
example : ∃ F F' : List ℝ, (freeEnergy ⟨0.01, 500, 200, true, .int 0, pairGeo exactBes (fun _ _ => 0) goldPair⟩ FT.fresh).1 = .ok F ∧
    (freeEnergy ⟨0.01, 500, 200, true, .int 0, pairGeo exactBes (fun _ _ => 0) (goldPair.cut 1000 1000)⟩ FT.fresh).1 = .ok F' ∧ F.length = 200 ∧ F'.length = 200 ∧
    ∀ (i : ℕ) (x y : ℝ), F[i]? = some x → F'[i]? = some y →
      |y - x| ≤ (2 / 3) ^ 41 * freeBound 1.5 4 6 ((i + 1) * 0.01) + (8 / 9) ^ 41 * freeBound 1 4.5 6 ((i + 1) * 0.01) := by
  obtain ⟨F, F', h1, h2, h3, h4, h5⟩ := C117_free_energy (p := ⟨0.01, 500, 200, true, .int 0, pairGeo exactBes (fun _ _ => 0) goldPair⟩) goldPair_ok le_rfl
    gold_fits (a := 1000) (b := 1000) (by norm_num [goldPair]) (by norm_num [goldPair]) le_rfl rfl rfl rfl rfl (by norm_num) (by norm_num)
  refine ⟨F, F', h1, h2, h3, h4, fun i x y hx hy => ?_⟩
  have := h5 i x y hx hy
  norm_num [goldPair] at this ⊢
  exact this

/-- Their energy at zero temperature, against the limit of infinite cut-offs. -/
example : ∃ v E, (∀ V : ℕ → ℝ, (∀ n, e0 exactQuad (pairAt exactBes (fun _ _ => 0) (goldPair.cut (n + 1) (n + 1))) 0 0 0 .inf = .ok (V n)) →
      Tendsto V atTop (𝓝 v)) ∧ e0 exactQuad (pairAt exactBes (fun _ _ => 0) goldPair) 0 0 0 .inf = .ok E ∧
    |v - E| ≤ (2 / 3) ^ 41 * zeroBound 1.5 4 6 0 + (8 / 9) ^ 41 * zeroBound 1 4.5 6 0 := by
  obtain ⟨v, h1, E, h2, h3⟩ := C117_zero_temperature_limit (frac := fun _ _ => 0) (deltaT := 0) (nmax := 0) goldPair_ok le_rfl gold_fits exactQuad_exact le_rfl
    (k1 := .inf) (by simp) (by simp)
  refine ⟨v, E, fun V hV => h1 (fun n => n + 1) (fun n => n + 1) (tendsto_add_atTop_nat 1) (fun n => by omega) (fun n => le_rfl) V hV, h2, ?_⟩
  norm_num [goldPair] at h3 ⊢
  exact h3

end CasSph
