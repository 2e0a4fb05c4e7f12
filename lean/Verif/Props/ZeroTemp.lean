import Verif.Lemmas.PairValue
import Verif.Lemmas.Riemann
import Verif.Lemmas.PFAExact
import Verif.Model.ZeroTemp

/-! # C104-C106: the energy at zero temperature, the limit of low temperatures, strict signs -/

namespace CasSph

open Spec Filter Topology MeasureTheory Set
open scoped Classical

variable {P : PairIn} {frac : ℝ → ℝ → ℝ} {q : Quad} {deltaT : ℝ} {nmax : ℤ}

theorem pairAt_ok (h : PairOK P) {k : ℝ} (hk : 0 < k) : pairAt exactBes frac P k = .ok (pairVal P k) := by
  unfold pairAt
  rw [if_neg hk.ne', pairVal_ok h hk]
  rfl

theorem sharpExp_tail {d : ℝ} (hd : 0 < d) {a : ℝ} (ha : 0 ≤ a) :
    ∫ k in Ioi a, sharpExp (k * d) = Real.arcsin (Real.exp (-(a * d))) / d := by
  have hc : Continuous fun k : ℝ => -Real.arcsin (Real.exp (-(k * d))) / d :=
    ((Real.continuous_arcsin.comp (by fun_prop)).neg).div_const d
  rw [integral_Ioi_of_hasDerivAt_of_nonneg hc.continuousWithinAt (fun x hx => sharpExp_deriv hd (ha.trans_lt hx)) (fun x _ => sharpExp_nonneg _)
    (sharpExp_lim hd)]
  ring

/-- Bound on the part of the energy at zero temperature from wavenumbers above `a`: radii and distance only. -/
noncomputable def zeroBound (r1 r2 L a : ℝ) : ℝ := freeC r1 r2 L * (Real.arcsin (Real.exp (-(a * (L - (r1 + r2))))) / (L - (r1 + r2)))

theorem pairVal_tail (h : PairOK P) {a : ℝ} (ha : 0 ≤ a) {s : Set ℝ} (hs : s ⊆ Ioi a) (hm : MeasurableSet s) :
    |∫ k in s, pairVal P k| ≤ zeroBound P.r1 P.r2 P.L a := by
  have hd : 0 < P.L - (P.r1 + P.r2) := sub_pos.mpr h.sep
  have hC := freeC_pos h.h1 h.h2 h.sep
  have hi : IntegrableOn (fun k => freeC P.r1 P.r2 P.L * sharpExp (k * (P.L - (P.r1 + P.r2)))) (Ioi a) :=
    IntegrableOn.mono_set ((sharpExp_integrable hd).const_mul _) (Ioi_subset_Ioi ha)
  unfold zeroBound
  rw [← sharpExp_tail hd ha, ← integral_const_mul]
  calc |∫ k in s, pairVal P k| ≤ ∫ k in s, freeC P.r1 P.r2 P.L * sharpExp (k * (P.L - (P.r1 + P.r2))) :=
        norm_integral_le_of_norm_le (f := pairVal P) (hi.mono_set hs) ((ae_restrict_iff' hm).mpr (.of_forall fun k hk => (pairVal_val h (ha.trans_lt (hs hk))).1))
    _ ≤ _ := setIntegral_mono_set hi (.of_forall fun k => mul_nonneg hC.le (sharpExp_nonneg _)) hs.eventuallyLE

/-- C104: with an exact integrator `e0` returns the integral of the values of `mSumme` at single wavenumbers. -/
theorem C104_integral (h : PairOK P) (hq : q.Exact) :
    ∃ f : ℝ → ℝ, (∀ k, 0 < k → pairVals exactBes P [k] = .ok [f k]) ∧ IntegrableOn f (Ioi 0) ∧
      (∀ a, 0 ≤ a → e0 q (pairAt exactBes frac P) deltaT nmax a .inf = .ok (∫ k in Ioi a, f k)) ∧
      (∀ a b, 0 ≤ a → a ≤ b → e0 q (pairAt exactBes frac P) deltaT nmax a (.num b) = .ok (∫ k in Ioo a b, f k)) ∧
      (∀ a, 0 ≤ a → a ≤ nmax * deltaT →
        e0 q (pairAt exactBes frac P) deltaT nmax a .none = .ok (∫ k in Ioo a (nmax * deltaT), f k)) := by
  have hi := pairVal_integrable h
  have hfin : ∀ a b, 0 ≤ a → a ≤ b → q.fin (pairAt exactBes frac P) a b = .ok (∫ k in Ioo a b, pairVal P k) := fun a b ha hab =>
    hq.fin _ _ a b hab (fun k hk _ => pairAt_ok h (ha.trans_lt hk)) (hi.mono_set fun k hk => ha.trans_lt hk.1)
  exact ⟨pairVal P, fun k hk => pairVal_ok h hk, hi,
    fun a ha => hq.inf _ _ a (fun k hk => pairAt_ok h (ha.trans_lt hk)) (hi.mono_set (Ioi_subset_Ioi ha)), hfin,
    fun a ha hab => hfin a _ ha hab⟩

/-- C104: size and sign. -/
theorem C104_energy (h : PairOK P) (hq : q.Exact) {a : ℝ} (ha : 0 ≤ a) {b : Upper} (hb : ∀ x, b = .num x → a ≤ x) (hb' : b = .none → a ≤ nmax * deltaT) :
    ∃ E, e0 q (pairAt exactBes frac P) deltaT nmax a b = .ok E ∧ |E| ≤ zeroBound P.r1 P.r2 P.L a ∧
      |E| ≤ freeC P.r1 P.r2 P.L * (Real.pi / (2 * (P.L - (P.r1 + P.r2)))) ∧
      (EqualContrast P.mat1 P.mat2 P.mat3 → E ≤ 0) ∧ (OppositeContrast P.mat1 P.mat2 P.mat3 → 0 ≤ E) := by
  have key : ∀ s : Set ℝ, s ⊆ Ioi a → MeasurableSet s → |∫ k in s, pairVal P k| ≤ zeroBound P.r1 P.r2 P.L a ∧
      |∫ k in s, pairVal P k| ≤ freeC P.r1 P.r2 P.L * (Real.pi / (2 * (P.L - (P.r1 + P.r2)))) ∧
      (EqualContrast P.mat1 P.mat2 P.mat3 → ∫ k in s, pairVal P k ≤ 0) ∧ (OppositeContrast P.mat1 P.mat2 P.mat3 → 0 ≤ ∫ k in s, pairVal P k) := by
    intro s hs hm
    refine ⟨pairVal_tail h ha hs hm, (pairVal_tail h le_rfl (hs.trans (Ioi_subset_Ioi ha)) hm).trans_eq ?_, fun hc => ?_, fun hc => ?_⟩
    · unfold zeroBound
      rw [zero_mul, neg_zero, Real.exp_zero, Real.arcsin_one, div_div]
    · refine setIntegral_nonpos hm fun k hk => ?_
      have hk := ha.trans_lt (hs hk)
      obtain ⟨σ, e1, e2⟩ := hc.finite k hk
      exact ((pairVal_val h hk).2 σ σ e1 e2).1 rfl
    · refine setIntegral_nonneg hm fun k hk => ?_
      have hk := ha.trans_lt (hs hk)
      obtain ⟨σ, e1, e2⟩ := hc.finite k hk
      refine ((pairVal_val h hk).2 σ (-σ) e1 e2).2 fun e => ?_
      rcases e1 with e1 | e1 <;> linarith [e1.1]
  have hi := pairVal_integrable h
  have hfin : ∀ b, a ≤ b → q.fin (pairAt exactBes frac P) a b = .ok (∫ k in Ioo a b, pairVal P k) := fun b hab =>
    hq.fin _ _ a b hab (fun k hk _ => pairAt_ok h (ha.trans_lt hk)) (hi.mono_set fun k hk => ha.trans_lt hk.1)
  cases b with
  | num b => exact ⟨_, hfin b (hb b rfl), key _ Ioo_subset_Ioi_self measurableSet_Ioo⟩
  | inf => exact ⟨_, hq.inf _ _ a (fun k hk => pairAt_ok h (ha.trans_lt hk)) (hi.mono_set (Ioi_subset_Ioi ha)), key _ subset_rfl measurableSet_Ioi⟩
  | none => exact ⟨_, hfin _ (hb' rfl), key _ Ioo_subset_Ioi_self measurableSet_Ioo⟩

/-- C104: the energy splits at any wavenumber, and the part above a finite upper bound is exponentially small. -/
theorem C104_cutoff (h : PairOK P) (hq : q.Exact) {a b : ℝ} (ha : 0 ≤ a) (hab : a ≤ b) :
    ∃ E F G, e0 q (pairAt exactBes frac P) deltaT nmax a .inf = .ok E ∧ e0 q (pairAt exactBes frac P) deltaT nmax a (.num b) = .ok F ∧
      e0 q (pairAt exactBes frac P) deltaT nmax b .inf = .ok G ∧ E = F + G ∧ |E - F| ≤ zeroBound P.r1 P.r2 P.L b := by
  obtain ⟨f, hf, hi, h1, h2, -⟩ := C104_integral (frac := frac) (deltaT := deltaT) (nmax := nmax) h hq
  obtain ⟨G, hG, hGb, -⟩ := C104_energy (frac := frac) (deltaT := deltaT) (nmax := nmax) h hq (ha.trans hab) (b := .inf) (by simp) (by simp)
  have e := hG
  rw [h1 b (ha.trans hab)] at e
  injection e with e
  have hsum : ∫ k in Ioi a, f k = (∫ k in Ioo a b, f k) + G := by
    rw [← e, ← integral_Ioc_eq_integral_Ioo, ← Ioc_union_Ioi_eq_Ioi hab, setIntegral_union (Ioc_disjoint_Ioi le_rfl) measurableSet_Ioi]
    · exact hi.mono_set fun k hk => ha.trans_lt hk.1
    · exact hi.mono_set (Ioi_subset_Ioi (ha.trans hab))
  refine ⟨_, _, G, h1 a ha, h2 a b ha hab, hG, hsum, ?_⟩
  rw [hsum, add_sub_cancel_left]
  exact hGb

/-- C104: `b=None` gives the same result as the upper bound `nmax*deltaT`. -/
theorem C104_none (f : ℝ → Res ℝ) (a : ℝ) : e0 q f deltaT nmax a .none = e0 q f deltaT nmax a (.num (nmax * deltaT)) := rfl

/-! ## Low temperatures -/

theorem sliceVal_sum (h : PairOK P) (hp : P.precision ≤ 0) {deltaT : ℝ} (hT : 0 < deltaT) {N n : ℕ} (hn : 1 ≤ n) (hN : n ≤ N) :
    sliceVal (pairGeo exactBes frac P) deltaT N n = pairSum P (deltaT * n) := by
  obtain ⟨k1, k2, k3⟩ := sliceKs_mem hT hn hN
  unfold sliceVal pairGeo
  simp only
  rw [pairVals_sum h hp k1 k2]
  simp only
  rw [List.getD_eq_getElem?_getD, List.getElem?_map, k3]
  rfl

/-- C105: if the sums over `m` are complete (`precision ≤ 0`), the free energy at `i` times the temperature step, computed with
steps that go to zero and with `nmax` so large that `nmax*deltaT` goes to infinity, converges to the energy `e0` at zero
temperature. -/
theorem C105_low_temperature (h : PairOK P) (hq : q.Exact) (hprec : P.precision ≤ 0) {p : ℕ → FTParams}
    (hg : ∀ j, (p j).geo = pairGeo exactBes frac P) (hp : ∀ j, (p j).nprocs.isZero) (ha : ∀ j, (p j).analyticN0 = true)
    (hT : ∀ j, 0 < (p j).deltaT) (hT0 : Tendsto (fun j => (p j).deltaT) atTop (𝓝 0)) (hN : ∀ j, 0 ≤ (p j).nmax)
    (hNT : Tendsto (fun j => (p j).nmax * (p j).deltaT) atTop atTop) {i : ℕ} (hi : ∀ j, (i : ℤ) < (p j).maxstep) {F : ℕ → List ℝ}
    (hF : ∀ j, (freeEnergy (p j) FT.fresh).1 = .ok (F j)) :
    ∃ E, e0 q (pairAt exactBes frac P) deltaT nmax 0 .inf = .ok E ∧ Tendsto (fun j => (F j).getD i 0) atTop (𝓝 E) := by
  have hd : 0 < P.L - (P.r1 + P.r2) := sub_pos.mpr h.sep
  have hC := freeC_pos h.h1 h.h2 h.sep
  obtain ⟨z, hz, -⟩ := C100_mSumme_k0 h frac
  have hi0 : (0 : ℝ) < (i + 1 : ℕ) := by positivity
  have hval : ∀ j, (F j).getD i 0 = (i + 1 : ℕ) * (p j).deltaT * (0.5 * z) + (i + 1 : ℕ) * (p j).deltaT *
      ∑ n ∈ Finset.range ((p j).nmax.toNat / (i + 1)), pairSum P ((n + 1) * ((i + 1 : ℕ) * (p j).deltaT)) := by
    intro j
    obtain ⟨G, hG, -, hval⟩ := freeEnergy_slices (p j) (z := z) (by rw [hg]; exact pairGeo_valsOk h) (by rw [hg]; exact hz) (hp j) (ha j) (hT j)
      (N := (p j).nmax.toNat) (Int.toNat_of_nonneg (hN j)).symm
    rw [hF j] at hG
    injection hG with hG
    have := hval (i + 1) (by omega) (by have := hi j; push_cast; omega)
    rw [Nat.add_sub_cancel, ← hG] at this
    rw [List.getD_eq_getElem?_getD, this, Option.getD_some, mul_add, hg]
    congr 2
    refine Finset.sum_congr rfl fun n hn => ?_
    rw [sliceVal_sum h hprec (hT j) (Nat.one_le_iff_ne_zero.mpr (by positivity))
      ((Nat.mul_le_mul_right _ (Finset.mem_range.mp hn)).trans (Nat.div_mul_le_self _ _))]
    congr 1
    push_cast
    ring
  refine ⟨∫ k in Ioi (0 : ℝ), pairVal P k, hq.inf _ _ 0 (fun k hk => pairAt_ok h hk) (pairVal_integrable h), ?_⟩
  have hsum : ∫ k in Ioi (0 : ℝ), pairVal P k = ∫ k in Ioi (0 : ℝ), pairSum P k :=
    setIntegral_congr_fun measurableSet_Ioi fun k hk => pairVal_sum h hprec hk
  have hT' : Tendsto (fun j => (i + 1 : ℕ) * (p j).deltaT) atTop (𝓝 0) := by simpa using hT0.const_mul ((i + 1 : ℕ) : ℝ)
  have hlim := riemann_limit (f := pairSum P) (g := fun k => freeC P.r1 P.r2 P.L * sharpExp (k * (P.L - (P.r1 + P.r2))))
    (fun k hk => pairSum_cont h hk)
    (fun k k' hk hkk => mul_le_mul_of_nonneg_left (sharpExp_anti (by positivity) (mul_le_mul_of_nonneg_right hkk hd.le)) hC.le)
    ((sharpExp_integrable hd).const_mul _) (fun k hk => by rw [← pairVal_sum h hprec hk]; exact (pairVal_val h hk).1)
    (T := fun j => (i + 1 : ℕ) * (p j).deltaT) (N := fun j => (p j).nmax.toNat / (i + 1)) (fun j => mul_pos hi0 (hT j)) hT' ?_
  · rw [hsum]
    have := (hT'.mul_const (0.5 * z)).add hlim
    rw [zero_mul, zero_add] at this
    exact this.congr fun j => (hval j).symm
  · have h1 : Tendsto (fun j => (p j).nmax * (p j).deltaT - (i + 1 : ℕ) * (p j).deltaT) atTop atTop := by
      simpa [sub_eq_add_neg] using hNT.atTop_add hT'.neg
    refine tendsto_atTop_mono (fun j => ?_) h1
    have e : ((p j).nmax : ℝ) = ((p j).nmax.toNat : ℝ) := by
      have := Int.toNat_of_nonneg (hN j)
      exact_mod_cast this.symm
    have h2 : (p j).nmax.toNat ≤ (p j).nmax.toNat / (i + 1) * (i + 1) + (i + 1) := by
      have := Nat.div_add_mod (p j).nmax.toNat (i + 1)
      have := Nat.mod_lt (p j).nmax.toNat (by omega : 0 < i + 1)
      rw [mul_comm (_ / _)]
      omega
    have h3 : ((p j).nmax.toNat : ℝ) ≤ ((p j).nmax.toNat / (i + 1) : ℕ) * ((i + 1 : ℕ) : ℝ) + (i + 1 : ℕ) := by exact_mod_cast h2
    rw [e, ← sub_mul, ← mul_assoc]
    exact mul_le_mul_of_nonneg_right (by linarith) (hT j).le

/-! ## Strict signs -/

/-- C106: a wavenumber at which both spheres can be distinguished from the medium contributes with a strict sign; one at which
a sphere cannot be distinguished does not contribute. -/
theorem C106_mSumme (h : PairOK P) {ks : List ℝ} (hne : ks ≠ []) (hk : ∀ k ∈ ks, 0 < k) :
    ∃ vs, pairVals exactBes P ks = .ok vs ∧ vs.length = ks.length ∧ ∀ (j : ℕ) (k x : ℝ), ks[j]? = some k → vs[j]? = some x →
      (HasContrast P.mat1 P.mat3 k → HasContrast P.mat2 P.mat3 k →
        (EqualContrast P.mat1 P.mat2 P.mat3 → x < 0) ∧ (OppositeContrast P.mat1 P.mat2 P.mat3 → 0 < x)) ∧
      (¬ (HasContrast P.mat1 P.mat3 k ∧ HasContrast P.mat2 P.mat3 k) → x = 0) := by
  have hd : 0 < ks.length := List.length_pos_iff.mpr hne
  have hm : ∀ m ≤ P.lmax, max 1 m ≤ P.lmax := fun m hm => by have := h.hl; omega
  obtain ⟨M, h1, h2, -⟩ := C13_mSumme hd (lmax := P.lmax) (precision := P.precision)
    (L := fun m => .ok fun i : Fin ks.length => lnDetV P m (ks.get i)) (v := fun m i => lnDetV P m (ks.get i)) fun _ _ => rfl
  refine ⟨_, by rw [pairVals_eq h hne hk, h1, ok_bind], by simp, fun j k x hj hx => ?_⟩
  have hlt : j < ks.length := by
    by_contra hh
    rw [List.getElem?_eq_none (by omega)] at hj
    simp at hj
  rw [List.getElem?_eq_getElem hlt] at hj
  injection hj with hj
  rw [List.getElem?_ofFn, dif_pos hlt] at hx
  injection hx with hx
  have hxe : x = lnDetV P 0 k + 2 * ∑ m ∈ Finset.Icc 1 M, lnDetV P m k := by
    rw [← hx, ← hj]; rfl
  have hk0 : 0 < k := by rw [← hj]; exact hk _ (List.getElem_mem hlt)
  rw [hxe]
  refine ⟨fun c1 c2 => ⟨fun hc => ?_, fun hc => ?_⟩, fun hc => ?_⟩
  · obtain ⟨σ, e1, e2⟩ := hc.finite k hk0
    have hs := fun m hm' => (lnDetV_strict h (hm m hm') hk0 c1 c2 e1 e2).1 rfl
    have := hs 0 (by omega)
    have := Finset.sum_nonpos fun m (hm' : m ∈ Finset.Icc 1 M) => (hs m ((Finset.mem_Icc.mp hm').2.trans h2)).le
    linarith
  · obtain ⟨σ, e1, e2⟩ := hc.finite k hk0
    have hσ : σ ≠ -σ := fun e => by rcases e1 with e1 | e1 <;> linarith [e1.1]
    have hs := fun m hm' => (lnDetV_strict h (hm m hm') hk0 c1 c2 e1 e2).2 hσ
    have := hs 0 (by omega)
    have := Finset.sum_nonneg fun m (hm' : m ∈ Finset.Icc 1 M) => (hs m ((Finset.mem_Icc.mp hm').2.trans h2)).le
    linarith
  · simp only [lnDetV_zero h hk0 hc, Finset.sum_const_zero]
    norm_num

theorem sliceVal_strict (h : PairOK P) {deltaT : ℝ} (hT : 0 < deltaT) {N n : ℕ} (hn : 1 ≤ n) (hN : n ≤ N)
    (c1 : HasContrast P.mat1 P.mat3 (deltaT * n)) (c2 : HasContrast P.mat2 P.mat3 (deltaT * n)) :
    (EqualContrast P.mat1 P.mat2 P.mat3 → sliceVal (pairGeo exactBes frac P) deltaT N n < 0) ∧
    (OppositeContrast P.mat1 P.mat2 P.mat3 → 0 < sliceVal (pairGeo exactBes frac P) deltaT N n) := by
  obtain ⟨k1, k2, k3⟩ := sliceKs_mem hT hn hN
  obtain ⟨vs, h1, h2, h3⟩ := C106_mSumme h k1 k2
  have hlt : n - sliceLo n < vs.length := by
    rw [h2]
    by_contra hh
    rw [List.getElem?_eq_none (by omega)] at k3
    simp at k3
  have hx : vs[n - sliceLo n]? = some (vs.getD (n - sliceLo n) 0) := by
    rw [List.getD_eq_getElem?_getD, List.getElem?_eq_getElem hlt]; rfl
  have e : sliceVal (pairGeo exactBes frac P) deltaT N n = vs.getD (n - sliceLo n) 0 := by
    unfold sliceVal pairGeo
    simp only
    rw [h1]
  rw [e]
  exact (h3 _ _ _ k3 hx).1 c1 c2

/-- C106: a temperature whose first Matsubara frequency is not cut off and at which both spheres differ from the medium has a
free energy with a strict sign. -/
theorem C106_free_energy {p : FTParams} (h : PairOK P) (hg : p.geo = pairGeo exactBes frac P) (hp : p.nprocs.isZero)
    (ha : p.analyticN0 = true) (hT : 0 < p.deltaT) (hN : 0 ≤ p.nmax) :
    ∃ F : List ℝ, (freeEnergy p FT.fresh).1 = .ok F ∧ F.length = p.maxstep.toNat ∧ ∀ (i : ℕ) (x : ℝ), F[i]? = some x → (i : ℤ) + 1 ≤ p.nmax →
      HasContrast P.mat1 P.mat3 ((i + 1) * p.deltaT) → HasContrast P.mat2 P.mat3 ((i + 1) * p.deltaT) →
        (EqualContrast P.mat1 P.mat2 P.mat3 → x < 0) ∧ (OppositeContrast P.mat1 P.mat2 P.mat3 → 0 < x) := by
  obtain ⟨z, hz, -, hz1, hz2⟩ := C100_mSumme_k0 h frac
  obtain ⟨N, hN⟩ := Int.eq_ofNat_of_zero_le hN
  obtain ⟨F, hF, hlen, hval⟩ := freeEnergy_slices p (z := z) (hg ▸ pairGeo_valsOk h) (by rw [hg]; exact hz) hp ha hT hN
  refine ⟨F, hF, hlen, fun i x hx hi c1 c2 => ?_⟩
  have hlt : i < F.length := by
    by_contra hh
    rw [List.getElem?_eq_none (by omega)] at hx
    simp at hx
  have := hval (i + 1) (by omega) (by omega)
  rw [Nat.add_sub_cancel, hx, hg] at this
  injection this with this
  have hpos : (0 : ℝ) < (i + 1 : ℕ) * p.deltaT := by positivity
  have hNi : 0 < N / (i + 1) := Nat.div_pos (by omega) (by omega)
  have hmul : ∀ j ∈ Finset.range (N / (i + 1)), 1 ≤ (j + 1) * (i + 1) ∧ (j + 1) * (i + 1) ≤ N := fun j hj =>
    ⟨Nat.one_le_iff_ne_zero.mpr (by positivity), (Nat.mul_le_mul_right _ (Finset.mem_range.mp hj)).trans (Nat.div_mul_le_self _ _)⟩
  have e : ((i : ℝ) + 1) * p.deltaT = p.deltaT * ((0 + 1) * (i + 1) : ℕ) := by push_cast; ring
  rw [e] at c1 c2
  have h0 := hmul 0 (Finset.mem_range.mpr hNi)
  rw [this]
  refine ⟨fun hc => mul_neg_of_pos_of_neg hpos ?_, fun hc => mul_pos hpos ?_⟩
  · have s1 := Finset.sum_neg' (fun j hj => (pairGeo_slice (frac := frac) h hT (hmul j hj).1 (hmul j hj).2).2.1 hc)
      ⟨0, Finset.mem_range.mpr hNi, (sliceVal_strict (frac := frac) h hT h0.1 h0.2 c1 c2).1 hc⟩
    have := hz1 hc
    linarith
  · have s1 := Finset.sum_pos' (fun j hj => (pairGeo_slice (frac := frac) h hT (hmul j hj).1 (hmul j hj).2).2.2 hc)
      ⟨0, Finset.mem_range.mpr hNi, (sliceVal_strict (frac := frac) h hT h0.1 h0.2 c1 c2).2 hc⟩
    have := hz2 hc
    linarith

theorem pairVal_strict (h : PairOK P) {k : ℝ} (hk : 0 < k) (c1 : HasContrast P.mat1 P.mat3 k) (c2 : HasContrast P.mat2 P.mat3 k) :
    (EqualContrast P.mat1 P.mat2 P.mat3 → pairVal P k < 0) ∧ (OppositeContrast P.mat1 P.mat2 P.mat3 → 0 < pairVal P k) := by
  obtain ⟨vs, h1, -, h2⟩ := C106_mSumme h (ks := [k]) (by simp) (by simpa using hk)
  rw [pairVal_ok h hk] at h1
  injection h1 with h1
  subst h1
  exact (h2 0 k _ rfl rfl).1 c1 c2

/-- C106: if both spheres differ from the medium at all wavenumbers, the energy at zero temperature has a strict sign. -/
theorem C106_zero_temperature (h : PairOK P) (hq : q.Exact) (c1 : ∀ k, 0 < k → HasContrast P.mat1 P.mat3 k)
    (c2 : ∀ k, 0 < k → HasContrast P.mat2 P.mat3 k) {a : ℝ} (ha : 0 ≤ a) {b : Upper} (hb : ∀ x, b = .num x → a < x)
    (hb' : b = .none → a < nmax * deltaT) :
    ∃ E, e0 q (pairAt exactBes frac P) deltaT nmax a b = .ok E ∧
      (EqualContrast P.mat1 P.mat2 P.mat3 → E < 0) ∧ (OppositeContrast P.mat1 P.mat2 P.mat3 → 0 < E) := by
  have hi := pairVal_integrable h
  have key : ∀ s : Set ℝ, s ⊆ Ioi a → MeasurableSet s → 0 < volume s →
      (EqualContrast P.mat1 P.mat2 P.mat3 → ∫ k in s, pairVal P k < 0) ∧ (OppositeContrast P.mat1 P.mat2 P.mat3 → 0 < ∫ k in s, pairVal P k) := by
    intro s hs hm hv
    have hpos : ∀ k ∈ s, 0 < k := fun k hk => ha.trans_lt (hs hk)
    have his : IntegrableOn (pairVal P) s := hi.mono_set hpos
    refine ⟨fun hc => ?_, fun hc => ?_⟩
    · have hst : ∀ k ∈ s, 0 < -pairVal P k := fun k hk => neg_pos.mpr ((pairVal_strict h (hpos k hk) (c1 k (hpos k hk)) (c2 k (hpos k hk))).1 hc)
      have := (setIntegral_pos_iff_support_of_nonneg_ae (f := fun k => -pairVal P k)
        ((ae_restrict_iff' hm).mpr (.of_forall fun k hk => (hst k hk).le)) his.neg).mpr
        (hv.trans_le (measure_mono fun k hk => ⟨(hst k hk).ne', hk⟩))
      rw [integral_neg] at this
      linarith
    · have hst : ∀ k ∈ s, 0 < pairVal P k := fun k hk => (pairVal_strict h (hpos k hk) (c1 k (hpos k hk)) (c2 k (hpos k hk))).2 hc
      exact (setIntegral_pos_iff_support_of_nonneg_ae
        ((ae_restrict_iff' hm).mpr (.of_forall fun k hk => (hst k hk).le)) his).mpr
        (hv.trans_le (measure_mono fun k hk => ⟨(hst k hk).ne', hk⟩))
  have hfin : ∀ b, a < b → q.fin (pairAt exactBes frac P) a b = .ok (∫ k in Ioo a b, pairVal P k) := fun b hab =>
    hq.fin _ _ a b hab.le (fun k hk _ => pairAt_ok h (ha.trans_lt hk)) (hi.mono_set fun k hk => ha.trans_lt hk.1)
  have hvol : ∀ b, a < b → 0 < volume (Ioo a b) := fun b hab => by rw [Real.volume_Ioo]; exact ENNReal.ofReal_pos.mpr (by linarith)
  cases b with
  | num b => exact ⟨_, hfin b (hb b rfl), key _ Ioo_subset_Ioi_self measurableSet_Ioo (hvol _ (hb b rfl))⟩
  | inf =>
    exact ⟨_, hq.inf _ _ a (fun k hk => pairAt_ok h (ha.trans_lt hk)) (hi.mono_set (Ioi_subset_Ioi ha)), key _ subset_rfl measurableSet_Ioi
      (by rw [Real.volume_Ioi]; exact ENNReal.zero_lt_top)⟩
  | none => exact ⟨_, hfin _ (hb' rfl), key _ Ioo_subset_Ioi_self measurableSet_Ioo (hvol _ (hb' rfl))⟩

/-! ## Examples -/

/-- Gold can be distinguished from vacuum at every wavenumber. -/
theorem gold_contrast {k : ℝ} (hk : 0 < k) : HasContrast ⟨.lorentz, eGold, none⟩ ⟨.lorentz, [], none⟩ k := by
  right
  rw [epsV_lorentz rfl gold_physical hk, epsV_lorentz rfl vac_diel.2 hk]
  simp only [List.map_nil, List.sum_nil, add_zero]
  have hp : Osc.nonneg ⟨1.37e16, 0, 5.77e13⟩ := gold_physical.osc _ (by simp [eGold])
  have : 0 < lorT k ⟨1.37e16, 0, 5.77e13⟩ :=
    div_pos (pow_pos (div_pos (by norm_num) omegaNorm_pos) 2) (lorDen_pos hk hp)
  simp only [eGold, List.map_cons, List.map_nil, List.sum_cons, List.sum_nil, add_zero]
  linarith

/-- Two gold spheres in vacuum attract each other at zero temperature. -/
example : ∃ E, e0 exactQuad (pairAt exactBes (fun _ _ => 0)
      ⟨⟨.lorentz, eGold, none⟩, ⟨.lorentz, eGold, none⟩, ⟨.lorentz, [], none⟩, 1, 4, 6, 20, 25, 1e-4⟩) 0.01 500 0 .inf = .ok E ∧ E < 0 := by
  have h : PairOK ⟨⟨.lorentz, eGold, none⟩, ⟨.lorentz, eGold, none⟩, ⟨.lorentz, [], none⟩, 1, 4, 6, 20, 25, 1e-4⟩ :=
    ⟨gold_sphere, gold_sphere, ⟨vac_diel.1, vac_diel.2, rfl⟩, by norm_num, by norm_num, by norm_num, by norm_num, by norm_num⟩
  obtain ⟨E, hE, h1, -⟩ := C106_zero_temperature (frac := fun _ _ => 0) (deltaT := 0.01) (nmax := 500) h exactQuad_exact
    (fun k hk => gold_contrast hk) (fun k hk => gold_contrast hk) le_rfl (b := .inf) (by simp) (by simp)
  exact ⟨E, hE, h1 (equalContrast_same h.m1 h.m3)⟩

/-- Gold spheres in water, complete sums over `m`, steps `1/(j+1)` and `nmax = (j+1)²`. -/
noncomputable def coldParams (j : ℕ) : FTParams :=
  ⟨1 / ((j : ℝ) + 1), ((j + 1) ^ 2 : ℕ), 7, true, .int 0, pairGeo exactBes (fun _ _ => 0)
    ⟨⟨.lorentz, eGold, none⟩, ⟨.lorentz, eGold, none⟩, ⟨.lorentz, eWater, none⟩, 1, 4, 6, 20, 25, 0⟩⟩

/-- The hypotheses of C105 hold for them, and the limit is not positive. -/
example : ∃ (F : ℕ → List ℝ) (E : ℝ), (∀ j, (freeEnergy (coldParams j) FT.fresh).1 = .ok (F j)) ∧
    Tendsto (fun j => (F j).getD 3 0) atTop (𝓝 E) ∧ E ≤ 0 := by
  have h : PairOK ⟨⟨.lorentz, eGold, none⟩, ⟨.lorentz, eGold, none⟩, ⟨.lorentz, eWater, none⟩, 1, 4, 6, 20, 25, 0⟩ :=
    ⟨gold_sphere, gold_sphere, water_medium, by norm_num, by norm_num, by norm_num, by norm_num, by norm_num⟩
  have hT : ∀ j : ℕ, 0 < (coldParams j).deltaT := fun j => by unfold coldParams; positivity
  have hN : ∀ j : ℕ, 0 ≤ (coldParams j).nmax := fun j => by unfold coldParams; positivity
  choose F hF _ using fun j : ℕ => C100_free_energy (frac := fun _ _ => 0) (p := coldParams j) h rfl rfl rfl (hT j) (hN j)
  obtain ⟨E', hE', -, -, hs, -⟩ := C104_energy (frac := fun _ _ => 0) (deltaT := 0) (nmax := 0) h exactQuad_exact le_rfl (b := .inf) (by simp) (by simp)
  obtain ⟨E, hE, hlim⟩ := C105_low_temperature (p := coldParams) (i := 3) (F := F) (frac := fun _ _ => 0) (deltaT := 0) (nmax := 0) h exactQuad_exact
    le_rfl (fun _ => rfl) (fun _ => rfl) (fun _ => rfl) hT tendsto_one_div_add_atTop_nhds_zero_nat hN
    (by
      refine ((tendsto_natCast_atTop_atTop (R := ℝ)).atTop_add (tendsto_const_nhds (x := (1 : ℝ)))).congr fun j => ?_
      unfold coldParams
      push_cast
      field_simp)
    (fun _ => by unfold coldParams; norm_num) hF
  rw [hE] at hE'
  injection hE' with e
  exact ⟨F, E, hF, hlim, e ▸ hs (equalContrast_same gold_sphere water_medium)⟩

end CasSph
