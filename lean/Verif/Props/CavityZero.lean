import Verif.Lemmas.CavityCont
import Verif.Props.CavityFree
import Verif.Props.CutOff
import Verif.Model.CavityZero

/-! # C124: energy at zero temperature of a sphere inside a spherical cavity -/

namespace CasSph

open Spec Filter Topology MeasureTheory Set
open scoped Classical

section
variable {P : PairIn} {k : ℝ} {frac : ℝ → ℝ → ℝ} {lnK : ℝ → ℕ → ℝ} {q : Quad} {deltaT : ℝ} {nmax : ℤ}

theorem geoAt_ok (h : CavOK P) (hk : 0 < k) : geoAt exactBes frac lnK P k = .ok (cavVal P k) := by
  unfold geoAt
  rw [if_neg hk.ne', h.val_ok hk]
  rfl

/-- The wavenumbers over which `e0` integrates. -/
def e0Range (deltaT : ℝ) (nmax : ℤ) (a : ℝ) : Upper → Set ℝ
  | .num x => Ioo a x
  | .inf => Ioi a
  | .none => Ioo a (nmax * deltaT)

theorem e0Range_sub (a : ℝ) (b : Upper) : e0Range deltaT nmax a b ⊆ Ioi a ∧ MeasurableSet (e0Range deltaT nmax a b) := by
  cases b with
  | num b => exact ⟨fun k hk => hk.1, measurableSet_Ioo⟩
  | inf => exact ⟨fun k hk => hk, measurableSet_Ioi⟩
  | none => exact ⟨fun k hk => hk.1, measurableSet_Ioo⟩

/-- **C124, integral.** With an exact integrator `e0` returns the integral of the values of `mSumme` at single wavenumbers, which are integrable up to
infinity. -/
theorem C124_integral (h : CavOK P) (hq : q.Exact) :
    ∃ f : ℝ → ℝ, (∀ k, 0 < k → geoVals exactBes P [k] = .ok [f k]) ∧ IntegrableOn f (Ioi 0) ∧
      (∀ a, 0 ≤ a → e0 q (geoAt exactBes frac lnK P) deltaT nmax a .inf = .ok (∫ k in Ioi a, f k)) ∧
      (∀ a b, 0 ≤ a → a ≤ b → e0 q (geoAt exactBes frac lnK P) deltaT nmax a (.num b) = .ok (∫ k in Ioo a b, f k)) ∧
      (∀ a, 0 ≤ a → a ≤ nmax * deltaT →
        e0 q (geoAt exactBes frac lnK P) deltaT nmax a .none = .ok (∫ k in Ioo a (nmax * deltaT), f k)) := by
  have hi := h.val_integrable
  have hfin : ∀ a b, 0 ≤ a → a ≤ b → q.fin (geoAt exactBes frac lnK P) a b = .ok (∫ k in Ioo a b, cavVal P k) := fun a b ha hab =>
    hq.fin _ _ a b hab (fun k hk _ => geoAt_ok h (ha.trans_lt hk)) (hi.mono_set fun k hk => ha.trans_lt hk.1)
  exact ⟨cavVal P, fun k hk => h.val_ok hk, hi,
    fun a ha => hq.inf _ _ a (fun k hk => geoAt_ok h (ha.trans_lt hk)) (hi.mono_set (Ioi_subset_Ioi ha)), hfin,
    fun a ha hab => hfin a _ ha hab⟩

theorem cav_e0_value (h : CavOK P) (hq : q.Exact) {a : ℝ} (ha : 0 ≤ a) {b : Upper} (hb : ∀ x, b = .num x → a ≤ x) (hb' : b = .none → a ≤ nmax * deltaT) :
    e0 q (geoAt exactBes frac lnK P) deltaT nmax a b = .ok (∫ k in e0Range deltaT nmax a b, cavVal P k) := by
  have hi := h.val_integrable
  have hfin : ∀ b, a ≤ b → q.fin (geoAt exactBes frac lnK P) a b = .ok (∫ k in Ioo a b, cavVal P k) := fun b hab =>
    hq.fin _ _ a b hab (fun k hk _ => geoAt_ok h (ha.trans_lt hk)) (hi.mono_set fun k hk => ha.trans_lt hk.1)
  cases b with
  | num b => exact hfin b (hb b rfl)
  | inf => exact hq.inf _ _ a (fun k hk => geoAt_ok h (ha.trans_lt hk)) (hi.mono_set (Ioi_subset_Ioi ha))
  | none => exact hfin _ (hb' rfl)

/-- Bound on the energy in a cavity from the wavenumbers above `a`: `18 e^{-a d}/(d (1 - q)³)` with the smallest distance `d` between sphere and wall
and `q = r1/(r2 - L)`. -/
noncomputable def cavZero (P : PairIn) (a : ℝ) : ℝ := 18 * Real.exp (-(a * cavGap P)) / (cavGap P * (1 - cavRatio P) ^ 3)

theorem cav_tail (h : CavOK P) {a : ℝ} (ha : 0 ≤ a) {s : Set ℝ} (hs : s ⊆ Ioi a) (hm : MeasurableSet s) : |∫ k in s, cavVal P k| ≤ cavZero P a := by
  unfold cavZero
  rw [← cavExp_integral h]
  calc |∫ k in s, cavVal P k| ≤ ∫ k in s, cavExp P k :=
        norm_integral_le_of_norm_le (f := cavVal P) ((cavExp_integrable h a).mono_set hs)
          ((ae_restrict_iff' hm).mpr (.of_forall fun k hk => (h.val_bound (ha.trans_lt (hs hk))).1))
    _ ≤ _ := setIntegral_mono_set (cavExp_integrable h a) (.of_forall fun k => (cavExp_pos h k).le) hs.eventuallyLE

theorem PairIn.Same.val (h : CavOK P) (hc : P.Same) (hk : 0 < k) : cavVal P k ≤ 0 := by
  obtain ⟨σ, ea, eb⟩ := hc k hk
  exact ((h.val_bound hk).2 σ σ ea eb).1 rfl

theorem PairIn.Opposite.val (h : CavOK P) (hc : P.Opposite) (hk : 0 < k) : 0 ≤ cavVal P k := by
  obtain ⟨σ, ea, eb⟩ := hc k hk
  refine ((h.val_bound hk).2 σ (-σ) ea eb).2 ?_
  rcases ea with ⟨e, -⟩ | ⟨e, -⟩ <;> subst e <;> norm_num

/-- **C124, size and sign.** -/
theorem C124_energy (h : CavOK P) (hq : q.Exact) {a : ℝ} (ha : 0 ≤ a) {b : Upper} (hb : ∀ x, b = .num x → a ≤ x) (hb' : b = .none → a ≤ nmax * deltaT) :
    ∃ E, e0 q (geoAt exactBes frac lnK P) deltaT nmax a b = .ok E ∧ |E| ≤ cavZero P a ∧ (P.Same → E ≤ 0) ∧ (P.Opposite → 0 ≤ E) := by
  obtain ⟨s1, s2⟩ := e0Range_sub (deltaT := deltaT) (nmax := nmax) a b
  exact ⟨_, cav_e0_value h hq ha hb hb', cav_tail h ha s1 s2,
    fun hc => setIntegral_nonpos s2 fun k hk => hc.val h (ha.trans_lt (s1 hk)), fun hc => setIntegral_nonneg s2 fun k hk => hc.val h (ha.trans_lt (s1 hk))⟩

/-- **C124, cut-off.** The energy splits at any wavenumber, and the part above a finite upper bound is exponentially small. -/
theorem C124_cutoff (h : CavOK P) (hq : q.Exact) {a b : ℝ} (ha : 0 ≤ a) (hab : a ≤ b) :
    ∃ E F G, e0 q (geoAt exactBes frac lnK P) deltaT nmax a .inf = .ok E ∧ e0 q (geoAt exactBes frac lnK P) deltaT nmax a (.num b) = .ok F ∧
      e0 q (geoAt exactBes frac lnK P) deltaT nmax b .inf = .ok G ∧ E = F + G ∧ |E - F| ≤ cavZero P b := by
  have hi := h.val_integrable
  have hsum : ∫ k in Ioi a, cavVal P k = (∫ k in Ioo a b, cavVal P k) + ∫ k in Ioi b, cavVal P k := by
    rw [← integral_Ioc_eq_integral_Ioo, ← Ioc_union_Ioi_eq_Ioi hab, setIntegral_union (Ioc_disjoint_Ioi le_rfl) measurableSet_Ioi]
    · exact hi.mono_set fun k hk => ha.trans_lt hk.1
    · exact hi.mono_set (Ioi_subset_Ioi (ha.trans hab))
  refine ⟨_, _, _, cav_e0_value h hq ha (b := .inf) (by simp) (by simp), cav_e0_value h hq ha (b := .num b) (fun x hx => by cases hx; exact hab) (by simp),
    cav_e0_value h hq (ha.trans hab) (b := .inf) (by simp) (by simp), hsum, ?_⟩
  show |(∫ k in Ioi a, cavVal P k) - ∫ k in Ioo a b, cavVal P k| ≤ _
  rw [hsum, add_sub_cancel_left]
  exact cav_tail h (ha.trans hab) subset_rfl measurableSet_Ioi

/-! ## Strict signs -/

theorem CavOK.val_strict (h : CavOK P) (hk : 0 < k) (c1 : HasContrast P.mat1 P.mat3 k) (c2 : HasContrast P.mat2 P.mat3 k) :
    (P.Same → cavVal P k < 0) ∧ (P.Opposite → 0 < cavVal P k) := by
  obtain ⟨M, hM, e⟩ := h.val_sum hk
  rw [e]
  refine ⟨fun hc => ?_, fun hc => ?_⟩
  · obtain ⟨σ, e1, e2⟩ := hc k hk
    have hs := fun (m : ℕ) (hm' : m ≤ P.lmax) => (C120_strict h hk c1 c2 e1 e2 hm').1 rfl
    have := hs 0 (by omega)
    have := Finset.sum_nonpos fun m (hm' : m ∈ Finset.Icc 1 M) => (hs m ((Finset.mem_Icc.mp hm').2.trans hM)).le
    linarith
  · obtain ⟨σ, e1, e2⟩ := hc k hk
    have hσ : σ ≠ -σ := fun e => by rcases e1 with e1 | e1 <;> linarith [e1.1]
    have hs := fun (m : ℕ) (hm' : m ≤ P.lmax) => (C120_strict h hk c1 c2 e1 e2 hm').2 hσ
    have := hs 0 (by omega)
    have := Finset.sum_nonneg fun m (hm' : m ∈ Finset.Icc 1 M) => (hs m ((Finset.mem_Icc.mp hm').2.trans hM)).le
    linarith

/-- **C124, contrast.** At a wavenumber at which the filling differs from sphere and wall `mSumme` has a strict sign; where it equals one of them, it is zero. -/
theorem C124_contrast (h : CavOK P) (hk : 0 < k) :
    ∃ x, geoVals exactBes P [k] = .ok [x] ∧
      (HasContrast P.mat1 P.mat3 k → HasContrast P.mat2 P.mat3 k → (P.Same → x < 0) ∧ (P.Opposite → 0 < x)) ∧
      (¬ (HasContrast P.mat1 P.mat3 k ∧ HasContrast P.mat2 P.mat3 k) → x = 0) := by
  refine ⟨_, h.val_ok hk, fun c1 c2 => h.val_strict hk c1 c2, fun hc => ?_⟩
  obtain ⟨M, hM, e⟩ := h.val_sum hk
  rw [e, h.lnGeo_zero hk hc (Nat.zero_le _), Finset.sum_eq_zero fun m hm => h.lnGeo_zero hk hc ((Finset.mem_Icc.mp hm).2.trans hM)]
  norm_num

/-- **C124, strict sign.** If the filling differs from sphere and wall at all wavenumbers, the energy over a non-empty range is not zero. -/
theorem C124_strict (h : CavOK P) (hq : q.Exact) (c1 : ∀ k, 0 < k → HasContrast P.mat1 P.mat3 k) (c2 : ∀ k, 0 < k → HasContrast P.mat2 P.mat3 k) {a : ℝ}
    (ha : 0 ≤ a) {b : Upper} (hb : ∀ x, b = .num x → a < x) (hb' : b = .none → a < nmax * deltaT) :
    ∃ E, e0 q (geoAt exactBes frac lnK P) deltaT nmax a b = .ok E ∧ (P.Same → E < 0) ∧ (P.Opposite → 0 < E) := by
  obtain ⟨s1, s2⟩ := e0Range_sub (deltaT := deltaT) (nmax := nmax) a b
  have hv : 0 < volume (e0Range deltaT nmax a b) := by
    cases b with
    | num b => unfold e0Range; rw [Real.volume_Ioo]; exact ENNReal.ofReal_pos.mpr (by linarith [hb b rfl])
    | inf => unfold e0Range; rw [Real.volume_Ioi]; exact ENNReal.zero_lt_top
    | none => unfold e0Range; rw [Real.volume_Ioo]; exact ENNReal.ofReal_pos.mpr (by linarith [hb' rfl])
  have hpos : ∀ k ∈ e0Range deltaT nmax a b, 0 < k := fun k hk => ha.trans_lt (s1 hk)
  have his : IntegrableOn (cavVal P) (e0Range deltaT nmax a b) := h.val_integrable.mono_set hpos
  refine ⟨_, cav_e0_value h hq ha (fun x hx => (hb x hx).le) (fun hx => (hb' hx).le), fun hc => ?_, fun hc => ?_⟩
  · have hst : ∀ k ∈ e0Range deltaT nmax a b, 0 < -cavVal P k := fun k hk =>
      neg_pos.mpr ((h.val_strict (hpos k hk) (c1 k (hpos k hk)) (c2 k (hpos k hk))).1 hc)
    have := (setIntegral_pos_iff_support_of_nonneg_ae (f := fun k => -cavVal P k)
      ((ae_restrict_iff' s2).mpr (.of_forall fun k hk => (hst k hk).le)) his.neg).mpr
      (hv.trans_le (measure_mono fun k hk => ⟨(hst k hk).ne', hk⟩))
    rw [integral_neg] at this
    linarith
  · have hst : ∀ k ∈ e0Range deltaT nmax a b, 0 < cavVal P k := fun k hk =>
      (h.val_strict (hpos k hk) (c1 k (hpos k hk)) (c2 k (hpos k hk))).2 hc
    exact (setIntegral_pos_iff_support_of_nonneg_ae
      ((ae_restrict_iff' s2).mpr (.of_forall fun k hk => (hst k hk).le)) his).mpr
      (hv.trans_le (measure_mono fun k hk => ⟨(hst k hk).ne', hk⟩))

/-! ## Low temperatures -/

theorem cav_slice_sum (h : CavOK P) (hp : P.precision ≤ 0) {deltaT : ℝ} (hT : 0 < deltaT) {N n : ℕ} (hn : 1 ≤ n) (hN : n ≤ N) :
    sliceVal (geoGeo exactBes frac lnK P) deltaT N n = cavSum P (deltaT * n) := by
  obtain ⟨k1, k2, k3⟩ := sliceKs_mem hT hn hN
  unfold sliceVal geoGeo
  simp only
  rw [h.vals_sum hp k1 k2]
  simp only
  rw [List.getD_eq_getElem?_getD, List.getElem?_map, k3]
  rfl

/-- Values of the free energy with complete sums. -/
theorem cav_free_values {p : FTParams} (h : CavOK P) (hprec : P.precision ≤ 0) (hg : p.geo = geoGeo exactBes frac lnK P) (hp : p.nprocs.isZero)
    (ha : p.analyticN0 = false) (hT : 0 < p.deltaT) (hN : 1 ≤ p.nmax) :
    ∃ F : List ℝ, (freeEnergy p FT.fresh).1 = .ok F ∧ F.length = p.maxstep.toNat ∧ ∀ i < F.length,
      F[i]? = some ((i + 1 : ℕ) * p.deltaT * (0.5 * cavSum P 1e-10 + ∑ j ∈ Finset.range (p.nmax.toNat / (i + 1)), cavSum P (p.deltaT * ((j + 1) * (i + 1) : ℕ)))) := by
  have z1 : p.geo.vals [1e-10] = .ok [cavSum P 1e-10] := by
    rw [hg]
    exact h.vals_sum hprec (by simp) (by norm_num)
  obtain ⟨F, hF, hlen, hval⟩ := freeEnergy_slices_num p (hg ▸ geoGeo_valsOk h) z1 hp ha hT (N := p.nmax.toNat) (by omega)
    (Int.toNat_of_nonneg (by omega)).symm
  refine ⟨F, hF, hlen, fun i hi => ?_⟩
  have := hval (i + 1) (by omega) (by omega)
  rw [Nat.add_sub_cancel] at this
  rw [this, hg]
  congr 3
  refine Finset.sum_congr rfl fun j hj => ?_
  exact cav_slice_sum h hprec hT (Nat.one_le_iff_ne_zero.mpr (by positivity))
    ((Nat.mul_le_mul_right _ (Finset.mem_range.mp hj)).trans (Nat.div_mul_le_self _ _))

/-- **C124, low temperatures.** If the sums over `m` are complete (`precision ≤ 0`), the free energy at `i` times the temperature step, computed with
`analytic_n0=False`, steps that go to zero and `nmax*deltaT` that goes to infinity, converges to the energy `e0` at zero temperature. -/
theorem C124_low_temperature (h : CavOK P) (hq : q.Exact) (hprec : P.precision ≤ 0) {p : ℕ → FTParams}
    (hg : ∀ j, (p j).geo = geoGeo exactBes frac lnK P) (hp : ∀ j, (p j).nprocs.isZero) (ha : ∀ j, (p j).analyticN0 = false)
    (hT : ∀ j, 0 < (p j).deltaT) (hT0 : Tendsto (fun j => (p j).deltaT) atTop (𝓝 0)) (hN : ∀ j, 1 ≤ (p j).nmax)
    (hNT : Tendsto (fun j => (p j).nmax * (p j).deltaT) atTop atTop) {i : ℕ} (hi : ∀ j, (i : ℤ) < (p j).maxstep) {F : ℕ → List ℝ}
    (hF : ∀ j, (freeEnergy (p j) FT.fresh).1 = .ok (F j)) :
    ∃ E, e0 q (geoAt exactBes frac lnK P) deltaT nmax 0 .inf = .ok E ∧ Tendsto (fun j => (F j).getD i 0) atTop (𝓝 E) := by
  have hd := h.gap_pos
  have hi0 : (0 : ℝ) < (i + 1 : ℕ) := by positivity
  obtain ⟨z, hz⟩ : ∃ z, z = cavSum P 1e-10 := ⟨_, rfl⟩
  have hval : ∀ j, (F j).getD i 0 = (i + 1 : ℕ) * (p j).deltaT * (0.5 * z) + (i + 1 : ℕ) * (p j).deltaT *
      ∑ n ∈ Finset.range ((p j).nmax.toNat / (i + 1)), cavSum P ((n + 1) * ((i + 1 : ℕ) * (p j).deltaT)) := by
    intro j
    obtain ⟨G, hG, hlen, hval⟩ := cav_free_values h hprec (hg j) (hp j) (ha j) (hT j) (hN j)
    rw [hF j] at hG
    injection hG with hG
    have := hval i (by have := hi j; omega)
    rw [← hG] at this
    rw [List.getD_eq_getElem?_getD, this, Option.getD_some, mul_add, hz]
    congr 2
    refine Finset.sum_congr rfl fun n hn => ?_
    congr 1
    push_cast
    ring
  refine ⟨∫ k in Ioi (0 : ℝ), cavVal P k, hq.inf _ _ 0 (fun k hk => geoAt_ok h hk) h.val_integrable, ?_⟩
  have hsum : ∫ k in Ioi (0 : ℝ), cavVal P k = ∫ k in Ioi (0 : ℝ), cavSum P k :=
    setIntegral_congr_fun measurableSet_Ioi fun k hk => h.val_eq_sum hprec hk
  have hT' : Tendsto (fun j => (i + 1 : ℕ) * (p j).deltaT) atTop (𝓝 0) := by simpa using hT0.const_mul ((i + 1 : ℕ) : ℝ)
  have hlim := riemann_limit (f := cavSum P) (g := cavExp P) (fun k hk => h.sum_contAt hk)
    (fun k k' hk hkk => by
      unfold cavExp
      refine mul_le_mul_of_nonneg_left ?_ (div_pos (by norm_num) (pow_pos (sub_pos.mpr h.ratio.2) 3)).le
      rw [Real.exp_le_exp]
      have := mul_le_mul_of_nonneg_right hkk hd.le
      linarith)
    (cavExp_integrable h 0) (fun k hk => by rw [← h.val_eq_sum hprec hk]; exact (h.val_bound hk).1)
    (T := fun j => (i + 1 : ℕ) * (p j).deltaT) (N := fun j => (p j).nmax.toNat / (i + 1)) (fun j => mul_pos hi0 (hT j)) hT' ?_
  · rw [hsum]
    have := (hT'.mul_const (0.5 * z)).add hlim
    rw [zero_mul, zero_add] at this
    exact this.congr fun j => (hval j).symm
  · have h1 : Tendsto (fun j => (p j).nmax * (p j).deltaT - (i + 1 : ℕ) * (p j).deltaT) atTop atTop := by
      simpa [sub_eq_add_neg] using hNT.atTop_add hT'.neg
    refine tendsto_atTop_mono (fun j => ?_) h1
    have e : ((p j).nmax : ℝ) = ((p j).nmax.toNat : ℝ) := by
      have := Int.toNat_of_nonneg (by have := hN j; omega : 0 ≤ (p j).nmax)
      exact_mod_cast this.symm
    have h2 : (p j).nmax.toNat ≤ (p j).nmax.toNat / (i + 1) * (i + 1) + (i + 1) := by
      have := Nat.div_add_mod (p j).nmax.toNat (i + 1)
      have := Nat.mod_lt (p j).nmax.toNat (by omega : 0 < i + 1)
      rw [mul_comm (_ / _)]
      omega
    have h3 : ((p j).nmax.toNat : ℝ) ≤ ((p j).nmax.toNat / (i + 1) : ℕ) * ((i + 1 : ℕ) : ℝ) + (i + 1 : ℕ) := by exact_mod_cast h2
    rw [e, ← sub_mul, ← mul_assoc]
    exact mul_le_mul_of_nonneg_right (by linarith) (hT j).le

/-- **C124, separate spheres.** For separate spheres the integrand is the one of C104. -/
theorem C124_separate (T : BesTable) (h : P.r1 + P.r2 < P.L) (x : ℝ) : geoAt T frac lnK P x = pairAt T frac P x := by
  have hext : P.ext = true := by unfold PairIn.ext; simpa using h
  unfold geoAt pairAt geoK0
  rw [C120_separate T h, hext, if_pos rfl]

end

/-! ## The hypotheses can be met -/

/-- A gold sphere in an empty cavity in gold: attraction at zero temperature. -/
example (frac : ℝ → ℝ → ℝ) (lnK : ℝ → ℕ → ℝ) : ∃ E, e0 exactQuad (geoAt exactBes frac lnK
      ⟨⟨.lorentz, eGold, none⟩, ⟨.lorentz, eGold, none⟩, ⟨.lorentz, [], none⟩, 1, 4, 2.9, 20, 80, 1e-4⟩) 0.01 500 0 .inf = .ok E ∧ E < 0 := by
  have h : CavOK ⟨⟨.lorentz, eGold, none⟩, ⟨.lorentz, eGold, none⟩, ⟨.lorentz, [], none⟩, 1, 4, 2.9, 20, 80, 1e-4⟩ :=
    ⟨gold_sphere, gold_sphere, vac_medium, by norm_num, by norm_num, by norm_num, by norm_num, by norm_num⟩
  obtain ⟨E, hE, h1, -⟩ := C124_strict (frac := frac) (lnK := lnK) (deltaT := 0.01) (nmax := 500) h exactQuad_exact (fun k hk => gold_contrast hk)
    (fun k hk => gold_contrast hk) le_rfl (b := .inf) (by simp) (by simp)
  exact ⟨E, hE, h1 fun k hk => ⟨1, dense_vacuum gold_physical hk, dense_vacuum gold_physical hk⟩⟩

/-- The same with complete sums over `m`, steps `1/(j+1)` and `nmax = (j+1)²`. -/
noncomputable def coldCav (frac : ℝ → ℝ → ℝ) (lnK : ℝ → ℕ → ℝ) (j : ℕ) : FTParams :=
  ⟨1 / ((j : ℝ) + 1), ((j + 1) ^ 2 : ℕ), 7, false, .int 0, geoGeo exactBes frac lnK
    ⟨⟨.lorentz, eGold, none⟩, ⟨.lorentz, eGold, none⟩, ⟨.lorentz, [], none⟩, 1, 4, 2.9, 20, 80, 0⟩⟩

/-- The hypotheses of the low-temperature limit hold for it, and the limit is negative. -/
example (frac : ℝ → ℝ → ℝ) (lnK : ℝ → ℕ → ℝ) : ∃ (F : ℕ → List ℝ) (E : ℝ), (∀ j, (freeEnergy (coldCav frac lnK j) FT.fresh).1 = .ok (F j)) ∧
    Tendsto (fun j => (F j).getD 3 0) atTop (𝓝 E) ∧ E < 0 := by
  have h : CavOK ⟨⟨.lorentz, eGold, none⟩, ⟨.lorentz, eGold, none⟩, ⟨.lorentz, [], none⟩, 1, 4, 2.9, 20, 80, 0⟩ :=
    ⟨gold_sphere, gold_sphere, vac_medium, by norm_num, by norm_num, by norm_num, by norm_num, by norm_num⟩
  have hT : ∀ j : ℕ, 0 < (coldCav frac lnK j).deltaT := fun j => by unfold coldCav; positivity
  have hN : ∀ j : ℕ, 1 ≤ (coldCav frac lnK j).nmax := fun j => by
    unfold coldCav
    simp only
    exact_mod_cast Nat.one_le_iff_ne_zero.mpr (by positivity)
  choose F hF _ using fun j : ℕ => C121_free_energy (frac := frac) (lnK := lnK) (p := coldCav frac lnK j) h rfl rfl rfl (hT j) (hN j)
  obtain ⟨E', hE', hs, -⟩ := C124_strict (frac := frac) (lnK := lnK) (deltaT := 0) (nmax := 0) h exactQuad_exact (fun k hk => gold_contrast hk)
    (fun k hk => gold_contrast hk) le_rfl (b := .inf) (by simp) (by simp)
  obtain ⟨E, hE, hlim⟩ := C124_low_temperature (p := coldCav frac lnK) (i := 3) (F := F) (frac := frac) (lnK := lnK) (deltaT := 0) (nmax := 0) h
    exactQuad_exact le_rfl (fun _ => rfl) (fun _ => rfl) (fun _ => rfl) hT tendsto_one_div_add_atTop_nhds_zero_nat hN
    (by
      refine ((tendsto_natCast_atTop_atTop (R := ℝ)).atTop_add (tendsto_const_nhds (x := (1 : ℝ)))).congr fun j => ?_
      unfold coldCav
      push_cast
      field_simp)
    (fun _ => by unfold coldCav; norm_num) hF
  rw [hE] at hE'
  injection hE' with e
  exact ⟨F, E, hF, hlim, e ▸ hs fun k hk => ⟨1, dense_vacuum gold_physical hk, dense_vacuum gold_physical hk⟩⟩

end CasSph
