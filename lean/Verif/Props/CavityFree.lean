import Verif.Props.Cavity
import Verif.Props.ScatInternal
import Verif.Props.Geometry

/-! # C121: free energy of a sphere inside a spherical cavity -/

namespace CasSph

open Spec Filter Topology Matrix

section
variable {P : PairIn} {k : ℝ} {frac : ℝ → ℝ → ℝ} {lnK : ℝ → ℕ → ℝ}

/-! ## Constructors -/

/-- **C121, automatic number of frequencies.** The constructor of `finiteT` accepts every sphere inside a cavity. -/
theorem C121_finiteT (h : CavOK P) {deltaT Tmax : ℝ} (hT : deltaT ≠ 0) (nmax : NMax) (analyticN0 : Bool) (n : ℤ) (T : BesTable) :
    ∃ p, geoFiniteT deltaT nmax Tmax P analyticN0 (.int n) T frac lnK = .ok p ∧ p.deltaT = deltaT ∧ p.geo = geoGeo T frac lnK P ∧ p.nprocs = .int n ∧
      p.maxstep = pyRound (Tmax / deltaT) ∧ p.analyticN0 = analyticN0 ∧
      (∀ N, nmax = .num N → p.nmax = N) ∧ (nmax = .automatic → 1 ≤ p.nmax) := by
  have h1 := h.h1; have hL := h.hL; have hi := h.inside
  have hl : (P.lmax : ℝ) ≠ 0 := by have := h.hl; positivity
  obtain ⟨o, ho⟩ : ∃ o, finiteTInit deltaT nmax Tmax P.r1 P.r2 P.L P.lmax false true analyticN0 (.int n) = .ok o := by
    cases nmax with
    | num m =>
      unfold finiteTInit
      simp [hT]
    | automatic =>
      have ha : ∃ k, autoNmax P.r1 P.r2 P.L deltaT P.lmax = .ok k := by
        unfold autoNmax
        rw [min_eq_left (by linarith), max_eq_right (by linarith)]
        have c1 : P.r1 + P.r2 > P.L := by linarith
        have c2 : ¬ (P.r1 = 0 ∨ P.r2 - P.r1 - P.L = 0 ∨ (P.lmax : ℝ) = 0) := by
          rw [not_or, not_or]
          exact ⟨h1.ne', by intro h0; linarith, hl⟩
        simp only [if_pos c1, if_neg c2, if_neg hT]
        exact ⟨_, rfl⟩
      obtain ⟨k, ha⟩ := ha
      unfold finiteTInit
      simp [hT, ha]
  obtain ⟨-, g1, g2, g3, g4, g5, -⟩ := init_ok ho
  refine ⟨⟨deltaT, o.nmax, o.maxstep, o.analyticN0, o.nprocs, geoGeo T frac lnK P⟩, ?_, rfl, rfl, g5, g4, by simpa using g3, g1, fun ha => ?_⟩
  · unfold geoFiniteT
    rw [ho, ok_bind]
  · subst ha
    exact C31_auto_nmax _ _ _ _ _ _ _ _ _ _ _ ho

/-- **C121, automatic cut-offs.** The constructor of `SphereSphere` accepts every sphere inside a cavity, and its cut-offs are such
that all of C120 and C121 applies. -/
theorem C121_sphereSphere {mat1 mat2 mat3 : Material} (m1 : SphereMat mat1) (m2 : SphereMat mat2) (m3 : MediumMat mat3) {r1 r2 L : ℝ}
    (h1 : 0 < r1) (hL : 0 < L) (hi : L + r1 < r2) {lmax : AutoInt} (hlm : ∀ n, lmax = .num n → 1 ≤ n) (o : ℤ) (precision : ℝ)
    (hprec : lmax = .automatic → 0 < precision) :
    ∃ P, sphereSphere mat1 mat2 mat3 r1 r2 L lmax (.num o) .automatic precision = .ok P ∧ CavOK P ∧
      P.mat1 = mat1 ∧ P.mat2 = mat2 ∧ P.mat3 = mat3 ∧ P.r1 = r1 ∧ P.r2 = r2 ∧ P.L = L := by
  have h2 : 0 < r2 := by linarith
  obtain ⟨lm, hlm', hge⟩ : ∃ lm, lmaxArg r1 r2 L precision (.num o) lmax = .ok lm ∧ 1 ≤ lm := by
    cases lmax with
    | num n => exact ⟨n, rfl, hlm n rfl⟩
    | automatic =>
      have : ∃ n, getLmax r1 r2 L precision o = .ok n := by
        unfold getLmax
        simp only
        have hprec := hprec rfl
        split_ifs with c1 c2 c3 c4
        · exact ⟨_, rfl⟩
        · exfalso
          rw [min_eq_left (by linarith), max_eq_right (by linarith), abs_of_pos (by linarith)] at c2
          linarith
        · exact absurd c3 hprec.ne'
        · exact absurd c4 hprec.not_gt
        · exact ⟨_, rfl⟩
      obtain ⟨n, hn⟩ := this
      exact ⟨n, hn, C32_ge_one _ _ _ _ _ _ hn⟩
  have hg : sphereInit r1 r2 L lmax (.num o) .automatic precision 0 .lndet = .ok
      { lmax := lm, lssmax := lssmaxArg r1 r2 lm .automatic, lOffset := .num o, extFlag := decide (L > r1 + r2), forceFlag := 0, trace := false } := by
    unfold sphereInit evalArg
    simp only [hlm']
  have hle := C33_lssmax _ _ _ _ _ _ _ _ _ h1 h2 hg (by simp only; omega)
  refine ⟨⟨mat1, mat2, mat3, r1, r2, L, lm.toNat, (lssmaxArg r1 r2 lm .automatic).toNat, precision⟩, ?_,
    ⟨m1, m2, m3, h1, hL, hi, by simp only; omega, by simp only at hle ⊢; omega⟩, rfl, rfl, rfl, rfl, rfl, rfl⟩
  unfold sphereSphere
  rw [hg, ok_bind]

/-! ## Free energy -/

theorem geoGeo_valsOk (h : CavOK P) : ValsOk (geoGeo exactBes frac lnK P) := fun _ hne hk => by
  obtain ⟨M, -, h1, -⟩ := C120_mSumme h hne hk
  exact ⟨_, h1, by simp⟩

/-- Sphere and wall on the same side of the filling at all frequencies. -/
def PairIn.Same (P : PairIn) : Prop := ∀ k, 0 < k → ∃ σ, DenseSign P.mat1 P.mat3 k σ ∧ DenseSign P.mat2 P.mat3 k σ

/-- Sphere and wall on different sides of the filling at all frequencies. -/
def PairIn.Opposite (P : PairIn) : Prop := ∀ k, 0 < k → ∃ σ, DenseSign P.mat1 P.mat3 k σ ∧ DenseSign P.mat2 P.mat3 k (-σ)

theorem cav_value (h : CavOK P) {ks : List ℝ} (hne : ks ≠ []) (hk : ∀ k ∈ ks, 0 < k) :
    ∃ vs, geoVals exactBes P ks = .ok vs ∧ vs.length = ks.length ∧ ∀ (i : ℕ) (k x : ℝ), ks[i]? = some k → vs[i]? = some x →
      |x| ≤ 18 * Real.exp (-(k * cavGap P)) / (1 - cavRatio P) ^ 3 ∧ (P.Same → x ≤ 0) ∧ (P.Opposite → 0 ≤ x) := by
  obtain ⟨M, -, h1, h2⟩ := C120_mSumme h hne hk
  refine ⟨_, h1, by simp, fun i k x hi hx => ?_⟩
  rw [List.getElem?_map, hi] at hx
  simp only [Option.map_some, Option.some.injEq] at hx
  subst hx
  have hkm : k ∈ ks := List.mem_of_getElem? hi
  obtain ⟨b1, -, b3⟩ := h2 k hkm
  obtain ⟨q0, q1⟩ := h.ratio
  have k0 := hk k hkm
  refine ⟨b1.trans ?_, fun hc => ?_, fun hc => ?_⟩
  · have := (cavBound_le h k0).1
    have hq : 0 < 1 - cavRatio P := sub_pos.mpr q1
    calc 3 * cavBound P k / (1 - cavRatio P) ≤ 3 * (6 * Real.exp (-(k * cavGap P)) / (1 - cavRatio P) ^ 2) / (1 - cavRatio P) := by gcongr
      _ = _ := by field_simp; ring
  · obtain ⟨σ, ea, eb⟩ := hc k k0
    exact (b3 σ σ ea eb).1 rfl
  · obtain ⟨σ, ea, eb⟩ := hc k k0
    refine (b3 σ (-σ) ea eb).2 ?_
    rcases ea with ⟨e, -⟩ | ⟨e, -⟩ <;> subst e <;> norm_num

theorem slice_geometric (c T d : ℝ) (i j : ℕ) :
    18 * Real.exp (-(T * ((j + 1) * (i + 1) : ℕ) * d)) / c = 18 / c * Real.exp (-((i + 1 : ℕ) * T * d)) * Real.exp (-((i + 1 : ℕ) * T * d)) ^ j := by
  rw [mul_assoc (18 / c), ← pow_succ', ← Real.exp_nat_mul, mul_div_right_comm]
  congr 2
  push_cast; ring

theorem geoGeo_slice (h : CavOK P) {deltaT : ℝ} (hT : 0 < deltaT) {N n : ℕ} (hn : 1 ≤ n) (hN : n ≤ N) :
    |sliceVal (geoGeo exactBes frac lnK P) deltaT N n| ≤ 18 * Real.exp (-(deltaT * n * cavGap P)) / (1 - cavRatio P) ^ 3 ∧
    (P.Same → sliceVal (geoGeo exactBes frac lnK P) deltaT N n ≤ 0) ∧ (P.Opposite → 0 ≤ sliceVal (geoGeo exactBes frac lnK P) deltaT N n) := by
  obtain ⟨k1, k2, k3⟩ := sliceKs_mem hT hn hN
  obtain ⟨vs, h1, h3, h5⟩ := cav_value h k1 k2
  have hi : n - sliceLo n < (sliceKs deltaT N n).length := by
    by_contra hh
    rw [List.getElem?_eq_none (by omega)] at k3
    simp at k3
  obtain ⟨x, hx⟩ : ∃ x, vs[n - sliceLo n]? = some x := ⟨_, List.getElem?_eq_getElem (by omega)⟩
  have e1 : sliceVal (geoGeo exactBes frac lnK P) deltaT N n = x := by
    unfold sliceVal geoGeo
    simp only [h1]
    rw [List.getD_eq_getElem?_getD, hx]; rfl
  rw [e1]
  exact h5 _ _ x k3 hx

/-- Bound on the free energy in a cavity at the scaled temperature `T`: `9 T coth(T d/2)/(1 - q)³` with the smallest distance `d`
between sphere and wall and `q = r1/(r2 - L)`. -/
noncomputable def cavFree (P : PairIn) (T : ℝ) : ℝ :=
  T * (18 / (1 - cavRatio P) ^ 3 * (1 / 2 + Real.exp (-(T * cavGap P)) / (1 - Real.exp (-(T * cavGap P)))))

theorem cavFree_coth (P : PairIn) {T : ℝ} (h : T * cavGap P ≠ 0) :
    cavFree P T = 9 * T * (Real.cosh (T * cavGap P / 2) / Real.sinh (T * cavGap P / 2)) / (1 - cavRatio P) ^ 3 := by
  unfold cavFree
  obtain ⟨u, hu⟩ : ∃ u, u = T * cavGap P / 2 := ⟨_, rfl⟩
  have e2 : T * cavGap P = u + u := by rw [hu]; ring
  rw [e2] at h
  have hu0 : u ≠ 0 := fun h0 => h (by rw [h0]; ring)
  rw [← hu, e2, Real.cosh_eq, Real.sinh_eq, neg_add, Real.exp_add]
  have ee : Real.exp u * Real.exp (-u) = 1 := by rw [← Real.exp_add, add_neg_cancel, Real.exp_zero]
  have hy : Real.exp (-u) ≠ 0 := (Real.exp_pos _).ne'
  have hx : Real.exp u = (Real.exp (-u))⁻¹ := eq_inv_of_mul_eq_one_left ee
  have hne : 1 - Real.exp (-u) * Real.exp (-u) ≠ 0 := by
    rw [← Real.exp_add]
    intro h0
    have : Real.exp (-u + -u) = 1 := by linarith
    rw [Real.exp_eq_one_iff] at this
    exact hu0 (by linarith)
  rw [hx]
  generalize Real.exp (-u) = y at *
  generalize (1 - cavRatio P) ^ 3 = c
  have h3 : y⁻¹ - y ≠ 0 := by
    intro h0
    apply hne
    have : y * (y⁻¹ - y) = 0 := by rw [h0, mul_zero]
    rwa [mul_sub, mul_inv_cancel₀ hy] at this
  have h4 : (y⁻¹ + y) / 2 / ((y⁻¹ - y) / 2) = (1 + y * y) / (1 - y * y) := by
    rw [div_div_div_cancel_right₀ (by norm_num), div_eq_div_iff h3 hne]
    field_simp
  rw [h4]
  have h5 : (1 / 2 + y * y / (1 - y * y)) = (1 + y * y) / (1 - y * y) / 2 := by
    rw [div_add_div _ _ (by norm_num) hne, div_div, div_eq_div_iff (by simpa using hne) (by simpa using hne)]
    ring
  rw [h5]
  ring

/-- **C121, `free_energy`.** With `analytic_n0=False` and at least one frequency the free energy of a sphere inside a cavity exists at
all temperatures of the grid, is bounded in terms of the geometry, and has the sign given by the three materials if their order
is the same at all frequencies. -/
theorem C121_free_energy {p : FTParams} (h : CavOK P) (hg : p.geo = geoGeo exactBes frac lnK P) (hp : p.nprocs.isZero) (ha : p.analyticN0 = false)
    (hT : 0 < p.deltaT) (hN : 1 ≤ p.nmax) :
    ∃ F : List ℝ, (freeEnergy p FT.fresh).1 = .ok F ∧ F.length = p.maxstep.toNat ∧ ∀ (i : ℕ) (x : ℝ), F[i]? = some x →
        |x| ≤ cavFree P ((i + 1) * p.deltaT) ∧ (P.Same → x ≤ 0) ∧ (P.Opposite → 0 ≤ x) := by
  obtain ⟨N, hN'⟩ := Int.eq_ofNat_of_zero_le (by omega : 0 ≤ p.nmax)
  have hN1 : 1 ≤ N := by omega
  obtain ⟨vs, z1, z3, z5⟩ := cav_value h (ks := [1e-10]) (by simp) (by norm_num)
  obtain ⟨z, rfl⟩ : ∃ z, vs = [z] := List.length_eq_one_iff.mp z3
  have zz := z5 0 _ z rfl rfl
  obtain ⟨F, hF, hlen, hval⟩ := freeEnergy_slices_num p (z := z) (hg ▸ geoGeo_valsOk h) (by rw [hg]; exact z1) hp ha hT hN1 hN'
  refine ⟨F, hF, hlen, fun i x hx => ?_⟩
  have hi : i < F.length := by
    by_contra hh
    rw [List.getElem?_eq_none (by omega)] at hx
    cases hx
  have hv := hval (i + 1) (by omega) (by omega)
  rw [Nat.add_sub_cancel, hx] at hv
  injection hv with hv
  rw [hg] at hv
  have hsl : ∀ j ∈ Finset.range (N / (i + 1)), (j + 1) * (i + 1) ≤ N := fun j hj =>
    (Nat.mul_le_mul_right _ (Finset.mem_range.mp hj)).trans (Nat.div_mul_le_self _ _)
  have hsv := fun j hj => geoGeo_slice (frac := frac) (lnK := lnK) h hT (n := (j + 1) * (i + 1)) (Nat.one_le_iff_ne_zero.mpr (by positivity)) (hsl j hj)
  have hpos : (0 : ℝ) < (i + 1 : ℕ) * p.deltaT := by positivity
  have hd := h.gap_pos
  obtain ⟨q0, q1⟩ := h.ratio
  have hq : 0 < (1 - cavRatio P) ^ 3 := pow_pos (sub_pos.mpr q1) 3
  refine ⟨?_, fun hc => ?_, fun hc => ?_⟩
  · have hu : 0 < (i + 1 : ℕ) * p.deltaT * cavGap P := mul_pos hpos hd
    have e1 : Real.exp (-((i + 1 : ℕ) * p.deltaT * cavGap P)) < 1 := by rw [Real.exp_lt_one_iff]; linarith
    have s := geo_sum_le (n := N / (i + 1)) (f := fun j => sliceVal (geoGeo exactBes frac lnK P) p.deltaT N ((j + 1) * (i + 1)))
      (C := 18 / (1 - cavRatio P) ^ 3 * Real.exp (-((i + 1 : ℕ) * p.deltaT * cavGap P))) (by positivity) (Real.exp_pos _).le e1
      (fun j hj => ((hsv j (Finset.mem_range.mpr hj)).1).trans_eq (slice_geometric _ _ _ _ _))
    have zb : |z| ≤ 18 / (1 - cavRatio P) ^ 3 := by
      refine zz.1.trans (div_le_div_of_nonneg_right ?_ hq.le)
      have : Real.exp (-(1e-10 * cavGap P)) ≤ 1 := by rw [Real.exp_le_one_iff]; linarith
      linarith
    have t := abs_add_le (0.5 * z) (∑ j ∈ Finset.range (N / (i + 1)), sliceVal (geoGeo exactBes frac lnK P) p.deltaT N ((j + 1) * (i + 1)))
    rw [abs_mul, abs_of_pos (by norm_num : (0 : ℝ) < 0.5)] at t
    have ecast : ((i : ℝ) + 1) = ((i + 1 : ℕ) : ℝ) := by push_cast; ring
    unfold cavFree
    rw [ecast, hv, abs_mul, abs_of_pos hpos]
    refine mul_le_mul_of_nonneg_left ?_ hpos.le
    rw [mul_add, ← mul_div_assoc]
    refine (t.trans (add_le_add (mul_le_mul_of_nonneg_left zb (by norm_num)) s)).trans_eq ?_
    norm_num
    ring
  · rw [hv]
    refine mul_nonpos_of_nonneg_of_nonpos hpos.le ?_
    have := zz.2.1 hc
    have := Finset.sum_nonpos fun j hj => (hsv j hj).2.1 hc
    linarith
  · rw [hv]
    refine mul_nonneg hpos.le ?_
    have := zz.2.2 hc
    have := Finset.sum_nonneg fun j hj => (hsv j hj).2.2 hc
    linarith

/-- **C121, number of frequencies.** The free energy converges if `nmax` grows. -/
theorem C121_nmax_limit {p : FTParams} (h : CavOK P) (hg : p.geo = geoGeo exactBes frac lnK P) (hp : p.nprocs.isZero) (ha : p.analyticN0 = false)
    (hT : 0 < p.deltaT) {F : ℕ → List ℝ} (hF : ∀ N : ℕ, (freeEnergy { p with nmax := (N + 1 : ℕ) } FT.fresh).1 = .ok (F N)) {i : ℕ}
    (hi : (i : ℤ) < p.maxstep) :
    ∃ v, Tendsto (fun N => (F N).getD i 0) atTop (𝓝 v) ∧ |v| ≤ cavFree P ((i + 1) * p.deltaT) ∧ (P.Same → v ≤ 0) ∧ (P.Opposite → 0 ≤ v) := by
  obtain ⟨vs, z1, z3, z5⟩ := cav_value h (ks := [1e-10]) (by simp) (by norm_num)
  obtain ⟨z, rfl⟩ : ∃ z, vs = [z] := List.length_eq_one_iff.mp z3
  have key : ∀ N, ∃ x, (F N)[i]? = some x ∧
      x = (i + 1 : ℕ) * p.deltaT * (0.5 * z + ∑ j ∈ Finset.range ((N + 1) / (i + 1)), sliceVal (geoGeo exactBes frac lnK P) p.deltaT (N + 1) ((j + 1) * (i + 1))) := by
    intro N
    obtain ⟨G, hG, -, hval⟩ := freeEnergy_slices_num { p with nmax := (N + 1 : ℕ) } (z := z) (by simp only; rw [hg]; exact geoGeo_valsOk h)
      (by simp only; rw [hg]; exact z1) hp ha hT (N := N + 1) (by omega) rfl
    rw [hF] at hG
    injection hG with hG
    subst hG
    refine ⟨_, hval (i + 1) (by omega) (by simp only; omega), ?_⟩
    simp only
    rw [hg]
  choose x hx hxv using key
  have hgd : ∀ N, (F N).getD i 0 = x N := fun N => by rw [List.getD_eq_getElem?_getD, hx]; rfl
  have hd := h.gap_pos
  have hx0 : 0 < (i + 1 : ℕ) * p.deltaT * cavGap P := by positivity
  obtain ⟨v, hv⟩ := slices_limit (geoGeo exactBes frac lnK P) p.deltaT (i := i + 1) (by omega)
    (b := fun j => 18 / (1 - cavRatio P) ^ 3 * Real.exp (-((i + 1 : ℕ) * p.deltaT * cavGap P)) * Real.exp (-((i + 1 : ℕ) * p.deltaT * cavGap P)) ^ j)
    ((summable_geometric_of_lt_one (Real.exp_pos _).le (by rw [Real.exp_lt_one_iff]; linarith)).mul_left _)
    (fun N j hj => ((geoGeo_slice h hT (Nat.one_le_iff_ne_zero.mpr (by positivity)) hj).1).trans_eq (slice_geometric _ _ _ _ _))
  have hlim : Tendsto (fun N => (F N).getD i 0) atTop (𝓝 ((i + 1 : ℕ) * p.deltaT * (0.5 * z + v))) := by
    refine (((hv.comp (tendsto_add_atTop_nat 1)).const_add (0.5 * z)).const_mul ((i + 1 : ℕ) * p.deltaT)).congr fun N => ?_
    rw [hgd, hxv]
    rfl
  have hall : ∀ N, |(F N).getD i 0| ≤ cavFree P ((i + 1) * p.deltaT) ∧ (P.Same → (F N).getD i 0 ≤ 0) ∧ (P.Opposite → 0 ≤ (F N).getD i 0) := by
    intro N
    obtain ⟨F', hF', hl, hval⟩ := C121_free_energy (p := { p with nmax := (N + 1 : ℕ) }) h hg hp ha hT (by simp)
    rw [hF] at hF'
    injection hF' with hF'
    subst hF'
    rw [hgd]
    exact hval i _ (hx N)
  exact ⟨_, hlim, le_of_tendsto hlim.abs (.of_forall fun N => (hall N).1), fun hc => le_of_tendsto hlim (.of_forall fun N => (hall N).2.1 hc),
    fun hc => ge_of_tendsto hlim (.of_forall fun N => (hall N).2.2 hc)⟩

/-! ## The default `analytic_n0=True` -/

theorem mieK0_total (frac : ℝ → ℝ → ℝ) {m md : Material} (h : m.HasStatic) (hd : md.Dielectric) (hp : md.Physical) {l : ℕ} (hl : 1 ≤ l) {R : ℝ}
    (hR : 0 < R) : ∃ c, mieK0 frac m md l R = .ok c := by
  rcases h with hc | hc | hc
  · obtain ⟨c, h1, -⟩ := C44_pec hl (fun x hx => exactBes_ok hl hx) (exactBes_low hl) hc hd hp hR frac
    exact ⟨c, h1⟩
  · obtain ⟨c, h1, -⟩ := C44_dielectric hl (fun x hx => exactBes_ok hl hx) (exactBes_low hl) hc.1 hc.2 hd hp hR frac
    exact ⟨c, h1⟩
  · obtain ⟨c, h1, -⟩ := C44_conductor hl (fun x hx => exactBes_ok hl hx) (exactBes_low hl) hc.1 hc.2 hd hp hR frac
    exact ⟨c, h1⟩

theorem mieInternalK0_total (lnK : ℝ → ℕ → ℝ) {m md : Material} (h : SphereMat m) (hd : MediumMat md) {l : ℕ} (hl : 1 ≤ l) {R : ℝ} (hR : 0 < R) :
    ∃ c, mieInternalK0 lnK md m 1 l R = .ok c := by
  rcases h.static with hc | hc | hc
  · obtain ⟨c, h1, -⟩ := C46_pec hl (fun x hx => exactBes_ok hl hx) (exactBes_low hl) hd.diel hd.phys hc h.phys hR lnK 1
    exact ⟨c, h1⟩
  · obtain ⟨c, h1, -⟩ := C46_dielectric hl (fun x hx => exactBes_ok hl hx) (exactBes_low hl) hd.diel hd.phys hc.1 hc.2 hR lnK 1
    exact ⟨c, h1⟩
  · obtain ⟨c, h1, -⟩ := C46_conductor hl (fun x hx => exactBes_ok hl hx) (exactBes_low hl) hd.diel hd.phys hc.1 hc.2 hR lnK 1
    exact ⟨c, h1⟩

/-- **C121, zero frequency.** `mSumme_k0` of a sphere inside a cavity raises TypeError unless `lmax = lssmax = 1`. -/
theorem C121_k0_typeError (h : CavOK P) (hne : ¬ (P.lmax = 1 ∧ P.lssmax = 1)) : geoK0 frac lnK P = .error .typeError := by
  have h2 : 0 < P.r2 := by linarith [h.h1, h.hL, h.inside]
  have t1 : ∃ a, mieTableK0 frac P.mat1 P.mat3 P.lmax P.r1 = .ok a := by
    choose c hc using fun i : Fin P.lmax => mieK0_total frac h.m1.static h.m3.diel h.m3.phys (l := i.1 + 1) (by omega) h.h1
    unfold mieTableK0
    rw [finM_ok hc, ok_bind]
    exact ⟨_, rfl⟩
  have t2 : ∃ b, mieTableIntK0 lnK P.mat3 P.mat2 P.lssmax P.r2 = .ok b := by
    choose c hc using fun i : Fin P.lssmax => mieInternalK0_total lnK h.m2 h.m3 (l := i.1 + 1) (by omega) h2
    unfold mieTableIntK0
    rw [finM_ok hc, ok_bind]
    exact ⟨_, rfl⟩
  obtain ⟨a, ha⟩ := t1
  obtain ⟨b, hb⟩ := t2
  unfold geoK0
  rw [h.ext, if_neg (by simp), ha, ok_bind, hb, ok_bind]
  unfold blockmatricesK0IntAt
  have e : transLmin 0 = 1 := rfl
  rw [C73_k0_int_typeError (by rw [e]; omega)]
  rfl

/-- **C121, the default `analytic_n0=True`.** The free energy of a sphere inside a cavity cannot be evaluated: TypeError for all
numbers of frequencies, unless `lmax = lssmax = 1`. -/
theorem C121_analytic {p : FTParams} (h : CavOK P) (hne : ¬ (P.lmax = 1 ∧ P.lssmax = 1)) (hg : p.geo = geoGeo exactBes frac lnK P)
    (hp : p.nprocs.isZero) (ha : p.analyticN0 = true) (hN : 0 ≤ p.nmax) : (freeEnergy p FT.fresh).1 = .error .typeError := by
  have hk : p.geo.k0 = .error .typeError := by rw [hg]; exact C121_k0_typeError h hne
  obtain ⟨r, hA⟩ : ∃ r, arange 0 (min (0 + 50 - 1) p.nmax) = 0 :: r := by
    unfold arange
    obtain ⟨n, hn⟩ : ∃ n, (min (0 + 50 - 1) p.nmax + 1 - 0).toNat = n + 1 := Nat.exists_eq_succ_of_ne_zero (by omega)
    rw [hn, List.range_succ_eq_map]
    exact ⟨_, rfl⟩
  have hf : getFMatsubaras p 0 FT.fresh = (.error .typeError, FT.fresh) := by
    unfold getFMatsubaras slicewiseEval
    rw [if_pos hp, dif_pos (by norm_num), if_neg (by omega)]
    unfold sliceLoop
    rw [dif_pos hN]
    simp only [Proc.bind, hA, List.map_cons, Int.cast_zero, mul_zero, fAlle, ha, Geo.mSummeK0, hk, FT.fresh]
    simp
  unfold freeEnergy ensureF
  simp only [Proc.bind, FT.fresh] at hf ⊢
  rw [hf]

/-- **C121, one frequency.** With `analytic_n0=False` and `nmax = 0` `free_energy` raises IndexError. -/
theorem C121_nmax_zero {p : FTParams} (h : CavOK P) (hg : p.geo = geoGeo exactBes frac lnK P) (hp : p.nprocs.isZero) (ha : p.analyticN0 = false)
    (hN : p.nmax = 0) : (freeEnergy p FT.fresh).1 = .error .indexError := by
  obtain ⟨vs, z1, -⟩ := cav_value h (ks := [1e-10]) (by simp) (by norm_num)
  have hv : p.geo.vals [1e-10] = .ok vs := by rw [hg]; exact z1
  have ht : p.geo.trace = false := by rw [hg]; rfl
  have hA : arange 0 (min (0 + 50 - 1) 0) = [0] := by rw [show min ((0 : ℤ) + 50 - 1) 0 = 0 by norm_num]; rfl
  have hf : getFMatsubaras p 0 FT.fresh = (.error .indexError, FT.fresh) := by
    unfold getFMatsubaras slicewiseEval
    rw [if_pos hp, dif_pos (by norm_num), if_neg (by omega)]
    unfold sliceLoop
    rw [hN, dif_pos (by norm_num)]
    simp only [Proc.bind, hA, List.map_cons, List.map_nil, Int.cast_zero, mul_zero, fAlle, ha, Geo.mSumme, ht, hv, FT.fresh]
    simp
  unfold freeEnergy ensureF
  simp only [Proc.bind, FT.fresh] at hf ⊢
  rw [hf]

/-- **C121, separate spheres.** For separate spheres the object is the one of C100. -/
theorem C121_separate (T : BesTable) (h : P.r1 + P.r2 < P.L) : (geoGeo T frac lnK P).vals = (pairGeo T frac P).vals ∧
    (geoGeo T frac lnK P).k0 = (pairGeo T frac P).k0 := by
  refine ⟨funext fun ks => C120_separate T h ks, ?_⟩
  have hext : P.ext = true := by unfold PairIn.ext; simpa using h
  show geoK0 frac lnK P = pairK0 frac P
  unfold geoK0
  rw [hext, if_pos rfl]

end

/-! ## The hypotheses can be met -/

theorem modWater_medium : MediumMat ⟨.lorentz, eModWater, none⟩ := by
  refine ⟨⟨rfl, ?_⟩, ⟨?_, by simp, by simp⟩, rfl⟩ <;> norm_num [eModWater, eWater]

/-- The calculation at the end of thermodynamics.py: a gold sphere of radius 1 in an empty shell of radius 4 filled with modified
water, 2.9 off the centre, all numerical parameters automatic.  All 200 values exist. -/
example : ∃ P p, sphereSphere ⟨.lorentz, eGold, none⟩ ⟨.lorentz, [], none⟩ ⟨.lorentz, eModWater, none⟩ 1 4 2.9 .automatic (.num 10) .automatic 1e-4 = .ok P ∧
    geoFiniteT 0.01 .automatic 2 P false (.int 0) exactBes frac lnK = .ok p ∧
    ∃ F, (freeEnergy p FT.fresh).1 = .ok F ∧ F.length = 200 ∧ ∀ (i : ℕ) (x : ℝ), F[i]? = some x → |x| ≤ cavFree P ((i + 1) * 0.01) := by
  obtain ⟨P, hP, h, -⟩ := C121_sphereSphere gold_sphere vac_sphere modWater_medium (r1 := 1) (r2 := 4) (L := 2.9) (by norm_num) (by norm_num)
    (by norm_num) (lmax := .automatic) (by simp) 10 1e-4 (fun _ => by norm_num)
  obtain ⟨p, hp, e1, e2, e3, e4, e5, -, e7⟩ := C121_finiteT (frac := frac) (lnK := lnK) h (deltaT := 0.01) (Tmax := 2) (by norm_num) .automatic false 0 exactBes
  obtain ⟨F, hF, hl, hb⟩ := C121_free_energy h e2 (by rw [e3]; rfl) e5 (by rw [e1]; norm_num) (e7 rfl)
  refine ⟨P, p, hP, hp, F, hF, ?_, fun i x hx => ?_⟩
  · rw [hl, e4]
    have : (2 : ℝ) / 0.01 = (200 : ℤ) := by norm_num
    rw [this]
    unfold pyRound
    rw [Int.fract_intCast, Int.floor_intCast, if_pos (by norm_num)]
    rfl
  · rw [← e1]
    exact (hb i x hx).1

/-- The same with the default `analytic_n0=True` raises TypeError. -/
example : ∃ P p, sphereSphere ⟨.lorentz, eGold, none⟩ ⟨.lorentz, [], none⟩ ⟨.lorentz, eModWater, none⟩ 1 4 2.9 (.num 30) (.num 10) .automatic 1e-4 = .ok P ∧
    geoFiniteT 0.01 .automatic 2 P true (.int 0) exactBes frac lnK = .ok p ∧ (freeEnergy p FT.fresh).1 = .error .typeError := by
  obtain ⟨P, hP, h, -⟩ := C121_sphereSphere gold_sphere vac_sphere modWater_medium (r1 := 1) (r2 := 4) (L := 2.9) (by norm_num) (by norm_num)
    (by norm_num) (lmax := .num 30) (by simp) 10 1e-4 (by simp)
  obtain ⟨p, hp, e1, e2, e3, e4, e5, -, e7⟩ := C121_finiteT (frac := frac) (lnK := lnK) h (deltaT := 0.01) (Tmax := 2) (by norm_num) .automatic true 0 exactBes
  refine ⟨P, p, hP, hp, C121_analytic h ?_ e2 (by rw [e3]; rfl) e5 (by have := e7 rfl; omega)⟩
  have : P.lmax = 30 := by
    unfold sphereSphere sphereInit at hP
    simp only [evalArg, lmaxArg] at hP
    rw [ok_bind] at hP
    injection hP with hP
    rw [← hP]
    rfl
  omega

/-- A gold sphere in an empty cavity in gold is attracted by the wall at all temperatures. -/
example : ∃ F, (freeEnergy ⟨0.01, 500, 200, false, .int 0, geoGeo exactBes frac lnK
      ⟨⟨.lorentz, eGold, none⟩, ⟨.lorentz, eGold, none⟩, ⟨.lorentz, [], none⟩, 1, 4, 2.9, 20, 80, 1e-4⟩⟩ FT.fresh).1 = .ok F ∧
    F.length = 200 ∧ ∀ x ∈ F, x ≤ 0 := by
  have h : CavOK ⟨⟨.lorentz, eGold, none⟩, ⟨.lorentz, eGold, none⟩, ⟨.lorentz, [], none⟩, 1, 4, 2.9, 20, 80, 1e-4⟩ :=
    ⟨gold_sphere, gold_sphere, vac_medium, by norm_num, by norm_num, by norm_num, by norm_num, by norm_num⟩
  obtain ⟨F, h1, h2, h3⟩ := C121_free_energy (frac := frac) (lnK := lnK) (p := ⟨0.01, 500, 200, false, .int 0, geoGeo exactBes frac lnK _⟩) h rfl rfl rfl
    (by norm_num) (by norm_num)
  refine ⟨F, h1, h2, fun x hx => ?_⟩
  obtain ⟨i, hi, rfl⟩ := List.getElem_of_mem hx
  exact (h3 i _ (List.getElem?_eq_getElem hi)).2.1 fun k hk => ⟨1, dense_vacuum gold_physical hk, dense_vacuum gold_physical hk⟩

end CasSph
