import Verif.Lemmas.SensZero

/-! # C132: energies of two spheres when radii, distance, materials, wavenumbers and temperature change a little -/

namespace CasSph

open Spec Filter Topology MeasureTheory

variable {P P' : PairIn} {w X : ℝ}

theorem dataErr_mono {X Y : ℝ} (hw : 0 ≤ w) (h : X ≤ Y) (N : ℕ) : dataErr w X N ≤ dataErr w Y N := by
  unfold dataErr
  have : w * (120 + 26 * ((N : ℝ) + 1 + X)) ≤ w * (120 + 26 * ((N : ℝ) + 1 + Y)) := mul_le_mul_of_nonneg_left (by linarith) hw
  linarith [Real.exp_le_exp.2 this]

theorem dataErr_nonneg (hw : 0 ≤ w) (h : 0 ≤ X) (N : ℕ) : 0 ≤ dataErr w X N := by
  unfold dataErr
  rw [sub_nonneg]
  exact Real.one_le_exp (by positivity)

/-- **C132, one `m`.** -/
theorem C132_single_m (h : PairOK P) (h' : PairOK P') {k k' : ℝ} (hk : 0 < k) (hk' : 0 < k') (d : DataErr w P' P k' k) (hw : w ≤ 1 / 800)
    (hX : ∀ e, P.mat3.epsilon k = .ok e → k * P.L * Real.sqrt e ≤ X) (hs : (1 + dataErr w X P.lssmax) * shrink P.r1 P.r2 P.L < 1) :
    ∃ W W' W0, waveIn exactBes P k = .ok W ∧ waveIn exactBes P' k' = .ok W' ∧ waveIn exactBes P.metal k = .ok W0 ∧ ∀ m ≤ P.lmax, ∃ (x x' y : ℝ) (N : ℕ),
      (∀ fuel, N < fuel → singleM fuel 0.9 P.lmax P.lssmax m [W] = some (.ok [(x : EReal)]) ∧ singleM fuel 0.9 P'.lmax P'.lssmax m [W'] = some (.ok [(x' : EReal)]) ∧
        singleM fuel 0.9 P.lmax P.lssmax m [W0] = some (.ok [(y : EReal)])) ∧
      |x| ≤ -y ∧ |x' - x| ≤ gain (dataErr w X P.lssmax) (shrink P.r1 P.r2 P.L) * -y := by
  obtain ⟨W, e1, f1⟩ := pair_singleM h hk
  obtain ⟨W', e2, f2⟩ := pair_singleM h' hk'
  obtain ⟨W0, e3, f3⟩ := pair_singleM h.metal hk
  refine ⟨W, W', W0, e1, e2, e3, fun m hm => ?_⟩
  obtain ⟨N1, g1⟩ := f1 m hm
  obtain ⟨N2, g2⟩ := f2 m (by rw [d.lmax]; exact hm)
  obtain ⟨N3, g3⟩ := f3 m hm
  exact ⟨_, _, _, max N1 (max N2 N3), fun fuel hf => ⟨g1 fuel (by omega), g2 fuel (by omega), g3 fuel (by omega)⟩, h.abs_metal hk hm,
    lnDetV_sens h h' hk hk' d hw (hX _ (medium_eps (medium_val h.m3.cls h.m3.phys hk).1)) hs hm⟩

theorem pairSum_abs (h : PairOK P) {k : ℝ} (hk : 0 < k) : |pairSum P k| ≤ -pairSum P.metal k := by
  have s := Finset.sum_le_sum fun m (hm : m ∈ Finset.Icc 1 P.lmax) => h.abs_metal hk (Finset.mem_Icc.1 hm).2
  rw [Finset.sum_neg_distrib] at s
  have a := Finset.abs_sum_le_sum_abs (fun m => lnDetV P m k) (Finset.Icc 1 P.lmax)
  have b := h.abs_metal hk (Nat.zero_le P.lmax)
  have e : P.metal.lmax = P.lmax := rfl
  unfold pairSum
  rw [e]
  refine (abs_add_le _ _).trans ?_
  rw [abs_mul, abs_two]
  linarith

theorem pairSum_sens (h : PairOK P) (h' : PairOK P') {k k' : ℝ} (hk : 0 < k) (hk' : 0 < k') (d : DataErr w P' P k' k) (hw : w ≤ 1 / 800)
    (hX : k * P.L * Real.sqrt (P.mat3.epsV k) ≤ X) (hs : (1 + dataErr w X P.lssmax) * shrink P.r1 P.r2 P.L < 1) :
    |pairSum P' k' - pairSum P k| ≤ gain (dataErr w X P.lssmax) (shrink P.r1 P.r2 P.L) * -pairSum P.metal k := by
  have key := fun m hm => lnDetV_sens h h' hk hk' d hw hX hs (m := m) hm
  have s := Finset.sum_le_sum fun m (hm : m ∈ Finset.Icc 1 P.lmax) => key m (Finset.mem_Icc.1 hm).2
  rw [← Finset.mul_sum, Finset.sum_neg_distrib] at s
  have a := Finset.abs_sum_le_sum_abs (fun m => lnDetV P' m k' - lnDetV P m k) (Finset.Icc 1 P.lmax)
  have b := key 0 (Nat.zero_le _)
  have e : P.metal.lmax = P.lmax := rfl
  unfold pairSum
  rw [e, d.lmax]
  rw [Finset.sum_sub_distrib] at a
  have : lnDetV P' 0 k' + 2 * ∑ m ∈ Finset.Icc 1 P.lmax, lnDetV P' m k' - (lnDetV P 0 k + 2 * ∑ m ∈ Finset.Icc 1 P.lmax, lnDetV P m k) =
    (lnDetV P' 0 k' - lnDetV P 0 k) + 2 * (∑ m ∈ Finset.Icc 1 P.lmax, lnDetV P' m k' - ∑ m ∈ Finset.Icc 1 P.lmax, lnDetV P m k) := by ring
  rw [this]
  refine (abs_add_le _ _).trans ?_
  rw [abs_mul 2, abs_two]
  linarith

/-- **C132, `mSumme`.** -/
theorem C132_mSumme (h : PairOK P) (h' : PairOK P') (hprec : P.precision ≤ 0) (hprec' : P'.precision ≤ 0) {k k' : ℝ} (hk : 0 < k) (hk' : 0 < k')
    (d : DataErr w P' P k' k) (hw : w ≤ 1 / 800) (hX : ∀ e, P.mat3.epsilon k = .ok e → k * P.L * Real.sqrt e ≤ X)
    (hs : (1 + dataErr w X P.lssmax) * shrink P.r1 P.r2 P.L < 1) :
    ∃ x x' y, pairVals exactBes P [k] = .ok [x] ∧ pairVals exactBes P' [k'] = .ok [x'] ∧ pairVals exactBes P.metal [k] = .ok [y] ∧ |x| ≤ -y ∧
      |x' - x| ≤ gain (dataErr w X P.lssmax) (shrink P.r1 P.r2 P.L) * -y :=
  ⟨_, _, _, pairVals_sum h hprec (by simp) (by simpa using hk), pairVals_sum h' hprec' (by simp) (by simpa using hk'),
    pairVals_sum h.metal hprec (by simp) (by simpa using hk), pairSum_abs h hk,
    pairSum_sens h h' hk hk' d hw (hX _ (medium_eps (medium_val h.m3.cls h.m3.phys hk).1)) hs⟩

theorem zero_sens (h : PairOK P) (h' : PairOK P') (hprec : P.precision ≤ 0) (hprec' : P'.precision ≤ 0) {c : ℝ} (hc : 0 < c) (d : ∀ k, 0 < k → DataErr w P' P (c * k) k)
    (hw : w ≤ 1 / 800) (hX : 0 < X) (hs : (1 + dataErr w X P.lssmax) * shrink P.r1 P.r2 P.L < 1) {frac frac' : ℝ → ℝ → ℝ} {z z' zm : ℝ} (hz : pairK0 frac P = .ok z)
    (hz' : pairK0 frac' P' = .ok z') (hzm : pairK0 frac P.metal = .ok zm) : |z' - z| ≤ gain (dataErr w X P.lssmax) (shrink P.r1 P.r2 P.L) * -zm := by
  have t := pairSum_tendsto h hprec hz
  have t' := pairSum_tendsto h' hprec' hz'
  have tm := pairSum_tendsto h.metal hprec hzm
  have tc : Tendsto (fun k : ℝ => c * k) (𝓝[>] 0) (𝓝[>] 0) := by
    refine tendsto_nhdsWithin_iff.2 ⟨?_, ?_⟩
    · have : Tendsto (fun k : ℝ => c * k) (𝓝 0) (𝓝 (c * 0)) := tendsto_id.const_mul c
      rw [mul_zero] at this
      exact this.mono_left nhdsWithin_le_nhds
    · filter_upwards [self_mem_nhdsWithin] with k hk
      exact mul_pos hc hk
  obtain ⟨e0, -, -, te⟩ := dielectric_static h.m3.diel h.m3.phys
  have small : Tendsto (fun k => k * P.L * Real.sqrt (P.mat3.epsV k)) (𝓝[>] 0) (𝓝 0) := by
    have h1 : Tendsto (fun k : ℝ => k * P.L) (𝓝[>] 0) (𝓝 (0 * P.L)) := (tendsto_id.mono_left nhdsWithin_le_nhds).mul_const _
    have := h1.mul (te.sqrt)
    rwa [zero_mul, zero_mul] at this
  refine le_of_tendsto_of_tendsto ((t'.comp tc).sub t).abs ((tm.neg).const_mul (gain (dataErr w X P.lssmax) (shrink P.r1 P.r2 P.L))) ?_
  filter_upwards [self_mem_nhdsWithin, small.eventually_lt_const hX] with k hk hkX
  exact pairSum_sens h h' hk (mul_pos hc hk) (d k hk) hw hkX.le hs

/-- **C132, `mSumme_k0`.** The changes refer to the limit of small wavenumbers. -/
theorem C132_mSumme_k0 (h : PairOK P) (h' : PairOK P') (hprec : P.precision ≤ 0) (hprec' : P'.precision ≤ 0) {c : ℝ} (hc : 0 < c)
    (d : ∀ k, 0 < k → DataErr w P' P (c * k) k) (hw : w ≤ 1 / 800) (hs : (1 + dataErr w 0 P.lssmax) * shrink P.r1 P.r2 P.L < 1) (frac frac' : ℝ → ℝ → ℝ) :
    ∃ z z' zm, pairK0 frac P = .ok z ∧ pairK0 frac' P' = .ok z' ∧ pairK0 frac P.metal = .ok zm ∧ |z| ≤ -zm ∧
      |z' - z| ≤ gain (dataErr w 0 P.lssmax) (shrink P.r1 P.r2 P.L) * -zm := by
  obtain ⟨z, zm, hz, hzm, z1, -⟩ := C113_mSumme_k0 h h.metal (.metal P) hprec hprec frac
  obtain ⟨z', -, hz', -⟩ := C113_mSumme_k0 h' h'.metal (.metal P') hprec' hprec' frac'
  refine ⟨z, z', zm, hz, hz', hzm, z1 (equalContrast_same pec_sphere h.m3), ?_⟩
  have cont : Continuous fun X => dataErr w X P.lssmax := by unfold dataErr; fun_prop
  have lt : Tendsto (fun X => (1 + dataErr w X P.lssmax) * shrink P.r1 P.r2 P.L) (𝓝[>] 0) (𝓝 ((1 + dataErr w 0 P.lssmax) * shrink P.r1 P.r2 P.L)) :=
    ((continuous_const.add cont).mul continuous_const).continuousWithinAt
  have tg : Tendsto (fun X => gain (dataErr w X P.lssmax) (shrink P.r1 P.r2 P.L) * -zm) (𝓝[>] 0) (𝓝 (gain (dataErr w 0 P.lssmax) (shrink P.r1 P.r2 P.L) * -zm)) := by
    refine Tendsto.mul_const _ ?_
    unfold gain
    exact (cont.continuousWithinAt.tendsto).div (tendsto_const_nhds.sub lt) (by linarith)
  refine ge_of_tendsto tg ?_
  filter_upwards [self_mem_nhdsWithin, lt.eventually_lt_const hs] with X hX hX'
  exact zero_sens h h' hprec hprec' hc d hw hX hX' hz hz' hzm

/-- **C132, `free_energy`.** All data change, the temperature step included. -/
theorem C132_free_energy {p p' : FTParams} {frac frac' : ℝ → ℝ → ℝ} (h : PairOK P) (h' : PairOK P') (hprec : P.precision ≤ 0) (hprec' : P'.precision ≤ 0)
    (hg : p.geo = pairGeo exactBes frac P) (hT : 0 < p.deltaT) (hT' : 0 < p'.deltaT) (hp' : p' = { p with geo := pairGeo exactBes frac' P', deltaT := p'.deltaT })
    (hp : p.nprocs.isZero) (han : p.analyticN0 = true) (hN : 0 ≤ p.nmax) (d : ∀ k, 0 < k → DataErr w P' P (p'.deltaT / p.deltaT * k) k) (hw : w ≤ 1 / 800) (hX0 : 0 < X)
    (hX : ∀ n : ℕ, 1 ≤ n → n ≤ p.nmax → ∀ e, P.mat3.epsilon (p.deltaT * n) = .ok e → p.deltaT * n * P.L * Real.sqrt e ≤ X)
    (hs : (1 + dataErr w X P.lssmax) * shrink P.r1 P.r2 P.L < 1) :
    ∃ F F' Fm : List ℝ, (freeEnergy p FT.fresh).1 = .ok F ∧ (freeEnergy p' FT.fresh).1 = .ok F' ∧
      (freeEnergy { p with geo := pairGeo exactBes frac P.metal } FT.fresh).1 = .ok Fm ∧ F.length = p.maxstep.toNat ∧ F'.length = p.maxstep.toNat ∧
      Fm.length = p.maxstep.toNat ∧ ∀ (i : ℕ) (x x' y : ℝ), F[i]? = some x → F'[i]? = some x' → Fm[i]? = some y →
        |x' - x| ≤ ((1 + gain (dataErr w X P.lssmax) (shrink P.r1 P.r2 P.L)) * Real.exp w - 1) * -y := by
  obtain ⟨z, zm, hz, hzm, z1, -⟩ := C113_mSumme_k0 h h.metal (.metal P) hprec hprec frac
  obtain ⟨z', -, hz', -⟩ := C113_mSumme_k0 h' h'.metal (.metal P') hprec' hprec' frac'
  have zabs := z1 (equalContrast_same pec_sphere h.m3)
  have hc : 0 < p'.deltaT / p.deltaT := div_pos hT' hT
  have zs := zero_sens h h' hprec hprec' hc d hw hX0 hs hz hz' hzm
  obtain ⟨F, hF, hl, hv⟩ := free_sum h hprec hz hg hp han hT hN
  obtain ⟨F', hF', hl', hv'⟩ := free_sum (p := p') h' hprec' hz' (by rw [hp']) (by rw [hp']; exact hp) (by rw [hp']; exact han) hT' (by rw [hp']; exact hN)
  obtain ⟨Fm, hFm, hlm, hvm⟩ := free_sum (p := { p with geo := pairGeo exactBes frac P.metal }) h.metal hprec hzm rfl hp han hT hN
  refine ⟨F, F', Fm, hF, hF', hFm, hl, by rw [hl', hp'], hlm, fun i x x' y hx hx' hy => ?_⟩
  have e1 := hv i x hx
  have e2 := hv' i x' hx'
  have e3 := hvm i y hy
  have en : p'.nmax = p.nmax := by rw [hp']
  rw [en] at e2
  simp only at e3
  obtain ⟨T, hTe⟩ : ∃ T, T = p.deltaT := ⟨_, rfl⟩
  obtain ⟨T', hTe'⟩ : ∃ T, T = p'.deltaT := ⟨_, rfl⟩
  obtain ⟨J, hJ⟩ : ∃ J, J = p.nmax.toNat / (i + 1) := ⟨_, rfl⟩
  obtain ⟨g, hgd⟩ : ∃ g, g = gain (dataErr w X P.lssmax) (shrink P.r1 P.r2 P.L) := ⟨_, rfl⟩
  rw [← hgd] at zs ⊢
  rw [← hTe, ← hJ] at e1 e3
  rw [← hTe', ← hJ] at e2
  have hkw : ∀ j ∈ Finset.range J, T * ((j + 1) * (i + 1) : ℕ) * P.L * Real.sqrt (P.mat3.epsV (T * ((j + 1) * (i + 1) : ℕ))) ≤ X := by
    intro j hj
    have pos : 0 < T * ((j + 1) * (i + 1) : ℕ) := by rw [hTe]; positivity
    have := hX ((j + 1) * (i + 1)) (Nat.one_le_iff_ne_zero.2 (by positivity)) (by
      rw [hJ, Finset.mem_range] at hj
      have := (Nat.mul_le_mul_right (i + 1) (show j + 1 ≤ p.nmax.toNat / (i + 1) from hj)).trans (Nat.div_mul_le_self _ _)
      have h2 : ((p.nmax.toNat : ℕ) : ℤ) = p.nmax := Int.toNat_of_nonneg hN
      omega)
    rw [← hTe] at this
    exact this _ (medium_eps (medium_val h.m3.cls h.m3.phys pos).1)
  have T0 : 0 < T := hTe ▸ hT
  have T0' : 0 < T' := hTe' ▸ hT'
  have pos : ∀ j : ℕ, 0 < T * ((j + 1) * (i + 1) : ℕ) := fun j => by positivity
  have ek : ∀ j : ℕ, p'.deltaT / p.deltaT * (T * ((j + 1) * (i + 1) : ℕ)) = T' * ((j + 1) * (i + 1) : ℕ) := fun j => by
    rw [← hTe, ← hTe']; field_simp
  have step : ∀ j ∈ Finset.range J, |pairSum P' (T' * ((j + 1) * (i + 1) : ℕ)) - pairSum P (T * ((j + 1) * (i + 1) : ℕ))| ≤ g * -pairSum P.metal (T * ((j + 1) * (i + 1) : ℕ)) := by
    intro j hj
    have dj := d _ (pos j)
    rw [ek] at dj
    rw [hgd]
    exact pairSum_sens h h' (pos j) (by positivity) dj hw (hkw j hj) hs
  have S1 := (Finset.abs_sum_le_sum_abs _ _).trans (Finset.sum_le_sum step)
  rw [Finset.sum_sub_distrib, ← Finset.mul_sum, Finset.sum_neg_distrib] at S1
  have S2 := (Finset.abs_sum_le_sum_abs _ _).trans (Finset.sum_le_sum fun j (_ : j ∈ Finset.range J) => pairSum_abs h (pos j))
  rw [Finset.sum_neg_distrib] at S2
  rw [e1, e2, e3]
  generalize ∑ j ∈ Finset.range J, pairSum P' (T' * ((j + 1) * (i + 1) : ℕ)) = s' at S1 ⊢
  generalize ∑ j ∈ Finset.range J, pairSum P (T * ((j + 1) * (i + 1) : ℕ)) = s at S1 S2 ⊢
  generalize ∑ j ∈ Finset.range J, pairSum P.metal (T * ((j + 1) * (i + 1) : ℕ)) = sm at S1 S2 ⊢
  have A1 : |(0.5 * z' + s') - (0.5 * z + s)| ≤ g * -(0.5 * zm + sm) := by
    have : (0.5 * z' + s') - (0.5 * z + s) = 0.5 * (z' - z) + (s' - s) := by ring
    rw [this]
    refine (abs_add_le _ _).trans ?_
    rw [abs_mul 0.5, abs_of_pos (by norm_num : (0 : ℝ) < 0.5)]
    linarith
  have A2 : |0.5 * z + s| ≤ -(0.5 * zm + sm) := by
    refine (abs_add_le _ _).trans ?_
    rw [abs_mul 0.5, abs_of_pos (by norm_num : (0 : ℝ) < 0.5)]
    linarith
  generalize 0.5 * z' + s' = a' at A1 ⊢
  generalize 0.5 * z + s = a at A1 A2 ⊢
  generalize 0.5 * zm + sm = am at A1 A2 ⊢
  have nT : Near w T' T := by
    have := (d T T0).wave
    rw [← hTe, ← hTe', div_mul_cancel₀ _ T0.ne'] at this
    exact ⟨T0', T0, this⟩
  obtain ⟨q1, q2⟩ := scale_of_log T0' T0 nT.le
  have w0 := nT.w0
  have E1 := Real.one_le_exp w0
  have hT1 : |T' - T| ≤ (Real.exp w - 1) * T := by
    rw [abs_le]
    constructor
    · have : Real.exp w * T' ≥ T := q2
      nlinarith [sq_nonneg (Real.exp w - 1)]
    · linarith
  have i0 : (0 : ℝ) ≤ (i + 1 : ℕ) := by positivity
  have m1 := mul_le_mul q1 A1 (abs_nonneg _) (by positivity)
  have m2 := mul_le_mul hT1 A2 (abs_nonneg _) (by have := sub_nonneg.2 E1; positivity)
  have : (i + 1 : ℕ) * T' * a' - (i + 1 : ℕ) * T * a = (i + 1 : ℕ) * (T' * (a' - a) + (T' - T) * a) := by ring
  rw [this, abs_mul, abs_of_nonneg i0]
  have tri := abs_add_le (T' * (a' - a)) ((T' - T) * a)
  rw [abs_mul T', abs_of_pos T0', abs_mul (T' - T)] at tri
  have := mul_le_mul_of_nonneg_left (tri.trans (add_le_add m1 m2)) i0
  refine this.trans_eq ?_
  ring

/-- **C132, `e0`** with a finite range of integration (`b` a number, or the default `nmax*deltaT`). -/
theorem C132_zero_temperature {q : Quad} {frac frac' : ℝ → ℝ → ℝ} {deltaT : ℝ} {nmax : ℤ} (h : PairOK P) (h' : PairOK P') (hprec : P.precision ≤ 0) (hprec' : P'.precision ≤ 0)
    (hq : q.Exact) {a B : ℝ} (ha : 0 ≤ a) (hab : a ≤ B) {b : Upper} (hb : b = .num B ∨ b = .none ∧ nmax * deltaT = B) (d : ∀ k, 0 < k → DataErr w P' P k k) (hw : w ≤ 1 / 800)
    (hX : ∀ k e, 0 < k → k < B → P.mat3.epsilon k = .ok e → k * P.L * Real.sqrt e ≤ X) (hs : (1 + dataErr w X P.lssmax) * shrink P.r1 P.r2 P.L < 1) :
    ∃ E E' Em, e0 q (pairAt exactBes frac P) deltaT nmax a b = .ok E ∧ e0 q (pairAt exactBes frac' P') deltaT nmax a b = .ok E' ∧
      e0 q (pairAt exactBes frac P.metal) deltaT nmax a b = .ok Em ∧ |E| ≤ -Em ∧ |E' - E| ≤ gain (dataErr w X P.lssmax) (shrink P.r1 P.r2 P.L) * -Em := by
  have val : ∀ {Q : PairIn} {fr : ℝ → ℝ → ℝ}, PairOK Q → e0 q (pairAt exactBes fr Q) deltaT nmax a b = .ok (∫ k in Set.Ioo a B, pairVal Q k) := by
    intro Q fr hQ
    have := e0_value (frac := fr) (nmax := nmax) (deltaT := deltaT) hQ hq ha (b := b) (fun x hx => by
      rcases hb with hb | hb
      · rw [hb] at hx; injection hx with hx; rw [← hx]; exact hab
      · rw [hb.1] at hx; cases hx) (fun hx => by
      rcases hb with hb | hb
      · rw [hb] at hx; cases hx
      · rw [hb.2]; exact hab)
    rw [this]
    rcases hb with rfl | ⟨rfl, rfl⟩ <;> rfl
  have sub : Set.Ioo a B ⊆ Set.Ioi 0 := fun k hk => ha.trans_lt hk.1
  have int : ∀ {Q : PairIn}, PairOK Q → IntegrableOn (pairVal Q) (Set.Ioo a B) := fun hQ => (pairVal_integrable hQ).mono_set sub
  refine ⟨_, _, _, val h, val h', val h.metal, ?_, ?_⟩
  · rw [← integral_neg]
    refine (abs_integral_le_integral_abs).trans (setIntegral_mono_on (int h).abs (int h.metal).neg measurableSet_Ioo fun k hk => ?_)
    rw [pairVal_sum h hprec (sub hk), pairVal_sum h.metal hprec (sub hk)]
    exact pairSum_abs h (sub hk)
  · rw [← integral_neg, ← integral_const_mul, ← integral_sub (int h') (int h)]
    refine (abs_integral_le_integral_abs).trans (setIntegral_mono_on ((int h').sub (int h)).abs ((int h.metal).neg.const_mul _) measurableSet_Ioo fun k hk => ?_)
    have k0 : 0 < k := sub hk
    rw [pairVal_sum h hprec k0, pairVal_sum h.metal hprec k0, pairVal_sum h' hprec' k0]
    exact pairSum_sens h h' k0 k0 (d k k0) hw (hX k _ k0 hk.2 (medium_eps (medium_val h.m3.cls h.m3.phys k0).1)) hs

/-! ## materials -/

/-- **C132, materials.** A material without magnetic response whose oscillator parameters change by factors within `exp(±v)` and whose wavenumber changes likewise. -/
theorem C132_parameters {M M' : Material} (hM : M.Physical) (hM' : M'.Physical) (hcls : M'.cls = M.cls) {v k k' : ℝ} (hv : List.Forall₂ (OscErr v) M'.e M.e)
    (hk : 0 < k) (hk' : 0 < k') (hkk : |Real.log k' - Real.log k| ≤ v) : MatErr (2 * v) M' M k' k := by
  have v0 : 0 ≤ v := (abs_nonneg _).trans hkk
  have e1 := Real.one_le_exp v0
  refine ⟨by rw [hcls], fun x' x hx' hx => ?_⟩
  by_cases hpec : M.cls = .pec
  · unfold Material.epsilon at hx
    rw [hpec] at hx
    cases hx
  have val := medium_val hpec hM hk
  have val' := medium_val (hcls ▸ hpec) hM' hk'
  rw [medium_eps val.1] at hx
  rw [medium_eps val'.1] at hx'
  injection hx with hx
  injection hx' with hx'
  subst hx hx'
  obtain ⟨q1, q2⟩ := scale_of_log hk' hk hkk
  have ee : Real.exp (2 * (2 * v)) = Real.exp v ^ 2 * Real.exp v ^ 2 := by
    rw [← Real.exp_nat_mul, ← Real.exp_add]; congr 1; push_cast; ring
  have sq : ∀ {a b : ℝ}, |a| ≤ Real.exp v * |b| → a ^ 2 ≤ Real.exp v ^ 2 * b ^ 2 := by
    intro a b hab
    rw [← mul_pow, ← sq_abs a, ← sq_abs (Real.exp v * b), abs_mul, abs_of_pos (Real.exp_pos v)]
    exact pow_le_pow_left₀ (abs_nonneg _) hab 2
  have A := epsV_scale hM hM' hcls hpec hk hk' (one_le_pow₀ e1) e1 (c := Real.exp v ^ 2) (a := Real.exp v)
    (by
      refine forall₂_mem hv fun p' p m' m o => ⟨sq o.wP.1, ?_, ?_⟩
      · have := o.wR.2; rwa [abs_of_nonneg (hM.osc p m).1, abs_of_nonneg (hM'.osc p' m').1] at this
      · have := o.gamma.2; rwa [abs_of_nonneg (hM.osc p m).2, abs_of_nonneg (hM'.osc p' m').2] at this) q2
  have B := epsV_scale hM' hM hcls.symm (hcls ▸ hpec) hk' hk (one_le_pow₀ e1) e1 (c := Real.exp v ^ 2) (a := Real.exp v)
    (by
      refine forall₂_mem hv.flip fun p p' m m' o => ⟨sq o.wP.2, ?_, ?_⟩
      · have := o.wR.1; rwa [abs_of_nonneg (hM.osc p m).1, abs_of_nonneg (hM'.osc p' m').1] at this
      · have := o.gamma.1; rwa [abs_of_nonneg (hM.osc p m).2, abs_of_nonneg (hM'.osc p' m').2] at this) q1
  rw [← ee] at A B
  have a := log_le_of_scale val'.2 val.2 A
  have b := log_le_of_scale val.2 val'.2 B
  rw [abs_le]
  constructor <;> linarith

/-- The same material at two wavenumbers. -/
theorem C132_same_material {M : Material} (hM : M.Physical) {w k k' : ℝ} (hk : 0 < k) (hk' : 0 < k') (hkk : |Real.log k' - Real.log k| ≤ w) : MatErr w M M k' k := by
  have v0 : 0 ≤ w := (abs_nonneg _).trans hkk
  have e1 := Real.one_le_exp v0
  refine ⟨Iff.rfl, fun x' x hx' hx => ?_⟩
  by_cases hpec : M.cls = .pec
  · unfold Material.epsilon at hx
    rw [hpec] at hx
    cases hx
  have val := medium_val hpec hM hk
  have val' := medium_val hpec hM hk'
  rw [medium_eps val.1] at hx
  rw [medium_eps val'.1] at hx'
  injection hx with hx
  injection hx' with hx'
  subst hx hx'
  obtain ⟨q1, q2⟩ := scale_of_log hk' hk hkk
  have ee : Real.exp (2 * w) = 1 * Real.exp w ^ 2 := by
    rw [← Real.exp_nat_mul, one_mul]; push_cast; rfl
  have F : ∀ l : List Osc, (∀ p ∈ l, 0 ≤ p.wR ∧ 0 ≤ p.gamma) → List.Forall₂ (fun p' p : Osc => p'.wP ^ 2 ≤ 1 * p.wP ^ 2 ∧ p.wR ≤ Real.exp w * p'.wR ∧ p.gamma ≤ Real.exp w * p'.gamma) l l := by
    intro l hl
    refine List.forall₂_same.2 fun p hp => ⟨by rw [one_mul], ?_, ?_⟩
    · exact le_mul_of_one_le_left (hl p hp).1 e1
    · exact le_mul_of_one_le_left (hl p hp).2 e1
  have A := epsV_scale hM hM rfl hpec hk hk' le_rfl e1 (F _ hM.osc) q2
  have B := epsV_scale hM hM rfl hpec hk' hk le_rfl e1 (F _ hM.osc) q1
  rw [← ee] at A B
  have a := log_le_of_scale val'.2 val.2 A
  have b := log_le_of_scale val.2 val'.2 B
  rw [abs_le]
  constructor <;> linarith

/-! ## Example -/

/-- `goldPair` with a radius and the plasma frequency of one sphere changed by a millionth. -/
noncomputable def goldPair' : PairIn := { goldPair with mat1 := ⟨.lorentz, [⟨1.37e16 * 1.000001, 0, 5.77e13⟩], none⟩, r1 := goldPair.r1 * 1.000001 }

theorem gold'_physical : (⟨.lorentz, [⟨1.37e16 * 1.000001, 0, 5.77e13⟩], none⟩ : Material).Physical := ⟨by norm_num, by simp, by simp⟩

theorem gold'_sphere : SphereMat ⟨.lorentz, [⟨1.37e16 * 1.000001, 0, 5.77e13⟩], none⟩ := by
  refine ⟨.inr (.inr ⟨⟨by simp, ⟨⟨1.37e16 * 1.000001, 0, 5.77e13⟩, by simp, by norm_num, rfl⟩, ?_⟩, gold'_physical⟩), gold'_physical, rfl⟩
  norm_num

theorem goldPair'_ok : PairOK goldPair' :=
  ⟨gold'_sphere, gold_sphere, ⟨vac_diel.1, vac_diel.2, rfl⟩, by norm_num [goldPair', goldPair], by norm_num [goldPair', goldPair], by norm_num [goldPair', goldPair],
    by norm_num [goldPair', goldPair], by norm_num [goldPair', goldPair]⟩

theorem log_millionth : |Real.log 1.000001| ≤ 1e-6 := by
  rw [abs_of_nonneg (Real.log_nonneg (by norm_num))]
  have := Real.log_le_sub_one_of_pos (show (0 : ℝ) < 1.000001 by norm_num)
  norm_num at this ⊢
  exact this

theorem exp_millionth : 1.000001 ≤ Real.exp 1e-6 := by
  have := Real.add_one_le_exp (1e-6 : ℝ)
  norm_num at this ⊢
  exact this

theorem gold_dataErr {k : ℝ} (hk : 0 < k) : DataErr 2e-6 goldPair' goldPair (1.000001 * k) k := by
  have e := Real.one_le_exp (show (0 : ℝ) ≤ 1e-6 by norm_num)
  have lk : |Real.log (1.000001 * k) - Real.log k| ≤ 1e-6 := by
    rw [Real.log_mul (by norm_num) hk.ne', add_sub_cancel_right]; exact log_millionth
  have lk' : |Real.log (1.000001 * k) - Real.log k| ≤ 2e-6 := lk.trans (by norm_num)
  have k0 : 0 < 1.000001 * k := by positivity
  have z : ∀ x : ℝ, |Real.log x - Real.log x| ≤ 2e-6 := fun x => by rw [sub_self, abs_zero]; norm_num
  refine ⟨rfl, rfl, ?_, z _, z _, lk', ?_, C132_same_material gold_physical hk k0 lk', C132_same_material vac_diel.2 hk k0 lk'⟩
  · show |Real.log (1 * 1.000001) - Real.log 1| ≤ 2e-6
    rw [one_mul, Real.log_one, sub_zero]
    exact log_millionth.trans (by norm_num)
  · have : (2e-6 : ℝ) = 2 * 1e-6 := by norm_num
    rw [this]
    refine C132_parameters gold_physical gold'_physical rfl (List.forall₂_cons.2 ⟨⟨?_, ?_, ?_⟩, .nil⟩) hk k0 lk
    · rw [abs_of_pos (by norm_num), abs_of_pos (by norm_num)]
      constructor
      · linarith [exp_millionth]
      · linarith
    · simp
    · rw [abs_of_pos (by norm_num)]
      constructor <;> linarith

/-- All data of two gold spheres change by about a millionth: radius and plasma frequency of the first sphere and the temperature; 50 Matsubara wavenumbers. -/
example (frac frac' : ℝ → ℝ → ℝ) : ∃ F F' Fm : List ℝ,
    (freeEnergy ⟨0.01, 50, 3, true, .int 0, pairGeo exactBes frac goldPair⟩ FT.fresh).1 = .ok F ∧
    (freeEnergy ⟨0.01 * 1.000001, 50, 3, true, .int 0, pairGeo exactBes frac' goldPair'⟩ FT.fresh).1 = .ok F' ∧
    (freeEnergy ⟨0.01, 50, 3, true, .int 0, pairGeo exactBes frac goldPair.metal⟩ FT.fresh).1 = .ok Fm ∧ F.length = 3 ∧ F'.length = 3 ∧ Fm.length = 3 ∧
    ∀ (i : ℕ) (x x' y : ℝ), F[i]? = some x → F'[i]? = some x' → Fm[i]? = some y → |x' - x| ≤ 4e-3 * -y := by
  have small : dataErr 2e-6 3 20 ≤ 0.0015 := by
    unfold dataErr
    have e : (2e-6 : ℝ) * (120 + 26 * ((20 : ℕ) + 1 + 3)) = 0.001488 := by norm_num
    rw [e]
    have := Real.exp_bound' (x := 0.001488) (by norm_num) (by norm_num) (n := 2) (by norm_num)
    norm_num [Finset.sum_range_succ] at this
    linarith
  have d0 : 0 ≤ dataErr 2e-6 3 20 := dataErr_nonneg (by norm_num) (by norm_num) _
  have sh : shrink goldPair.r1 goldPair.r2 goldPair.L = 16 / 27 := by norm_num [shrink, goldPair]
  have hs : (1 + dataErr 2e-6 3 goldPair.lssmax) * shrink goldPair.r1 goldPair.r2 goldPair.L < 1 := by
    rw [sh]; show (1 + dataErr 2e-6 3 20) * (16 / 27) < 1
    linarith
  obtain ⟨F, F', Fm, h1, h2, h3, l1, l2, l3, hv⟩ := C132_free_energy (w := 2e-6) (X := 3) (p := ⟨0.01, 50, 3, true, .int 0, pairGeo exactBes frac goldPair⟩)
    (p' := ⟨0.01 * 1.000001, 50, 3, true, .int 0, pairGeo exactBes frac' goldPair'⟩) goldPair_ok goldPair'_ok le_rfl le_rfl rfl (by norm_num) (by norm_num) rfl rfl rfl (by norm_num)
    (fun k hk => by
      have : (0.01 * 1.000001 / 0.01 : ℝ) = 1.000001 := by norm_num
      simp only [this]
      exact gold_dataErr hk) (by norm_num) (by norm_num)
    (fun n n1 n2 e he => by
      have n2' : (n : ℤ) ≤ 50 := n2
      have n3 : (n : ℝ) ≤ 50 := by exact_mod_cast n2'
      have e1 : e = 1 := by
        have : goldPair.mat3.epsilon (0.01 * n) = .ok 1 := rfl
        rw [this] at he
        injection he with he
        exact he.symm
      rw [e1, Real.sqrt_one]
      show 0.01 * (n : ℝ) * 6 * 1 ≤ 3
      linarith) hs
  refine ⟨F, F', Fm, h1, h2, h3, l1, l2, l3, fun i x x' y hx hx' hy => (hv i x x' y hx hx' hy).trans ?_⟩
  have y0 : 0 ≤ -y := by
    obtain ⟨G, G', g1, g2, -, -, g5⟩ := C113_perfect_conductors (frac := frac) (p := ⟨0.01, 50, 3, true, .int 0, pairGeo exactBes frac goldPair⟩) goldPair_ok le_rfl rfl rfl rfl rfl (by norm_num) (by norm_num)
    rw [h1] at g1
    injection g1 with g1
    have g2' : (freeEnergy ⟨0.01, 50, 3, true, .int 0, pairGeo exactBes frac goldPair.metal⟩ FT.fresh).1 = .ok G' := g2
    rw [h3] at g2'
    injection g2' with g2'
    subst g1 g2'
    exact (abs_nonneg _).trans (g5 i x y hx hy)
  refine mul_le_mul_of_nonneg_right ?_ y0
  rw [sh]
  have g0 : gain (dataErr 2e-6 3 goldPair.lssmax) (16 / 27) ≤ 0.0037 := by
    unfold gain
    show dataErr 2e-6 3 20 / (1 - (1 + dataErr 2e-6 3 20) * (16 / 27)) ≤ 0.0037
    rw [div_le_iff₀ (by linarith)]
    linarith
  have ex : Real.exp 2e-6 ≤ 1 + 1e-5 := by
    have := Real.exp_bound' (x := 2e-6) (by norm_num) (by norm_num) (n := 2) (by norm_num)
    norm_num [Finset.sum_range_succ] at this ⊢
    linarith
  have := mul_le_mul (show 1 + gain (dataErr 2e-6 3 goldPair.lssmax) (16 / 27) ≤ 1.0037 by linarith) ex (Real.exp_pos _).le (by norm_num)
  refine (sub_le_sub_right this 1).trans (by norm_num)

end CasSph
