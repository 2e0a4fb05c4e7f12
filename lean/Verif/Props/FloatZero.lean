import Verif.Lemmas.FloatZeroPair

/-! # C131: the zero-frequency contribution of two spheres in rounded arithmetic -/

namespace CasSph

open Spec Matrix

variable {A : FlZero} {u : ℝ} {sum : (p : ℕ) → (Fin p → ℝ) → ℝ} {P : PairIn} {frac frac' : ℝ → ℝ → ℝ}

/-- `single_m_k0` from the amplitudes of the spheres. -/
theorem singleMK0_kern (h : PairOK P) {σa σb τa τb : ℝ} {a a' b b' : ℕ → ℝ} (ea : AmpK0 frac P.mat1 P.mat3 P.r1 σa τa a a')
    (eb : AmpK0 frac P.mat2 P.mat3 P.r2 σb τb b b') {c1 c2 : MieCoef} (h1 : mieTableK0 frac P.mat1 P.mat3 P.lmax P.r1 = .ok c1)
    (h2 : mieTableK0 frac P.mat2 P.mat3 P.lssmax P.r2 = .ok c2) {m : ℕ} (hm : m ≤ P.lmax) :
    ∃ N, ∀ fuel, N < fuel → singleMK0 fuel P.lmax P.lssmax m P.r1 P.r2 P.L c1 c2 =
      some (.ok (some (k0V m P.r1 P.r2 P.L P.lmax P.lssmax (σa * σb) (τa * τb) a a' b b' : EReal))) := by
  obtain ⟨a0, b0, S⟩ := staticPair_exists frac h.m1.static h.m2.static h.m3.diel h.m3.phys h.h1 h.h2 h.sep
  obtain ⟨c1', h1', g1⟩ := mieTableK0_ok S.ha P.lmax
  obtain ⟨c2', h2', g2⟩ := mieTableK0_ok S.hb P.lssmax
  rw [h1] at h1'
  rw [h2] at h2'
  injection h1' with h1'
  injection h2' with h2'
  subst h1' h2'
  have hlm : transLmin (m : ℤ) = max 1 m := by unfold transLmin; omega
  have := h.hl
  have := h.hls
  obtain ⟨⟨TE, TM⟩, h0⟩ : ∃ R, blockmatricesK0At P.lmax P.lssmax m P.r1 P.r2 P.L a0 b0 = .ok R :=
    C72_k0_ext_total (by omega) (by omega) _ _ _ _
  obtain ⟨⟨p1, -⟩, ⟨p2, -⟩⟩ := C92_positive S h0
  obtain ⟨N, hN⟩ := slnDetBlockdiagonal_pos TE TM p1 p2
  refine ⟨N, fun fuel hf => ?_⟩
  rw [singleMK0_congr g1 g2]
  unfold singleMK0
  rw [h0]
  obtain ⟨e1, e2⟩ := S.kern ea eb h0
  have e : k0V m P.r1 P.r2 P.L P.lmax P.lssmax (σa * σb) (τa * τb) a a' b b' = staticLn TE TM := by
    unfold k0V staticLn
    rw [abs_of_pos p1, abs_of_pos p2, e1, e2]
  rw [e]
  exact hN fuel hf

theorem mieTableK0_total {m1 md : Material} (h : SphereMat m1) (hd : MediumMat md) {r : ℝ} (hr : 0 < r) (n : ℕ) : ∃ c, mieTableK0 frac m1 md n r = .ok c := by
  obtain ⟨a0, b0, S⟩ := staticPair_exists frac h.static h.static hd.diel hd.phys hr hr (show r + r < 3 * r by linarith)
  obtain ⟨c, hc, -⟩ := mieTableK0_ok S.ha n
  exact ⟨c, hc⟩

theorem flTableK0_total (hA : RelErrZ A u) {m1 md : Material} (h : SphereMat m1) (hd : MediumMat md) {r : ℝ} (hr : 0 < r) (n : ℕ) :
    ∃ c, A.mieTableK0 frac' m1 md n r = .ok c := by
  obtain ⟨a0, b0, S⟩ := staticPair_exists frac' h.static h.static hd.diel hd.phys hr hr (show r + r < 3 * r by linarith)
  obtain ⟨c, hc, -⟩ := flTableK0 hA (frac' := frac') h hd S.ha n
  exact ⟨c, hc⟩

/-- The amplitudes of the two spheres, those of perfect conductors, and what one `m` contributes. -/
theorem PairOK.zeroAmp (h : PairOK P) (frac : ℝ → ℝ → ℝ) : ∃ (σa σb τa τb : ℝ) (a a' b b' : ℕ → ℝ), AmpK0 frac P.mat1 P.mat3 P.r1 σa τa a a' ∧
    AmpK0 frac P.mat2 P.mat3 P.r2 σb τb b b' ∧
    ∀ m, |k0V m P.r1 P.r2 P.L P.lmax P.lssmax (σa * σb) (τa * τb) a a' b b'| ≤ -k0V m P.r1 P.r2 P.L P.lmax P.lssmax 1 1 metalTM metalTE metalTM metalTE := by
  obtain ⟨⟨σa, ea⟩, τa, ga⟩ := sign_total h.m1.static h.m3.diel h.m3.phys
  obtain ⟨⟨σb, eb⟩, τb, gb⟩ := sign_total h.m2.static h.m3.diel h.m3.phys
  obtain ⟨a, a', ha⟩ := ampK0_exists frac h.m1 h.m3 h.h1 ea ga
  obtain ⟨b, b', hb⟩ := ampK0_exists frac h.m2 h.m3 h.h2 eb gb
  have prod : ∀ {s t : ℝ}, (s = 1 ∨ s = -1) → (t = 1 ∨ t = -1) → s * t = 1 ∨ s * t = -1 := by
    rintro s t (rfl | rfl) (rfl | rfl) <;> norm_num
  refine ⟨σa, σb, τa, τb, a, a', b, b', ha, hb, fun m => ?_⟩
  have x1 := metal_amp frac h.m3 h.h1
  have x2 := metal_amp frac h.m3 h.h2
  have hs := Stronger.metal P
  obtain ⟨cA, cA'⟩ := ampK0_stronger h.m1 pec_sphere h.m3 h.h1 le_rfl hs.c1 ha x1 ea.sign ga.sign (.inl rfl) (.inr rfl)
  obtain ⟨cB, cB'⟩ := ampK0_stronger h.m2 pec_sphere h.m3 h.h2 le_rfl hs.c2 hb x2 eb.sign gb.sign (.inl rfl) (.inr rfl)
  exact (k0V_stronger (m := m) h.h1 h.h2 h.sep h.h1 h.h2 h.sep P.lmax P.lssmax ha.1 ha.2.1 hb.1 hb.2.1 x1.1 x1.2.1 x2.1 x2.2.1 cA cA' cB cB'
    (s' := 1) (t' := 1) (prod ea.sign eb.sign) (prod ga.sign gb.sign)).2.2 rfl rfl

/-- Relative error of the zero-frequency contribution, in units of that of perfect conductors. -/
noncomputable def pairErrZ (P : PairIn) (u : ℝ) : ℝ := gain (zeroErr u (P.lmax + P.lssmax) P.r1 P.r2 P.L) (shrink P.r1 P.r2 P.L)

/-- **C131, one `m`.** Static Mie coefficients, logarithms of factorials, translation coefficients, scaling and sums in rounded arithmetic: if
`(1 + zeroErr) shrink < 1`, the computed matrices of `blockmatrices_k0_ext` have determinants `det(1-M)` above 0, and the sum of their
logarithms differs from what `single_m_k0` returns in exact arithmetic, `x`, by at most `zeroErr/(1 - (1+zeroErr) shrink)` times the value `-y` for perfect conductors. -/
theorem C131_single_m (h : PairOK P) (hA : RelErrZ A u) (hS : Sums A.toFlFun sum) (hs : (1 + zeroErr u (P.lmax + P.lssmax) P.r1 P.r2 P.L) * shrink P.r1 P.r2 P.L < 1)
    {c1 c2 a b am bm : MieCoef} (hc1 : A.mieTableK0 frac' P.mat1 P.mat3 P.lmax P.r1 = .ok c1) (hc2 : A.mieTableK0 frac' P.mat2 P.mat3 P.lssmax P.r2 = .ok c2)
    (ha : mieTableK0 frac P.mat1 P.mat3 P.lmax P.r1 = .ok a) (hb : mieTableK0 frac P.mat2 P.mat3 P.lssmax P.r2 = .ok b)
    (ham : mieTableK0 frac ⟨.pec, [], none⟩ P.mat3 P.lmax P.r1 = .ok am) (hbm : mieTableK0 frac ⟨.pec, [], none⟩ P.mat3 P.lssmax P.r2 = .ok bm)
    {m : ℕ} (hm : m ≤ P.lmax) :
    ∃ TE TM x y, A.blockmatricesK0At sum P.lmax P.lssmax m P.r1 P.r2 P.L c1 c2 = .ok (TE, TM) ∧ 0 < (1 - TE).det ∧ 0 < (1 - TM).det ∧
      (∃ N, ∀ fuel, N < fuel → singleMK0 fuel P.lmax P.lssmax m P.r1 P.r2 P.L a b = some (.ok (some ((x : ℝ) : EReal))) ∧
        singleMK0 fuel P.lmax P.lssmax m P.r1 P.r2 P.L am bm = some (.ok (some ((y : ℝ) : EReal)))) ∧
      |Real.log (1 - TE).det + Real.log (1 - TM).det - x| ≤ pairErrZ P u * -y ∧ |x| ≤ -y := by
  obtain ⟨σa, σb, τa, τb, X, X', Y, Y', e1, e2, e3⟩ := h.zeroAmp frac
  obtain ⟨TE, TM, q1, q2, q3, q4⟩ := h.zeroStep hA hS hc1 hc2 hs hm e1 e2
  obtain ⟨N1, n1⟩ := singleMK0_kern h e1 e2 ha hb hm
  obtain ⟨N2, n2⟩ := singleMK0_kern h.metal (metal_amp frac h.m3 h.h1) (metal_amp frac h.m3 h.h2) ham hbm hm
  rw [show (1 : ℝ) * 1 = 1 by norm_num, show (-1 : ℝ) * -1 = 1 by norm_num] at n2
  exact ⟨TE, TM, _, _, q1, q2, q3, ⟨max N1 N2, fun fuel hf => ⟨n1 fuel (by omega), n2 fuel (by omega)⟩⟩, q4, e3 m⟩

variable {ld0 : (n : ℕ) → Matrix (Fin n) (Fin n) ℝ → Matrix (Fin n) (Fin n) ℝ → ℝ} {η : ℝ}

/-- The logarithms of the determinants of the matrices computed at zero frequency have errors of at most `η`. -/
def DetErr0 (A : FlZero) (sum : (p : ℕ) → (Fin p → ℝ) → ℝ) (ld0 : (n : ℕ) → Matrix (Fin n) (Fin n) ℝ → Matrix (Fin n) (Fin n) ℝ → ℝ) (frac' : ℝ → ℝ → ℝ)
    (P : PairIn) (η : ℝ) : Prop :=
  ∀ c1 c2, A.mieTableK0 frac' P.mat1 P.mat3 P.lmax P.r1 = .ok c1 → A.mieTableK0 frac' P.mat2 P.mat3 P.lssmax P.r2 = .ok c2 → ∀ m : ℕ, m ≤ P.lmax →
    ∀ TE TM, A.blockmatricesK0At sum P.lmax P.lssmax m P.r1 P.r2 P.L c1 c2 = .ok (TE, TM) → 0 < (1 - TE).det → 0 < (1 - TM).det →
      |ld0 _ TE TM - (Real.log (1 - TE).det + Real.log (1 - TM).det)| ≤ η

/-- **C131, `mSumme_k0`.** The zero-frequency contribution in rounded arithmetic, complete sum over `m`. -/
theorem C131_mSumme_k0 (h : PairOK P) (hprec : P.precision ≤ 0) (hA : RelErrZ A u) (hS : Sums A.toFlFun sum)
    (hs : (1 + zeroErr u (P.lmax + P.lssmax) P.r1 P.r2 P.L) * shrink P.r1 P.r2 P.L < 1) (hη : 0 ≤ η) (frac frac' : ℝ → ℝ → ℝ)
    (hd : DetErr0 A sum ld0 frac' P η) :
    ∃ z' z zm, A.pairK0 sum ld0 frac' P = .ok z' ∧ pairK0 frac P = .ok z ∧ pairK0 frac P.metal = .ok zm ∧ |z| ≤ -zm ∧
      |z' - z| ≤ ((1 + pairErrZ P u) * (1 + u) ^ (P.lmax + 1) - 1) * -zm + (2 * P.lmax + 1 : ℕ) * η * (1 + u) ^ (P.lmax + 1) := by
  obtain ⟨σa, σb, τa, τb, X, X', Y, Y', e1, e2, e3⟩ := h.zeroAmp frac
  obtain ⟨c1, hc1⟩ := flTableK0_total hA (frac' := frac') h.m1 h.m3 h.h1 P.lmax
  obtain ⟨c2, hc2⟩ := flTableK0_total hA (frac' := frac') h.m2 h.m3 h.h2 P.lssmax
  have κ0 : 0 ≤ pairErrZ P u :=
    gain_nonneg (zeroErr_bound hA.u0 (p := 0) (by omega) (by have := h.hl; have := h.hls; omega) h.h1 h.h2 h.sep).1 hs
  have step : ∀ m, m ≤ P.lmax → ∃ x, A.singleMK0 sum ld0 P.lmax P.lssmax m P.r1 P.r2 P.L c1 c2 = .ok x ∧
      |x - k0V m P.r1 P.r2 P.L P.lmax P.lssmax (σa * σb) (τa * τb) X X' Y Y'| ≤ pairErrZ P u * -k0V m P.r1 P.r2 P.L P.lmax P.lssmax 1 1 metalTM metalTE metalTM metalTE + η := by
    intro m hm
    obtain ⟨TE, TM, q1, q2, q3, q4⟩ := h.zeroStep hA hS hc1 hc2 hs hm e1 e2
    refine ⟨ld0 _ TE TM, ?_, ?_⟩
    · unfold FlZero.singleMK0
      rw [q1, ok_bind]
    · have := abs_add_le (ld0 _ TE TM - (Real.log (1 - TE).det + Real.log (1 - TM).det))
        (Real.log (1 - TE).det + Real.log (1 - TM).det - k0V m P.r1 P.r2 P.L P.lmax P.lssmax (σa * σb) (τa * τb) X X' Y Y')
      rw [sub_add_sub_cancel] at this
      exact (this.trans (add_le_add (hd c1 c2 hc1 hc2 m hm TE TM q1 q2 q3) q4)).trans_eq (add_comm _ _)
  choose! v hv1 hv2 using step
  obtain ⟨M, -, r2, r3, r4⟩ := C130_mSumme_k0 hA.toRelErr (lmax := P.lmax) (precision := P.precision)
    (L := fun m => A.singleMK0 sum ld0 P.lmax P.lssmax m P.r1 P.r2 P.L c1 c2 >>= fun x => .ok fun _ => x)
    κ0 hη (fun m hm => by rw [hv1 m hm, ok_bind]) hv2 (fun m _ => e3 m)
  rw [r4 hprec] at r2 r3
  have z1 := pairK0_kern h e1 e2
  have z2 := pairK0_kern h.metal (metal_amp frac h.m3 h.h1) (metal_amp frac h.m3 h.h2)
  rw [show (1 : ℝ) * 1 = 1 by norm_num, show (-1 : ℝ) * -1 = 1 by norm_num] at z2
  rw [mSummeK0_full hprec, ok_bind] at z1
  rw [mSummeK0_full (show P.metal.precision ≤ 0 from hprec), ok_bind] at z2
  refine ⟨_, _, _, ?_, z1, z2, ?_, r3.trans_eq ?_⟩
  · unfold FlZero.pairK0
    rw [hc1, ok_bind, hc2, ok_bind, r2, ok_bind]
  · refine (abs_add_le _ _).trans ?_
    have b := Finset.sum_le_sum fun m (_ : m ∈ Finset.Icc 1 P.lmax) => e3 m
    have c := Finset.abs_sum_le_sum_abs (fun m => k0V m P.r1 P.r2 P.L P.lmax P.lssmax (σa * σb) (τa * τb) X X' Y Y') (Finset.Icc 1 P.lmax)
    rw [Finset.sum_neg_distrib] at b
    rw [abs_mul, abs_of_pos (two_pos : (0 : ℝ) < 2)]
    have a := e3 0
    show _ ≤ -(k0V 0 P.r1 P.r2 P.L P.lmax P.lssmax 1 1 metalTM metalTE metalTM metalTE +
      2 * ∑ m ∈ Finset.Icc 1 P.lmax, k0V m P.r1 P.r2 P.L P.lmax P.lssmax 1 1 metalTM metalTE metalTM metalTE)
    linarith
  · rw [Finset.sum_neg_distrib]
    show _ = _ * -(k0V 0 P.r1 P.r2 P.L P.lmax P.lssmax 1 1 metalTM metalTE metalTM metalTE +
      2 * ∑ m ∈ Finset.Icc 1 P.lmax, k0V m P.r1 P.r2 P.L P.lmax P.lssmax 1 1 metalTM metalTE metalTM metalTE) + _
    congr 2
    ring

/-! ## `free_energy` -/

variable {ld : (n : ℕ) → Blocks n → ℝ} {T : BesTable} {V : ℝ → (m : ℕ) → Fin (P.lmax + 1 - transLmin m) → Fin (P.lssmax + 1 - transLmin m) → VCoef}
  {δ Λ X ε Z : ℝ}

theorem geo_zero {z' : ℝ} (hz : A.pairK0 sum ld0 frac' P = .ok z') : A.pairGeo sum ld ld0 frac' T P V = A.toFlMie.pairGeo sum ld T P V z' := by
  unfold FlZero.pairGeo FlMie.pairGeo
  rw [hz]

/-- **C131, `free_energy`.** As `C130_pair`, the zero-frequency contribution computed in rounded arithmetic, too. -/
theorem C131_pair (h : PairOK P) (hprec : P.precision ≤ 0) (hA : RelErrZ A u) (hS : Sums A.toFlFun sum) (hη : 5 * δ + 3 * u * Λ + 15 * u ≤ 1 / 100) (hε : 0 ≤ ε)
    (hη0 : 0 ≤ η) (hs : (1 + asmErr u Z (mieErr u δ Λ X Z P.lssmax) ε P.lssmax) * shrink P.r1 P.r2 P.L < 1)
    (hs0 : (1 + zeroErr u (P.lmax + P.lssmax) P.r1 P.r2 P.L) * shrink P.r1 P.r2 P.L < 1) (κ0 : 0 ≤ pairErr P u δ Λ X ε Z) {κ : ℝ}
    (hκ : pairErr P u δ Λ X ε Z ≤ κ) (hκ0 : pairErrZ P u ≤ κ)
    {p : FTParams} (hg : p.geo = A.pairGeo sum ld ld0 frac' T P V) (hp : p.nprocs.isZero) (ha : p.analyticN0 = true) (hT : 0 < p.deltaT) {N : ℕ} (hN : p.nmax = N)
    (hd : DetErr0 A sum ld0 frac' P η) (hc : ∀ n : ℕ, 1 ≤ n → n ≤ N → ComputedAt A.toFlMie sum ld T P V δ Λ X ε Z η (A.mul p.deltaT n))
    (hal : ∀ lo hi, IsSlice N lo hi → ∃ n : ℕ, lo ≤ n ∧ n ≤ hi ∧ Alive A.toFlMie sum ld T P V (A.mul p.deltaT n)) (frac : ℝ → ℝ → ℝ) :
    ∃ (z zm : ℝ) (x y : ℕ → ℝ) (F : List ℝ), pairK0 frac P = .ok z ∧ pairK0 frac P.metal = .ok zm ∧
      (∀ n : ℕ, 1 ≤ n → pairVals exactBes P [A.mul p.deltaT n] = .ok [x n] ∧ pairVals exactBes P.metal [A.mul p.deltaT n] = .ok [y n]) ∧
      (A.toFlFun.freeEnergy sum p FT.fresh).1 = .ok F ∧ F.length = p.maxstep.toNat ∧ ∀ (i : ℕ) (v : ℝ), F[i]? = some v →
        |v - (i + 1 : ℕ) * p.deltaT * (0.5 * z + ∑ j ∈ Finset.range (N / (i + 1)), x ((j + 1) * (i + 1)))| ≤
          ((1 + κ) * (1 + u) ^ (P.lmax + 1 + (N / (i + 1) + 4)) - 1) *
            -((i + 1 : ℕ) * p.deltaT * (0.5 * zm + ∑ j ∈ Finset.range (N / (i + 1)), y ((j + 1) * (i + 1)))) +
          (i + 1 : ℕ) * p.deltaT * ((N / (i + 1) : ℕ) + 1 / 2) * ((2 * P.lmax + 1 : ℕ) * η) * (1 + u) ^ (P.lmax + 1 + (N / (i + 1) + 4)) := by
  obtain ⟨z', z, zm, e1, e2, e3, e4, e5⟩ := C131_mSumme_k0 h hprec hA hS hs0 hη0 frac frac' hd
  have u1 : 1 ≤ (1 + u) ^ (P.lmax + 1) := one_le_pow₀ (by linarith [hA.u0])
  have he : |z' - z| ≤ ((1 + κ) * (1 + u) ^ (P.lmax + 1) - 1) * -zm + (2 * P.lmax + 1 : ℕ) * η * (1 + u) ^ (P.lmax + 1) :=
    e5.trans (add_le_add (mul_le_mul_of_nonneg_right (sub_le_sub_right (mul_le_mul_of_nonneg_right (by linarith) (by linarith)) 1) ((abs_nonneg _).trans e4)) le_rfl)
  obtain ⟨x, y, F, r⟩ := pair_energy h hprec hA.toRelErrM hS hη hε hη0 hs κ0 hκ (hg.trans (geo_zero e1)) hp ha hT hN e2 e3 he hc hal
  exact ⟨z, zm, x, y, F, e2, e3, r⟩

/-! ## Double precision -/

theorem zero_double (h : PairOK P) (hl : P.lssmax ≤ 100) (h1 : P.L ≤ 1e40 * P.r1) (h2 : P.L ≤ 1e40 * P.r2) (hθ : shrink P.r1 P.r2 P.L ≤ 0.9) :
    (1 + zeroErr (2 ^ (-52 : ℤ)) (P.lmax + P.lssmax) P.r1 P.r2 P.L) * shrink P.r1 P.r2 P.L < 1 ∧
    0 ≤ pairErrZ P (2 ^ (-52 : ℤ)) ∧ pairErrZ P (2 ^ (-52 : ℤ)) ≤ 4e-6 := by
  have u52 : (2 : ℝ) ^ (-52 : ℤ) = 1 / 4503599627370496 := by norm_num
  have l1 := h.hl
  have l2 := h.hls
  have r1 := h.h1
  have r2 := h.h2
  have hL : 0 < P.L := by have := h.sep; linarith
  have log2 : Real.log 2 ≤ 1 := by have := Real.log_le_sub_one_of_pos (show (0 : ℝ) < 2 by norm_num); linarith
  have lg : ∀ {r : ℝ}, 0 < r → P.L ≤ 1e40 * r → Real.log (P.L / r) ≤ 160 := by
    intro r hr hLr
    have : Real.log (P.L / r) ≤ Real.log (2 ^ 160) := Real.log_le_log (by positivity) (by
      rw [div_le_iff₀ hr]
      exact hLr.trans (mul_le_mul_of_nonneg_right (by norm_num) hr.le))
    rw [Real.log_pow] at this
    push_cast at this
    linarith
  have lN : Real.log (2 * ((P.lmax + P.lssmax : ℕ) : ℝ) + 2) ≤ 9 := by
    have hN : ((P.lmax + P.lssmax : ℕ) : ℝ) ≤ 200 := by exact_mod_cast (by omega : P.lmax + P.lssmax ≤ 200)
    have : Real.log (2 * ((P.lmax + P.lssmax : ℕ) : ℝ) + 2) ≤ Real.log (2 ^ 9) := Real.log_le_log (by positivity) (by norm_num at hN ⊢; linarith)
    rw [Real.log_pow] at this
    push_cast at this ⊢
    linarith
  obtain ⟨-, -, z3⟩ := zeroSize_parts (P.lmax + P.lssmax) h.h1 h.h2 h.sep
  have G : zeroSize (P.lmax + P.lssmax) P.r1 P.r2 P.L ≤ 132660 := by
    have hN : ((P.lmax + P.lssmax : ℕ) : ℝ) ≤ 200 := by exact_mod_cast (by omega : P.lmax + P.lssmax ≤ 200)
    have n0 : (0 : ℝ) ≤ ((P.lmax + P.lssmax : ℕ) : ℝ) := Nat.cast_nonneg _
    unfold zeroSize
    calc _ ≤ (2 * 200 + 2 : ℝ) * (9 + 1 + 160 + 160) := by
          refine mul_le_mul (by linarith) (by linarith [lg r1 h1, lg r2 h2]) ?_ (by norm_num)
          have p1 : 0 ≤ Real.log (P.L / P.r1) := Real.log_nonneg (by rw [le_div_iff₀ r1]; have := h.sep; linarith)
          have p2 : 0 ≤ Real.log (P.L / P.r2) := Real.log_nonneg (by rw [le_div_iff₀ r2]; have := h.sep; linarith)
          have p3 : 0 ≤ Real.log (2 * ((P.lmax + P.lssmax : ℕ) : ℝ) + 2) := Real.log_nonneg (by linarith)
          linarith
      _ = 132660 := by norm_num
  have k0 := (zeroErr_bound (u := 2 ^ (-52 : ℤ)) (by positivity) (p := 0) (N := P.lmax + P.lssmax) (by omega) (by omega) h.h1 h.h2 h.sep).1
  have k1 : zeroErr (2 ^ (-52 : ℤ)) (P.lmax + P.lssmax) P.r1 P.r2 P.L ≤ 3.3e-7 := by
    unfold zeroErr
    have t0 : 0 ≤ zeroSize (P.lmax + P.lssmax) P.r1 P.r2 P.L := le_trans (by positivity) z3
    rw [u52]
    generalize zeroSize (P.lmax + P.lssmax) P.r1 P.r2 P.L = g at G t0
    have a1 : 900 * (1 / 4503599627370496) * g ≤ 1e-7 := by linarith
    have a0 : 0 ≤ 900 * (1 / 4503599627370496) * g := by positivity
    generalize 900 * (1 / 4503599627370496) * g = t at a0 a1
    have q := (abs_le.mp (Real.abs_exp_sub_one_sub_id_le (x := t) (by rw [abs_of_nonneg a0]; linarith))).2
    have : t ^ 2 ≤ 1e-7 * 1e-7 := by rw [sq]; exact mul_le_mul a1 a1 a0 (by norm_num)
    linarith
  obtain ⟨g1, g2⟩ := gain_double k0 k1 (shrink_mem h.h1 h.h2 h.sep).1.le hθ
  exact ⟨g1, gain_nonneg k0 g1, g2⟩

/-- **C131 in double precision.** `C130_double` with the zero-frequency contribution computed by `mSumme_k0` in doubles: `l` up to 100, distance at most
1e40 radii, `shrink ≤ 0.9`. -/
theorem C131_double (h : PairOK P) (hprec : P.precision ≤ 0) (hA : RelErrZ A (2 ^ (-52 : ℤ))) (hS : Sums A.toFlFun sum) (hl : P.lssmax ≤ 100) (hη0 : 0 ≤ η)
    (hθ : shrink P.r1 P.r2 P.L ≤ 0.9) (h1 : P.L ≤ 1e40 * P.r1) (h2 : P.L ≤ 1e40 * P.r2)
    {p : FTParams} (hg : p.geo = A.pairGeo sum ld ld0 frac' T P V) (hp : p.nprocs.isZero) (ha : p.analyticN0 = true) (hT : 0 < p.deltaT) {N : ℕ} (hN : p.nmax = N)
    (hN' : N ≤ 1000000) (hd : DetErr0 A sum ld0 frac' P η) (hc : ∀ n : ℕ, 1 ≤ n → n ≤ N → CodeAt A.toFlMie sum ld T P V η (A.mul p.deltaT n))
    (hal : ∀ lo hi, IsSlice N lo hi → ∃ n : ℕ, lo ≤ n ∧ n ≤ hi ∧ Alive A.toFlMie sum ld T P V (A.mul p.deltaT n)) (frac : ℝ → ℝ → ℝ) :
    ∃ (z zm : ℝ) (x y : ℕ → ℝ) (F : List ℝ), pairK0 frac P = .ok z ∧ pairK0 frac P.metal = .ok zm ∧
      (∀ n : ℕ, 1 ≤ n → pairVals exactBes P [A.mul p.deltaT n] = .ok [x n] ∧ pairVals exactBes P.metal [A.mul p.deltaT n] = .ok [y n]) ∧
      (A.toFlFun.freeEnergy sum p FT.fresh).1 = .ok F ∧ F.length = p.maxstep.toNat ∧ ∀ (i : ℕ) (v : ℝ), F[i]? = some v →
        |v - (i + 1 : ℕ) * p.deltaT * (0.5 * z + ∑ j ∈ Finset.range (N / (i + 1)), x ((j + 1) * (i + 1)))| ≤
          4.1e-6 * -((i + 1 : ℕ) * p.deltaT * (0.5 * zm + ∑ j ∈ Finset.range (N / (i + 1)), y ((j + 1) * (i + 1)))) +
          1.1 * ((i + 1 : ℕ) * p.deltaT * ((N / (i + 1) : ℕ) + 1 / 2) * ((2 * P.lmax + 1 : ℕ) * η)) := by
  obtain ⟨g1, g2, g3⟩ := pair_double h hl hθ
  obtain ⟨k1, k2, k3⟩ := zero_double h hl h1 h2 hθ
  have kp : ∀ n : ℕ, 1 ≤ n → 0 < A.mul p.deltaT n := fun n hn => hA.toRelErr.mul_pos' hT (by exact_mod_cast hn)
  have l2 := h.hls
  obtain ⟨z, zm, x, y, F, e1, e2, r1, r2, r3, r4⟩ := C131_pair h hprec hA hS (by norm_num) (by norm_num) hη0 g1 k1 g2 g3 k3 hg hp ha hT hN hd
    (fun n h1 h2 => (hc n h1 h2).computed h hA.toRelErrM hl (kp n h1)) hal frac
  refine ⟨z, zm, x, y, F, e1, e2, r1, r2, r3, fun i v hv => (r4 i v hv).trans ?_⟩
  have u0 : (0 : ℝ) ≤ 2 ^ (-52 : ℤ) := by positivity
  have J1 : N / (i + 1) ≤ N := Nat.div_le_self _ _
  have b := double_pow (n := P.lmax + 1 + (N / (i + 1) + 4)) (by omega)
  have b1 : 1 ≤ (1 + (2 : ℝ) ^ (-52 : ℤ)) ^ (P.lmax + 1 + (N / (i + 1) + 4)) := one_le_pow₀ (by linarith)
  generalize (1 + (2 : ℝ) ^ (-52 : ℤ)) ^ (P.lmax + 1 + (N / (i + 1) + 4)) = W at b b1 ⊢
  have E0 := metal_energy_nonneg h hprec e2 (fun n hn => (r1 n hn).2) kp hT N i
  refine add_le_add (mul_le_mul_of_nonneg_right ?_ E0) ?_
  · have := mul_le_mul (show (1 : ℝ) + 4e-6 ≤ 1 + 4e-6 from le_rfl) b (by linarith) (by norm_num)
    refine (sub_le_sub_right this 1).trans ?_
    norm_num
  · rw [mul_comm]
    exact mul_le_mul_of_nonneg_right (b.trans (by norm_num)) (by positivity)

/-! ## Example -/

/-- Correctly rounded operations, square roots and logarithms of factorials. -/
noncomputable def roundZero (rnd : ℝ → ℝ) : FlZero := { roundMie rnd with lgam := fun x => rnd (Real.log (Real.Gamma x)) }

theorem roundDown_relErrZ : RelErrZ (roundZero (Spec.roundDown 53)) (2 ^ (-52 : ℤ)) where
  toRelErrM := roundDown_relErrM
  lgam := fun n => by
    show |Spec.roundDown 53 (Real.log (Real.Gamma (n + 1))) - _| ≤ _
    rw [Real.Gamma_nat_eq_factorial]
    have := roundDown_double.err (Real.log n.factorial)
    rwa [abs_of_nonneg (Real.log_nonneg (by exact_mod_cast Nat.one_le_iff_ne_zero.mpr n.factorial_ne_zero))] at this

/-- Gold spheres of radii 1 and 4 at the distance 6 in water: the zero-frequency contribution in doubles rounded towards minus infinity. -/
example (frac frac' : ℝ → ℝ → ℝ) : ∃ z' z zm, (roundZero (Spec.roundDown 53)).pairK0 (foldSum (roundZero (Spec.roundDown 53)).toFlFun)
      (fun _ TE TM => Real.log (1 - TE).det + Real.log (1 - TM).det) frac' ⟨⟨.lorentz, eGold, none⟩, ⟨.lorentz, eGold, none⟩, ⟨.lorentz, eWater, none⟩, 1, 4, 6, 20, 25, 0⟩ = .ok z' ∧
    pairK0 frac ⟨⟨.lorentz, eGold, none⟩, ⟨.lorentz, eGold, none⟩, ⟨.lorentz, eWater, none⟩, 1, 4, 6, 20, 25, 0⟩ = .ok z ∧
    pairK0 frac ⟨⟨.pec, [], none⟩, ⟨.pec, [], none⟩, ⟨.lorentz, eWater, none⟩, 1, 4, 6, 20, 25, 0⟩ = .ok zm ∧ |z' - z| ≤ 4.1e-6 * -zm := by
  have h : PairOK ⟨⟨.lorentz, eGold, none⟩, ⟨.lorentz, eGold, none⟩, ⟨.lorentz, eWater, none⟩, 1, 4, 6, 20, 25, 0⟩ :=
    ⟨gold_sphere, gold_sphere, water_medium, by norm_num, by norm_num, by norm_num, by norm_num, by norm_num⟩
  obtain ⟨k1, k2, k3⟩ := zero_double h (by norm_num) (by norm_num) (by norm_num) (by norm_num [shrink])
  obtain ⟨z', z, zm, e1, e2, e3, e4, e5⟩ := C131_mSumme_k0 h le_rfl roundDown_relErrZ (foldSum_sums _) k1 le_rfl
    (ld0 := fun _ TE TM => Real.log (1 - TE).det + Real.log (1 - TM).det) frac frac' (fun _ _ _ _ _ _ TE TM _ _ _ => by rw [sub_self, abs_zero])
  refine ⟨z', z, zm, e1, e2, e3, e5.trans ?_⟩
  rw [mul_zero, zero_mul, add_zero]
  refine mul_le_mul_of_nonneg_right ?_ ((abs_nonneg _).trans e4)
  have b := double_pow (n := 20 + 1) (by norm_num)
  have := mul_le_mul (add_le_add_right k3 1) b (by positivity) (by norm_num)
  refine (sub_le_sub_right this 1).trans ?_
  norm_num

/-- The example of C130, the zero-frequency contribution computed in doubles as well. -/
example (frac frac' : ℝ → ℝ → ℝ) : ∃ (z : ℝ) (x : ℕ → ℝ) (F : List ℝ), pairK0 frac mirrorPair = .ok z ∧
    (∀ n : ℕ, 1 ≤ n → pairVals exactBes mirrorPair [(roundMie (Spec.roundDown 53)).mul 1 n] = .ok [x n]) ∧
    ((roundZero (Spec.roundDown 53)).toFlFun.freeEnergy (foldSum (roundMie (Spec.roundDown 53)).toFlFun) ⟨1, 40, 5, true, .int 0,
      (roundZero (Spec.roundDown 53)).pairGeo (foldSum (roundMie (Spec.roundDown 53)).toFlFun) (fun _ B => Real.log (1 - B.full).det)
      (fun _ TE TM => Real.log (1 - TE).det + Real.log (1 - TM).det) frac'
      (lniknuTable (roundMie (Spec.roundDown 53)).toFlFun) mirrorPair (offTrans mirrorPair)⟩ FT.fresh).1 = .ok F ∧ F.length = 5 ∧
    ∀ (i : ℕ) (v : ℝ), F[i]? = some v →
      |v - (i + 1 : ℕ) * 1 * (0.5 * z + ∑ j ∈ Finset.range (40 / (i + 1)), x ((j + 1) * (i + 1)))| ≤
        4.1e-6 * -((i + 1 : ℕ) * 1 * (0.5 * z + ∑ j ∈ Finset.range (40 / (i + 1)), x ((j + 1) * (i + 1)))) := by
  have h := mirrorPair_ok
  have hA := roundDown_relErrZ
  have u52 : (2 : ℝ) ^ (-52 : ℤ) = 1 / 4503599627370496 := by norm_num
  have rng : ∀ n : ℕ, 1 ≤ n → n ≤ 40 → 0.9 ≤ (roundMie (Spec.roundDown 53)).mul 1 n ∧ (roundMie (Spec.roundDown 53)).mul 1 n ≤ 41 := by
    intro n n1 n2
    have n1' : (1 : ℝ) ≤ n := by exact_mod_cast n1
    have n2' : (n : ℝ) ≤ 40 := by exact_mod_cast n2
    have := abs_le.mp (roundDown_relErrM.mul 1 n)
    rw [one_mul, abs_of_pos (by linarith), u52] at this
    constructor <;> linarith
  obtain ⟨z, zm, x, y, F, e1, e2, r1, r2, r3, r4⟩ := C131_double (A := roundZero (Spec.roundDown 53)) (P := mirrorPair) (η := 0) (frac' := frac')
    (ld0 := fun _ TE TM => Real.log (1 - TE).det + Real.log (1 - TM).det) h le_rfl hA (foldSum_sums _) (by norm_num [mirrorPair]) le_rfl (by norm_num [mirrorPair, shrink])
    (by norm_num [mirrorPair]) (by norm_num [mirrorPair])
    (p := ⟨1, 40, 5, true, .int 0, (roundZero (Spec.roundDown 53)).pairGeo (foldSum (roundMie (Spec.roundDown 53)).toFlFun) (fun _ B => Real.log (1 - B.full).det)
      (fun _ TE TM => Real.log (1 - TE).det + Real.log (1 - TM).det) frac'
      (lniknuTable (roundMie (Spec.roundDown 53)).toFlFun) mirrorPair (offTrans mirrorPair)⟩) rfl rfl rfl one_pos (N := 40) rfl (by norm_num)
    (fun _ _ _ _ _ _ TE TM _ _ _ => by rw [sub_self, abs_zero])
    (fun n n1 n2 => mirror_code (rng n n1 n2).1 (rng n n1 n2).2)
    (fun lo hi hsl => ⟨lo, le_rfl, hsl.2.1, by
      obtain ⟨s1, s2, q, -, s3⟩ := hsl
      exact mirror_alive (rng lo s1 (by omega)).1 (rng lo s1 (by omega)).2⟩) frac
  have em : mirrorPair.metal = mirrorPair := rfl
  have exy : ∀ n : ℕ, 1 ≤ n → y n = x n := fun n hn => by
    obtain ⟨a, b⟩ := r1 n hn
    rw [em, a] at b
    injection b with b
    injection b with b
    exact b.symm
  rw [em, e1] at e2
  injection e2 with e2
  subst e2
  refine ⟨z, x, F, e1, fun n hn => (r1 n hn).1, r2, r3, fun i v hv => ?_⟩
  have := r4 i v hv
  rw [Finset.sum_congr rfl fun j _ => exy ((j + 1) * (i + 1)) (Nat.one_le_iff_ne_zero.mpr (by positivity)), mul_zero, mul_zero, mul_zero, add_zero] at this
  exact this

end CasSph
