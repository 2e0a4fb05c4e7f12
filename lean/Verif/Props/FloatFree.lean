import Verif.Props.Sensitivity

/-! # C133: `free_energy` in rounded and in exact arithmetic -/

namespace CasSph

open Spec

variable {A : FlZero} {u : ℝ} {sum : (p : ℕ) → (Fin p → ℝ) → ℝ} {ld : (n : ℕ) → Blocks n → ℝ} {ld0 : (n : ℕ) → Matrix (Fin n) (Fin n) ℝ → Matrix (Fin n) (Fin n) ℝ → ℝ}
  {T : BesTable} {P : PairIn} {V : ℝ → (m : ℕ) → Fin (P.lmax + 1 - transLmin m) → Fin (P.lssmax + 1 - transLmin m) → VCoef} {δ Λ X ε Z η Y : ℝ} {frac' : ℝ → ℝ → ℝ}

theorem mul_near (hA : RelErr A.toFlFun u) {a b : ℝ} (ha : 0 < a) (hb : 0 < b) : |Real.log (A.mul a b) - Real.log (a * b)| ≤ 2 * u := by
  have h := hA.mul a b
  have u0 := hA.u0
  have u1 := hA.u1
  have p : 0 < a * b := mul_pos ha hb
  rw [abs_of_pos p] at h
  obtain ⟨h1, h2⟩ := abs_le.1 h
  have q : 0 < A.mul a b := by nlinarith
  rw [abs_le]
  constructor
  · have e : Real.log (a * b) - Real.log (A.mul a b) = Real.log (a * b / A.mul a b) := (Real.log_div p.ne' q.ne').symm
    have l := Real.log_le_sub_one_of_pos (div_pos p q)
    have : a * b / A.mul a b - 1 ≤ 2 * u := by
      rw [sub_le_iff_le_add, div_le_iff₀ q]
      have m1 : (2 * u + 1) * (a * b - u * (a * b)) ≤ (2 * u + 1) * A.mul a b := mul_le_mul_of_nonneg_left (by linarith) (by linarith)
      have m2 : 0 ≤ u * (1 - 2 * u) * (a * b) := mul_nonneg (mul_nonneg u0 (by linarith)) p.le
      nlinarith
    linarith
  · have e : Real.log (A.mul a b) - Real.log (a * b) = Real.log (A.mul a b / (a * b)) := (Real.log_div q.ne' p.ne').symm
    have l := Real.log_le_sub_one_of_pos (div_pos q p)
    have : A.mul a b / (a * b) - 1 ≤ u := by
      rw [sub_le_iff_le_add, div_le_iff₀ p]
      nlinarith
    linarith

theorem same_data (h : PairOK P) {w k k' : ℝ} (hk : 0 < k) (hk' : 0 < k') (hkk : |Real.log k' - Real.log k| ≤ w) : DataErr w P P k' k := by
  have z : ∀ x : ℝ, |Real.log x - Real.log x| ≤ w := fun x => by rw [sub_self, abs_zero]; exact (abs_nonneg _).trans hkk
  exact ⟨rfl, rfl, z _, z _, z _, hkk, C132_same_material h.m1.phys hk hk' hkk, C132_same_material h.m2.phys hk hk' hkk, C132_same_material h.m3.phys hk hk' hkk⟩

/-- **C133.** The rounding of the wavenumbers included: every entry of `free_energy` in rounded arithmetic against the same entry in exact arithmetic. -/
theorem C133_free_energy (h : PairOK P) (hprec : P.precision ≤ 0) (hA : RelErrZ A u) (hS : Sums A.toFlFun sum) (hη : 5 * δ + 3 * u * Λ + 15 * u ≤ 1 / 100) (hε : 0 ≤ ε)
    (hη0 : 0 ≤ η) (hs : (1 + asmErr u Z (mieErr u δ Λ X Z P.lssmax) ε P.lssmax) * shrink P.r1 P.r2 P.L < 1)
    (hs0 : (1 + zeroErr u (P.lmax + P.lssmax) P.r1 P.r2 P.L) * shrink P.r1 P.r2 P.L < 1) (κ0 : 0 ≤ pairErr P u δ Λ X ε Z) {κ : ℝ}
    (hκ : pairErr P u δ Λ X ε Z ≤ κ) (hκ0 : pairErrZ P u ≤ κ) (hu : u ≤ 1 / 1600)
    {p : FTParams} (hg : p.geo = A.pairGeo sum ld ld0 frac' T P V) (hp : p.nprocs.isZero) (ha : p.analyticN0 = true) (hT : 0 < p.deltaT) {N : ℕ} (hN : p.nmax = N)
    (hd : DetErr0 A sum ld0 frac' P η) (hc : ∀ n : ℕ, 1 ≤ n → n ≤ N → ComputedAt A.toFlMie sum ld T P V δ Λ X ε Z η (A.mul p.deltaT n))
    (hal : ∀ lo hi, IsSlice N lo hi → ∃ n : ℕ, lo ≤ n ∧ n ≤ hi ∧ Alive A.toFlMie sum ld T P V (A.mul p.deltaT n))
    (hY0 : 0 ≤ Y) (hY : ∀ n : ℕ, 1 ≤ n → n ≤ N → ∀ e, P.mat3.epsilon (p.deltaT * n) = .ok e → p.deltaT * n * P.L * Real.sqrt e ≤ Y)
    (hsY : (1 + dataErr (2 * u) Y P.lssmax) * shrink P.r1 P.r2 P.L < 1) (frac : ℝ → ℝ → ℝ) :
    ∃ F G Gm : List ℝ, (A.toFlFun.freeEnergy sum p FT.fresh).1 = .ok F ∧ (freeEnergy { p with geo := pairGeo exactBes frac P } FT.fresh).1 = .ok G ∧
      (freeEnergy { p with geo := pairGeo exactBes frac P.metal } FT.fresh).1 = .ok Gm ∧ F.length = p.maxstep.toNat ∧ G.length = p.maxstep.toNat ∧ Gm.length = p.maxstep.toNat ∧
      ∀ (i : ℕ) (v x y : ℝ), F[i]? = some v → G[i]? = some x → Gm[i]? = some y → |x| ≤ -y ∧
        |v - x| ≤ ((1 + κ) * (1 + u) ^ (P.lmax + 1 + (N / (i + 1) + 4)) * (1 + gain (dataErr (2 * u) Y P.lssmax) (shrink P.r1 P.r2 P.L)) - 1) * -y +
          (i + 1 : ℕ) * p.deltaT * ((N / (i + 1) : ℕ) + 1 / 2) * ((2 * P.lmax + 1 : ℕ) * η) * (1 + u) ^ (P.lmax + 1 + (N / (i + 1) + 4)) := by
  obtain ⟨z, zm, a, b, F, hz, hzm, hab, hF, hl, hv⟩ := C131_pair h hprec hA hS hη hε hη0 hs hs0 κ0 hκ hκ0 hg hp ha hT hN hd hc hal frac
  have hN0 : 0 ≤ p.nmax := by omega
  obtain ⟨G, hG, hlG, hvG⟩ := free_sum (p := { p with geo := pairGeo exactBes frac P }) h hprec hz rfl hp ha hT hN0
  obtain ⟨Gm, hGm, hlm, hvm⟩ := free_sum (p := { p with geo := pairGeo exactBes frac P.metal }) h.metal hprec hzm rfl hp ha hT hN0
  refine ⟨F, G, Gm, hF, hG, hGm, hl, hlG, hlm, fun i v x y hvi hx hy => ?_⟩
  have e1 := hv i v hvi
  have e2 := hvG i x hx
  have e3 := hvm i y hy
  simp only at e2 e3
  have hn : p.nmax.toNat = N := by omega
  rw [hn] at e2 e3
  have u0 := hA.u0
  obtain ⟨t, ht⟩ : ∃ t, t = p.deltaT := ⟨_, rfl⟩
  rw [← ht] at e1 e2 e3 hT hab hY ⊢
  obtain ⟨J, hJ⟩ : ∃ J, J = N / (i + 1) := ⟨_, rfl⟩
  rw [← hJ] at e1 e2 e3 ⊢
  obtain ⟨g, hgd⟩ : ∃ g, g = gain (dataErr (2 * u) Y P.lssmax) (shrink P.r1 P.r2 P.L) := ⟨_, rfl⟩
  have g0 : 0 ≤ g := by rw [hgd]; exact gain_nonneg (dataErr_nonneg (by linarith) hY0 _) hsY
  rw [← hgd]
  have n1 : ∀ j : ℕ, 1 ≤ (j + 1) * (i + 1) := fun j => Nat.one_le_iff_ne_zero.2 (by positivity)
  have k0 : ∀ n : ℕ, 1 ≤ n → 0 < t * n := fun n hn => mul_pos hT (by exact_mod_cast hn)
  have kc : ∀ n : ℕ, 1 ≤ n → 0 < A.mul t n := fun n hn => hA.toRelErr.mul_pos' hT (by exact_mod_cast hn)
  have ea : ∀ n : ℕ, 1 ≤ n → a n = pairSum P (A.mul t n) ∧ b n = pairSum P.metal (A.mul t n) := by
    intro n hn
    obtain ⟨q1, q2⟩ := hab n hn
    rw [pairVals_sum h hprec (List.cons_ne_nil _ _) (fun k hk => by rw [List.mem_singleton.mp hk]; exact kc n hn)] at q1
    rw [pairVals_sum h.metal hprec (List.cons_ne_nil _ _) (fun k hk => by rw [List.mem_singleton.mp hk]; exact kc n hn)] at q2
    injection q1 with q1
    injection q2 with q2
    rw [List.map_singleton] at q1 q2
    injection q1 with q1
    injection q2 with q2
    exact ⟨q1.symm, q2.symm⟩
  have near : ∀ n : ℕ, 1 ≤ n → |Real.log (A.mul t n) - Real.log (t * n)| ≤ 2 * u := fun n hn => mul_near hA.toRelErr hT (by exact_mod_cast hn)
  have le : ∀ j ∈ Finset.range J, (j + 1) * (i + 1) ≤ N := by
    intro j hj
    rw [hJ, Finset.mem_range] at hj
    exact (Nat.mul_le_mul_right (i + 1) (show j + 1 ≤ N / (i + 1) from hj)).trans (Nat.div_mul_le_self _ _)
  have bound : ∀ n : ℕ, 1 ≤ n → n ≤ N → t * n * P.L * Real.sqrt (P.mat3.epsV (t * n)) ≤ Y := fun n h1 h2 =>
    hY n h1 h2 _ (medium_eps (medium_val h.m3.cls h.m3.phys (k0 n h1)).1)
  have s1 : ∀ j ∈ Finset.range J, |a ((j + 1) * (i + 1)) - pairSum P (t * ((j + 1) * (i + 1) : ℕ))| ≤ g * -pairSum P.metal (t * ((j + 1) * (i + 1) : ℕ)) := by
    intro j hj
    rw [(ea _ (n1 j)).1, hgd]
    exact pairSum_sens h h (k0 _ (n1 j)) (kc _ (n1 j)) (same_data h (k0 _ (n1 j)) (kc _ (n1 j)) (near _ (n1 j))) (by linarith) (bound _ (n1 j) (le j hj)) hsY
  have s2 : ∀ j ∈ Finset.range J, |b ((j + 1) * (i + 1)) - pairSum P.metal (t * ((j + 1) * (i + 1) : ℕ))| ≤ g * -pairSum P.metal (t * ((j + 1) * (i + 1) : ℕ)) := by
    intro j hj
    rw [(ea _ (n1 j)).2, hgd]
    exact pairSum_sens h.metal h.metal (k0 _ (n1 j)) (kc _ (n1 j)) (same_data h.metal (k0 _ (n1 j)) (kc _ (n1 j)) (near _ (n1 j))) (by linarith) (bound _ (n1 j) (le j hj)) hsY
  have S1 := (Finset.abs_sum_le_sum_abs _ _).trans (Finset.sum_le_sum s1)
  have S2 := (Finset.abs_sum_le_sum_abs _ _).trans (Finset.sum_le_sum s2)
  rw [Finset.sum_sub_distrib, ← Finset.mul_sum, Finset.sum_neg_distrib] at S1 S2
  have S3 := (Finset.abs_sum_le_sum_abs _ _).trans (Finset.sum_le_sum fun j (_ : j ∈ Finset.range J) => pairSum_abs h (k0 _ (n1 j)))
  rw [Finset.sum_neg_distrib] at S3
  have zabs : |z| ≤ -zm := by
    obtain ⟨z2, zm2, r1, r2, r3, -⟩ := C113_mSumme_k0 h h.metal (.metal P) hprec hprec frac
    rw [hz] at r1
    rw [hzm] at r2
    injection r1 with r1
    injection r2 with r2
    subst r1 r2
    exact r3 (equalContrast_same pec_sphere h.m3)
  have zm0 := (abs_nonneg _).trans zabs
  have E0 := metal_energy_nonneg h hprec hzm (fun n hn => (hab n hn).2) kc hT N i
  rw [← hJ] at E0
  have i0 : 0 < ((i + 1 : ℕ) : ℝ) * t := by positivity
  rw [e2, e3]
  obtain ⟨W, hW⟩ : ∃ W, W = (1 + u) ^ (P.lmax + 1 + (J + 4)) := ⟨_, rfl⟩
  have W1 : 1 ≤ W := by rw [hW]; exact one_le_pow₀ (by linarith)
  rw [← hW] at e1 ⊢
  have κ1 : 0 ≤ κ := κ0.trans hκ
  have cW : 0 ≤ (1 + κ) * W - 1 := by nlinarith
  generalize ∑ j ∈ Finset.range J, a ((j + 1) * (i + 1)) = sa at S1 e1
  generalize ∑ j ∈ Finset.range J, b ((j + 1) * (i + 1)) = sb at S2 e1 E0
  generalize ∑ j ∈ Finset.range J, pairSum P (t * ((j + 1) * (i + 1) : ℕ)) = s at S1 S3 ⊢
  generalize ∑ j ∈ Finset.range J, pairSum P.metal (t * ((j + 1) * (i + 1) : ℕ)) = sm at S1 S2 S3 ⊢
  refine ⟨?_, ?_⟩
  · rw [abs_mul, abs_of_pos i0, ← mul_neg]
    refine mul_le_mul_of_nonneg_left ((abs_add_le _ _).trans ?_) i0.le
    rw [abs_mul 0.5, abs_of_pos (by norm_num : (0 : ℝ) < 0.5)]
    linarith
  · generalize (i + 1 : ℕ) * t * ((J : ℝ) + 1 / 2) * ((2 * P.lmax + 1 : ℕ) * η) * W = D at e1 ⊢
    generalize ((i + 1 : ℕ) : ℝ) * t = I at e1 i0 ⊢
    have d1 : |I * (0.5 * z + sa) - I * (0.5 * z + s)| ≤ g * -(I * (0.5 * zm + sm)) := by
      rw [← mul_sub, abs_mul, abs_of_pos i0, add_sub_add_left_eq_sub]
      have m := mul_le_mul_of_nonneg_left S1 i0.le
      have : 0 ≤ I * (g * (0.5 * -zm)) := by positivity
      linarith
    have d2 : -(I * (0.5 * zm + sb)) ≤ (1 + g) * -(I * (0.5 * zm + sm)) := by
      have m := mul_le_mul_of_nonneg_left (show -sb ≤ (1 + g) * -sm by linarith [(abs_le.1 S2).1]) i0.le
      have : 0 ≤ I * (g * (0.5 * -zm)) := by positivity
      linarith
    have tri := abs_add_le (v - I * (0.5 * z + sa)) (I * (0.5 * z + sa) - I * (0.5 * z + s))
    rw [sub_add_sub_cancel] at tri
    have m := mul_le_mul_of_nonneg_left d2 cW
    refine tri.trans ((add_le_add e1 d1).trans ?_)
    linarith

/-- **C133 in double precision.** `C131_double` with the wavenumbers `deltaT*n` of the exact sum, for `k L √ε ≤ 1e6`. -/
theorem C133_double (h : PairOK P) (hprec : P.precision ≤ 0) (hA : RelErrZ A (2 ^ (-52 : ℤ))) (hS : Sums A.toFlFun sum) (hl : P.lssmax ≤ 100) (hη0 : 0 ≤ η)
    (hθ : shrink P.r1 P.r2 P.L ≤ 0.9) (h1 : P.L ≤ 1e40 * P.r1) (h2 : P.L ≤ 1e40 * P.r2)
    {p : FTParams} (hg : p.geo = A.pairGeo sum ld ld0 frac' T P V) (hp : p.nprocs.isZero) (ha : p.analyticN0 = true) (hT : 0 < p.deltaT) {N : ℕ} (hN : p.nmax = N)
    (hN' : N ≤ 1000000) (hd : DetErr0 A sum ld0 frac' P η) (hc : ∀ n : ℕ, 1 ≤ n → n ≤ N → CodeAt A.toFlMie sum ld T P V η (A.mul p.deltaT n))
    (hal : ∀ lo hi, IsSlice N lo hi → ∃ n : ℕ, lo ≤ n ∧ n ≤ hi ∧ Alive A.toFlMie sum ld T P V (A.mul p.deltaT n))
    (hY : ∀ n : ℕ, 1 ≤ n → n ≤ N → ∀ e, P.mat3.epsilon (p.deltaT * n) = .ok e → p.deltaT * n * P.L * Real.sqrt e ≤ 1e6) (frac : ℝ → ℝ → ℝ) :
    ∃ F G Gm : List ℝ, (A.toFlFun.freeEnergy sum p FT.fresh).1 = .ok F ∧ (freeEnergy { p with geo := pairGeo exactBes frac P } FT.fresh).1 = .ok G ∧
      (freeEnergy { p with geo := pairGeo exactBes frac P.metal } FT.fresh).1 = .ok Gm ∧ F.length = p.maxstep.toNat ∧ G.length = p.maxstep.toNat ∧ Gm.length = p.maxstep.toNat ∧
      ∀ (i : ℕ) (v x y : ℝ), F[i]? = some v → G[i]? = some x → Gm[i]? = some y → |x| ≤ -y ∧
        |v - x| ≤ 4.3e-6 * -y + 1.1 * ((i + 1 : ℕ) * p.deltaT * ((N / (i + 1) : ℕ) + 1 / 2) * ((2 * P.lmax + 1 : ℕ) * η)) := by
  obtain ⟨g1, g2, g3⟩ := pair_double h hl hθ
  obtain ⟨k1, k2, k3⟩ := zero_double h hl h1 h2 hθ
  have kp : ∀ n : ℕ, 1 ≤ n → 0 < A.mul p.deltaT n := fun n hn => hA.toRelErr.mul_pos' hT (by exact_mod_cast hn)
  have l2 := h.hls
  have u52 : (2 : ℝ) ^ (-52 : ℤ) = 1 / 4503599627370496 := by norm_num
  have u0 : (0 : ℝ) ≤ 2 ^ (-52 : ℤ) := by positivity
  have hl' : (P.lssmax : ℝ) ≤ 100 := by exact_mod_cast hl
  have d0 : 0 ≤ dataErr (2 * 2 ^ (-52 : ℤ)) 1e6 P.lssmax := dataErr_nonneg (by linarith) (by norm_num) _
  have d1 : dataErr (2 * 2 ^ (-52 : ℤ)) 1e6 P.lssmax ≤ 1.2e-8 := by
    unfold dataErr
    rw [u52]
    obtain ⟨s, hs⟩ : ∃ s, s = 2 * (1 / 4503599627370496 : ℝ) * (120 + 26 * ((P.lssmax : ℝ) + 1 + 1e6)) := ⟨_, rfl⟩
    have a0 : 0 ≤ s := by rw [hs]; positivity
    have a1 : s ≤ 1.16e-8 := by rw [hs]; linarith
    rw [← hs]
    have q := (abs_le.mp (Real.abs_exp_sub_one_sub_id_le (x := s) (by rw [abs_of_nonneg a0]; linarith))).2
    have : s ^ 2 ≤ 1.16e-8 * 1.16e-8 := by rw [sq]; exact mul_le_mul a1 a1 a0 (by norm_num)
    linarith
  have sh := shrink_mem h.h1 h.h2 h.sep
  have hsY : (1 + dataErr (2 * 2 ^ (-52 : ℤ)) 1e6 P.lssmax) * shrink P.r1 P.r2 P.L ≤ 0.91 := by
    have := mul_le_mul (show 1 + dataErr (2 * 2 ^ (-52 : ℤ)) 1e6 P.lssmax ≤ 1 + 1.2e-8 by linarith) hθ sh.1.le (by norm_num)
    linarith
  have gY : gain (dataErr (2 * 2 ^ (-52 : ℤ)) 1e6 P.lssmax) (shrink P.r1 P.r2 P.L) ≤ 1.4e-7 := by
    unfold gain
    rw [div_le_iff₀ (by linarith)]
    linarith
  have gY0 : 0 ≤ gain (dataErr (2 * 2 ^ (-52 : ℤ)) 1e6 P.lssmax) (shrink P.r1 P.r2 P.L) := gain_nonneg d0 (by linarith)
  obtain ⟨F, G, Gm, r1, r2, r3, r4, r5, r6, r7⟩ := C133_free_energy (Y := 1e6) h hprec hA hS (by norm_num) (by norm_num) hη0 g1 k1 g2 g3 k3 (by rw [u52]; norm_num) hg hp ha hT hN hd
    (fun n h1 h2 => (hc n h1 h2).computed h hA.toRelErrM hl (kp n h1)) hal (by norm_num) hY (by linarith) frac
  refine ⟨F, G, Gm, r1, r2, r3, r4, r5, r6, fun i v x y hv hx hy => ?_⟩
  obtain ⟨q1, q2⟩ := r7 i v x y hv hx hy
  refine ⟨q1, q2.trans ?_⟩
  have J1 : N / (i + 1) ≤ N := Nat.div_le_self _ _
  have b := double_pow (n := P.lmax + 1 + (N / (i + 1) + 4)) (by omega)
  have b1 : 1 ≤ (1 + (2 : ℝ) ^ (-52 : ℤ)) ^ (P.lmax + 1 + (N / (i + 1) + 4)) := one_le_pow₀ (by linarith)
  generalize (1 + (2 : ℝ) ^ (-52 : ℤ)) ^ (P.lmax + 1 + (N / (i + 1) + 4)) = W at b b1 ⊢
  generalize gain (dataErr (2 * 2 ^ (-52 : ℤ)) 1e6 P.lssmax) (shrink P.r1 P.r2 P.L) = g at gY gY0 ⊢
  refine add_le_add (mul_le_mul_of_nonneg_right ?_ ((abs_nonneg _).trans q1)) ?_
  · have m1 := mul_le_mul (show (1 : ℝ) + 4e-6 ≤ 1 + 4e-6 from le_rfl) b (by linarith) (by norm_num)
    have m2 := mul_le_mul m1 (show 1 + g ≤ 1 + 1.4e-7 by linarith) (by linarith) (by norm_num)
    refine (sub_le_sub_right m2 1).trans ?_
    norm_num
  · rw [mul_comm]
    exact mul_le_mul_of_nonneg_right (b.trans (by norm_num)) (by positivity)

/-- The example of C131: `free_energy` in doubles is within 4.3e-6 of `free_energy` in exact arithmetic. -/
example (frac frac' : ℝ → ℝ → ℝ) : ∃ F G : List ℝ,
    ((roundZero (Spec.roundDown 53)).toFlFun.freeEnergy (foldSum (roundMie (Spec.roundDown 53)).toFlFun) ⟨1, 40, 5, true, .int 0,
      (roundZero (Spec.roundDown 53)).pairGeo (foldSum (roundMie (Spec.roundDown 53)).toFlFun) (fun _ B => Real.log (1 - B.full).det)
      (fun _ TE TM => Real.log (1 - TE).det + Real.log (1 - TM).det) frac'
      (lniknuTable (roundMie (Spec.roundDown 53)).toFlFun) mirrorPair (offTrans mirrorPair)⟩ FT.fresh).1 = .ok F ∧
    (freeEnergy ⟨1, 40, 5, true, .int 0, pairGeo exactBes frac mirrorPair⟩ FT.fresh).1 = .ok G ∧ F.length = 5 ∧ G.length = 5 ∧
    ∀ (i : ℕ) (v x : ℝ), F[i]? = some v → G[i]? = some x → |v - x| ≤ 4.3e-6 * -x := by
  have h := mirrorPair_ok
  have u52 : (2 : ℝ) ^ (-52 : ℤ) = 1 / 4503599627370496 := by norm_num
  have rng : ∀ n : ℕ, 1 ≤ n → n ≤ 40 → 0.9 ≤ (roundMie (Spec.roundDown 53)).mul 1 n ∧ (roundMie (Spec.roundDown 53)).mul 1 n ≤ 41 := by
    intro n n1 n2
    have n1' : (1 : ℝ) ≤ n := by exact_mod_cast n1
    have n2' : (n : ℝ) ≤ 40 := by exact_mod_cast n2
    have := abs_le.mp (roundDown_relErrM.mul 1 n)
    rw [one_mul, abs_of_pos (by linarith), u52] at this
    constructor <;> linarith
  obtain ⟨F, G, Gm, r1, r2, r3, r4, r5, -, r6⟩ := C133_double (A := roundZero (Spec.roundDown 53)) (P := mirrorPair) (η := 0) (frac' := frac')
    (ld0 := fun _ TE TM => Real.log (1 - TE).det + Real.log (1 - TM).det) h le_rfl roundDown_relErrZ (foldSum_sums _) (by norm_num [mirrorPair]) le_rfl
    (by norm_num [mirrorPair, shrink]) (by norm_num [mirrorPair]) (by norm_num [mirrorPair])
    (p := ⟨1, 40, 5, true, .int 0, (roundZero (Spec.roundDown 53)).pairGeo (foldSum (roundMie (Spec.roundDown 53)).toFlFun) (fun _ B => Real.log (1 - B.full).det)
      (fun _ TE TM => Real.log (1 - TE).det + Real.log (1 - TM).det) frac'
      (lniknuTable (roundMie (Spec.roundDown 53)).toFlFun) mirrorPair (offTrans mirrorPair)⟩) rfl rfl rfl one_pos (N := 40) rfl (by norm_num)
    (fun _ _ _ _ _ _ TE TM _ _ _ => by rw [sub_self, abs_zero])
    (fun n n1 n2 => mirror_code (rng n n1 n2).1 (rng n n1 n2).2)
    (fun lo hi hsl => ⟨lo, le_rfl, hsl.2.1, by
      obtain ⟨s1, s2, q, -, s3⟩ := hsl
      exact mirror_alive (rng lo s1 (by omega)).1 (rng lo s1 (by omega)).2⟩)
    (fun n n1 n2 e he => by
      have n2' : (n : ℝ) ≤ 40 := by exact_mod_cast n2
      have n0 : (0 : ℝ) ≤ n := Nat.cast_nonneg n
      have e1 : e = 1 := by
        have : mirrorPair.mat3.epsilon (1 * (n : ℝ)) = .ok 1 := rfl
        exact (Except.ok.inj (this.symm.trans he)).symm
      have L : mirrorPair.L = 0.6 := rfl
      rw [e1, L, Real.sqrt_one]
      linarith) frac
  have em : mirrorPair.metal = mirrorPair := rfl
  rw [em] at r3
  have eG : Gm = G := Except.ok.inj (r3.symm.trans r2)
  subst eG
  refine ⟨F, Gm, r1, r2, r4, r5, fun i v x hv hx => ?_⟩
  have := (r6 i v x x hv hx hx).2
  rw [mul_zero, mul_zero, mul_zero, add_zero] at this
  exact this

end CasSph
