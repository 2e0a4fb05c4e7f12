import Verif.Lemmas.BallDist

/-! # C136: two stratified spheres: complete sums, distance, cut-offs -/

namespace CasSph

open Spec Filter Topology

variable {P : BallPair} {R1 R2 : ℝ} {frac : ℝ → ℝ → ℝ} {k t L : ℝ}

/-! ## Sums over `m` -/

theorem ballSum_sign (h : BallPairOK P R1 R2) (hk : 0 < k) :
    (P.SameSide k → ballSum P k ≤ 0) ∧ (P.OppositeSide k → 0 ≤ ballSum P k) :=
  (h.part_le hk (M := P.lmax) le_rfl).2

theorem ballSum_strict (h : BallPairOK P R1 R2) (hk : 0 < k) (c1 : P.ball1.Contrast P.H P.mat3 k) (c2 : P.ball2.Contrast P.H P.mat3 k) :
    (P.SameSide k → ballSum P k < 0) ∧ (P.OppositeSide k → 0 < ballSum P k) := by
  have key := fun m (hm : m ≤ P.lmax) => lnBall_strict h hk c1 c2 (m := m) hm
  unfold ballSum
  refine ⟨fun hs => ?_, fun hs => ?_⟩
  · have := (key 0 (by omega)).1 hs
    have := Finset.sum_nonpos fun m (hm : m ∈ Finset.Icc 1 P.lmax) => ((key m (Finset.mem_Icc.mp hm).2).1 hs).le
    linarith
  · have := (key 0 (by omega)).2 hs
    have := Finset.sum_nonneg fun m (hm : m ∈ Finset.Icc 1 P.lmax) => ((key m (Finset.mem_Icc.mp hm).2).2 hs).le
    linarith

theorem ballSum_far (h : BallPairOK P R1 R2) (hk : 0 < k) (hs : P.SameSide k) (hL : P.L ≤ L) :
    Real.exp (-(2 * k * (L - P.L))) * ballSum P k ≤ ballSum (P.at L) k := by
  have key := fun m (hm : m ≤ P.lmax) => lnBall_far h hk hs hL hm
  have e : ballSum (P.at L) k = lnBall (P.at L) 0 k + 2 * ∑ m ∈ Finset.Icc 1 P.lmax, lnBall (P.at L) m k := rfl
  rw [e]
  unfold ballSum
  have h0 := key 0 (by omega)
  have hs : Real.exp (-(2 * k * (L - P.L))) * ∑ m ∈ Finset.Icc 1 P.lmax, lnBall P m k ≤ ∑ m ∈ Finset.Icc 1 P.lmax, lnBall (P.at L) m k := by
    rw [Finset.mul_sum]
    refine Finset.sum_le_sum fun m hm' => ?_
    have := key m (Finset.mem_Icc.mp hm').2
    linarith
  linarith

theorem ballSum_gm (h : BallPairOK P R1 R2) (hk : 0 < k) (hs : P.SameSide k) (h0 : 0 < t) (h1 : t < 1) (hL : P.L ≤ L) :
    GMRel t (-ballSum P k) (-ballSum (P.at L) k) (-ballSum (P.at (t * P.L + (1 - t) * L)) k) := by
  have e : ∀ L, ballSum (P.at L) k = lnBall (P.at L) 0 k + 2 * ∑ m ∈ Finset.Icc 1 P.lmax, lnBall (P.at L) m k := fun _ => rfl
  rw [e, e]
  unfold ballSum
  exact neg_sum_rel (gmRel_closed h0 h1) (f := fun m => lnBall P m k) (g := fun m => lnBall (P.at L) m k)
    (h := fun m => lnBall (P.at (t * P.L + (1 - t) * L)) m k) fun m hm => lnBall_gm h hk hs h0 h1 hL hm

theorem ballSum_cut_le (h : BallPairOK P R1 R2) (hk : 0 < k) (hs : P.SameSide k) {a b : ℕ} (ha : P.lmax ≤ a) (hb : P.lssmax ≤ b) (hab : a ≤ b) :
    ballSum (P.cut a b) k ≤ ballSum P k := by
  have key := fun m (hm : m ≤ P.lmax) => lnBall_cut_le h hk hs ha hb hab hm
  have hn := (h.cut (h.hl.trans ha) hab).facts hk
  have e : ballSum (P.cut a b) k = lnBall (P.cut a b) 0 k + 2 * ∑ m ∈ Finset.Icc 1 a, lnBall (P.cut a b) m k := rfl
  rw [e]
  unfold ballSum
  have h0 := key 0 (by omega)
  have s1 := Finset.sum_le_sum fun m (hm : m ∈ Finset.Icc 1 P.lmax) => key m (Finset.mem_Icc.mp hm).2
  have s2 : ∑ m ∈ Finset.Icc 1 a, lnBall (P.cut a b) m k ≤ ∑ m ∈ Finset.Icc 1 P.lmax, lnBall (P.cut a b) m k := by
    have := Finset.sum_le_sum_of_subset_of_nonneg (f := fun m => -lnBall (P.cut a b) m k) (Finset.Icc_subset_Icc_right (a := 1) ha) fun m hm _ =>
      neg_nonneg.mpr ((hn.2.2.2 m (Finset.mem_Icc.mp hm).2).1 hs)
    rw [Finset.sum_neg_distrib, Finset.sum_neg_distrib] at this
    linarith
  linarith

/-! ## The claims -/

/-- **C136, complete sums.** If `precision ≤ 0` and every sphere lies on one side of the medium, no term is left out. -/
theorem C136_complete (h : BallPairOK P R1 R2) (hprec : P.precision ≤ 0) {ks : List ℝ} (hne : ks ≠ []) (hk : ∀ k ∈ ks, 0 < k)
    (hs : ∀ k ∈ ks, P.SameSide k ∨ P.OppositeSide k) :
    ∃ vs, ballVals exactBes P ks = .ok vs ∧ vs.length = ks.length ∧ ∀ (j : ℕ) (k x : ℝ), ks[j]? = some k → vs[j]? = some x →
      x = lnBall P 0 k + 2 * ∑ m ∈ Finset.Icc 1 P.lmax, lnBall P m k ∧
      (P.ball1.Contrast P.H P.mat3 k → P.ball2.Contrast P.H P.mat3 k → (P.SameSide k → x < 0) ∧ (P.OppositeSide k → 0 < x)) ∧
      (¬(P.ball1.Contrast P.H P.mat3 k ∧ P.ball2.Contrast P.H P.mat3 k) → x = 0) := by
  refine ⟨_, ballVals_sum h hprec hne hk hs, by simp, fun j k x hj hx => ?_⟩
  rw [List.getElem?_map, hj] at hx
  injection hx with hx
  subst hx
  have hkm := List.mem_of_getElem? hj
  refine ⟨rfl, fun c1 c2 => ballSum_strict h (hk k hkm) c1 c2, fun hc => ?_⟩
  have hz := fun n (hn : n ≤ P.lmax) => lnBall_zero h (hk k hkm) (hs k hkm) hc (m := n) hn
  unfold ballSum
  rw [hz 0 (by omega), Finset.sum_eq_zero fun n hn => hz n (Finset.mem_Icc.mp hn).2]
  ring

/-- **C136, `mSumme`, distance.** Spheres on the same side of the medium: from `L` to `L'` every value decreases in size by the factor `exp(-2 k (L' - L))` at least. -/
theorem C136_mSumme (h : BallPairOK P R1 R2) (hprec : P.precision ≤ 0) (hL : P.L ≤ L) {ks : List ℝ} (hne : ks ≠ []) (hk : ∀ k ∈ ks, 0 < k)
    (hs : ∀ k ∈ ks, P.SameSide k) :
    ∃ vs ws, ballVals exactBes P ks = .ok vs ∧ ballVals exactBes (P.at L) ks = .ok ws ∧ vs.length = ks.length ∧ ws.length = ks.length ∧
      ∀ (j : ℕ) (k x y : ℝ), ks[j]? = some k → vs[j]? = some x → ws[j]? = some y →
        |y| ≤ Real.exp (-(2 * k * (L - P.L))) * |x| ∧ x ≤ y ∧ y ≤ 0 ∧
        (P.L < L → P.ball1.Contrast P.H P.mat3 k → P.ball2.Contrast P.H P.mat3 k → x < y) := by
  refine ⟨_, _, ballVals_sum h hprec hne hk fun k hkm => .inl (hs k hkm), ballVals_sum (P := P.at L) (h.at hL) hprec hne hk fun k hkm => .inl (hs k hkm),
    by simp, by simp, fun j k x y hj hx hy => ?_⟩
  rw [List.getElem?_map, hj] at hx hy
  injection hx with hx
  injection hy with hy
  have hkm := List.mem_of_getElem? hj
  have hk0 : 0 < k := hk k hkm
  have h1 := ballSum_far h hk0 (hs k hkm) hL
  have h2 := (ballSum_sign h hk0).1 (hs k hkm)
  have h3 := (ballSum_sign (h.at hL) hk0).1 (hs k hkm)
  rw [hx] at h1 h2
  rw [hy] at h1 h3
  have he : Real.exp (-(2 * k * (L - P.L))) ≤ 1 := by
    rw [Real.exp_le_one_iff]
    have := mul_nonneg hk0.le (sub_nonneg.mpr hL)
    linarith
  refine ⟨by rw [abs_of_nonpos h2, abs_of_nonpos h3]; linarith, by nlinarith, h3, fun hlt c1 c2 => ?_⟩
  have h4 := (ballSum_strict h hk0 c1 c2).1 (hs k hkm)
  rw [hx] at h4
  have he' : Real.exp (-(2 * k * (L - P.L))) < 1 := by
    rw [Real.exp_lt_one_iff]
    have := mul_pos hk0 (sub_pos.mpr hlt)
    linarith
  nlinarith

/-- **C136, `mSumme`, three distances.** -/
theorem C136_mSumme_convex (h : BallPairOK P R1 R2) (hprec : P.precision ≤ 0) (h0 : 0 < t) (h1 : t < 1) (hL : P.L ≤ L) {ks : List ℝ}
    (hne : ks ≠ []) (hk : ∀ k ∈ ks, 0 < k) (hs : ∀ k ∈ ks, P.SameSide k) :
    ∃ vs us ws, ballVals exactBes P ks = .ok vs ∧ ballVals exactBes (P.at L) ks = .ok us ∧ ballVals exactBes (P.at (t * P.L + (1 - t) * L)) ks = .ok ws ∧
      vs.length = ks.length ∧ us.length = ks.length ∧ ws.length = ks.length ∧
      ∀ (j : ℕ) (x y w : ℝ), vs[j]? = some x → us[j]? = some y → ws[j]? = some w → Spec.LogConvexAt t x y w := by
  have m1 : P.L ≤ t * P.L + (1 - t) * L := by nlinarith
  have hs' : ∀ k ∈ ks, P.SameSide k ∨ P.OppositeSide k := fun k hkm => .inl (hs k hkm)
  refine ⟨_, _, _, ballVals_sum h hprec hne hk hs', ballVals_sum (P := P.at L) (h.at hL) hprec hne hk hs',
    ballVals_sum (P := P.at (t * P.L + (1 - t) * L)) (h.at m1) hprec hne hk hs', by simp, by simp, by simp, fun j x y w hx hy hw => ?_⟩
  rw [List.getElem?_map, Option.map_eq_some_iff] at hx hy hw
  obtain ⟨k, hj, rfl⟩ := hx
  obtain ⟨k', hj', rfl⟩ := hy
  obtain ⟨k'', hj'', rfl⟩ := hw
  rw [hj] at hj' hj''
  injection hj' with e
  injection hj'' with e'
  subst e e'
  have hkm := List.mem_of_getElem? hj
  exact (ballSum_gm h (hk k hkm) (hs k hkm) h0 h1 hL).logConvex h0.le h1.le

/-- **C136, `mSumme`, cut-offs.** Raising the cut-offs makes the attraction stronger. -/
theorem C136_cut_offs (h : BallPairOK P R1 R2) (hprec : P.precision ≤ 0) {a b : ℕ} (ha : P.lmax ≤ a) (hb : P.lssmax ≤ b) (hab : a ≤ b) {ks : List ℝ}
    (hne : ks ≠ []) (hk : ∀ k ∈ ks, 0 < k) (hs : ∀ k ∈ ks, P.SameSide k) :
    ∃ vs ws, ballVals exactBes P ks = .ok vs ∧ ballVals exactBes (P.cut a b) ks = .ok ws ∧ vs.length = ks.length ∧ ws.length = ks.length ∧
      ∀ (j : ℕ) (x y : ℝ), vs[j]? = some x → ws[j]? = some y → y ≤ x ∧ x ≤ 0 := by
  have hs' : ∀ k ∈ ks, P.SameSide k ∨ P.OppositeSide k := fun k hkm => .inl (hs k hkm)
  refine ⟨_, _, ballVals_sum h hprec hne hk hs', ballVals_sum (P := P.cut a b) (h.cut (h.hl.trans ha) hab) hprec hne hk hs', by simp, by simp,
    fun j x y hx hy => ?_⟩
  rw [List.getElem?_map, Option.map_eq_some_iff] at hx hy
  obtain ⟨k, hj, rfl⟩ := hx
  obtain ⟨k', hj', rfl⟩ := hy
  rw [hj] at hj'
  injection hj' with e
  subst e
  have hkm := List.mem_of_getElem? hj
  exact ⟨ballSum_cut_le h (hk k hkm) (hs k hkm) ha hb hab, (ballSum_sign h (hk k hkm)).1 (hs k hkm)⟩

/-- The free energy from complete sums. -/
theorem ball_free_sum {p : FTParams} (h : BallPairOK P R1 R2) (hprec : P.precision ≤ 0) (hs : ∀ k, 0 < k → P.SameSide k ∨ P.OppositeSide k)
    (hg : p.geo = ballGeo exactBes frac P) (hp : p.nprocs.isZero) (ha : p.analyticN0 = false) (hT : 0 < p.deltaT) (hN : 1 ≤ p.nmax) :
    ∃ F : List ℝ, (freeEnergy p FT.fresh).1 = .ok F ∧ F.length = p.maxstep.toNat ∧ ∀ (i : ℕ) (x : ℝ), F[i]? = some x →
      x = (i + 1 : ℕ) * p.deltaT * (0.5 * ballSum P 1e-10 + ∑ j ∈ Finset.range (p.nmax.toNat / (i + 1)), ballSum P (p.deltaT * ((j + 1) * (i + 1) : ℕ))) := by
  obtain ⟨N, hN'⟩ := Int.eq_ofNat_of_zero_le (by omega : 0 ≤ p.nmax)
  have hN1 : 1 ≤ N := by omega
  have hk0 : (0 : ℝ) < 1e-10 := by norm_num
  have hz : p.geo.vals [1e-10] = .ok [ballSum P 1e-10] := by
    rw [hg]
    exact ballVals_sum h hprec (by simp) (by simpa using hk0) (by simpa using hs _ hk0)
  obtain ⟨F, hF, hlen, hval⟩ := freeEnergy_slices_num p (hg ▸ ballGeo_valsOk h) hz hp ha hT hN1 hN'
  refine ⟨F, hF, hlen, fun i x hx => ?_⟩
  have hi : i < F.length := by
    by_contra hh
    rw [List.getElem?_eq_none (by omega)] at hx
    cases hx
  have hv := hval (i + 1) (by omega) (by omega)
  rw [Nat.add_sub_cancel, hx] at hv
  injection hv with hv
  rw [hv, hg, hN']
  congr 2
  refine Finset.sum_congr rfl fun j hj => ?_
  have hn : 1 ≤ (j + 1) * (i + 1) := Nat.one_le_iff_ne_zero.mpr (by positivity)
  obtain ⟨k1, k2, k3⟩ := sliceKs_mem hT hn ((Nat.mul_le_mul_right _ (Finset.mem_range.mp hj)).trans (Nat.div_mul_le_self N _))
  unfold sliceVal ballGeo
  simp only
  rw [ballVals_sum h hprec k1 k2 fun k hkm => hs k (k2 k hkm)]
  simp only
  rw [List.getD_eq_getElem?_getD, List.getElem?_map, k3]
  rfl

/-- **C136, `free_energy`, distance.** With the numerical zero frequency, as `finiteT` uses it for lists, the free energy of stratified spheres on the same side
of the medium grows with the distance at every temperature. -/
theorem C136_free_energy {p : FTParams} (h : BallPairOK P R1 R2) (hprec : P.precision ≤ 0) (hL : P.L ≤ L) (hs : ∀ k, 0 < k → P.SameSide k)
    (hp : p.nprocs.isZero) (ha : p.analyticN0 = false) (hT : 0 < p.deltaT) (hN : 1 ≤ p.nmax) :
    ∃ F F' : List ℝ, (freeEnergy { p with geo := ballGeo exactBes frac P } FT.fresh).1 = .ok F ∧
      (freeEnergy { p with geo := ballGeo exactBes frac (P.at L) } FT.fresh).1 = .ok F' ∧ F.length = p.maxstep.toNat ∧ F'.length = p.maxstep.toNat ∧
      ∀ (i : ℕ) (x y : ℝ), F[i]? = some x → F'[i]? = some y → x ≤ y ∧ y ≤ 0 ∧
        (P.L < L → P.ball1.Contrast P.H P.mat3 1e-10 → P.ball2.Contrast P.H P.mat3 1e-10 → x < y) ∧
        (P.L < L → (i : ℤ) + 1 ≤ p.nmax → P.ball1.Contrast P.H P.mat3 ((i + 1) * p.deltaT) → P.ball2.Contrast P.H P.mat3 ((i + 1) * p.deltaT) → x < y) := by
  have hs' : ∀ k, 0 < k → P.SameSide k ∨ P.OppositeSide k := fun k hk => .inl (hs k hk)
  obtain ⟨F, hF, hl, hv⟩ := ball_free_sum (p := { p with geo := ballGeo exactBes frac P }) h hprec hs' rfl hp ha hT hN
  obtain ⟨F', hF', hl', hv'⟩ := ball_free_sum (P := P.at L) (p := { p with geo := ballGeo exactBes frac (P.at L) }) (h.at hL) hprec hs' rfl hp ha hT hN
  refine ⟨F, F', hF, hF', hl, hl', fun i x y hx hy => ?_⟩
  rw [hv i x hx, hv' i y hy]
  simp only
  have hk0 : (0 : ℝ) < 1e-10 := by norm_num
  have hn := fun k (hk : 0 < k) => (ballSum_sign h hk).1 (hs k hk)
  have hn' := fun k (hk : 0 < k) => (ballSum_sign (h.at hL) hk).1 (hs k hk)
  have hle : ∀ k, 0 < k → ballSum P k ≤ ballSum (P.at L) k := fun k hk => by
    have h1 := ballSum_far h hk (hs k hk) hL
    have h2 := hn k hk
    have h3 : Real.exp (-(2 * k * (L - P.L))) ≤ 1 := by
      rw [Real.exp_le_one_iff]
      have := mul_nonneg hk.le (sub_nonneg.mpr hL)
      linarith
    nlinarith
  have hlt : ∀ k, 0 < k → P.L < L → P.ball1.Contrast P.H P.mat3 k → P.ball2.Contrast P.H P.mat3 k → ballSum P k < ballSum (P.at L) k := fun k hk hll c1 c2 => by
    have h1 := ballSum_far h hk (hs k hk) hL
    have h2 := (ballSum_strict h hk c1 c2).1 (hs k hk)
    have h3 : Real.exp (-(2 * k * (L - P.L))) < 1 := by
      rw [Real.exp_lt_one_iff]
      have := mul_pos hk (sub_pos.mpr hll)
      linarith
    nlinarith
  have hpos : (0 : ℝ) < (i + 1 : ℕ) * p.deltaT := by positivity
  have hkj : ∀ j : ℕ, (0 : ℝ) < p.deltaT * ((j + 1) * (i + 1) : ℕ) := fun j => by positivity
  have s1 := Finset.sum_le_sum fun j (_ : j ∈ Finset.range (p.nmax.toNat / (i + 1))) => hle _ (hkj j)
  have s2 := Finset.sum_nonpos fun j (_ : j ∈ Finset.range (p.nmax.toNat / (i + 1))) => hn' _ (hkj j)
  refine ⟨mul_le_mul_of_nonneg_left ?_ hpos.le, mul_nonpos_of_nonneg_of_nonpos hpos.le ?_, fun hll c1 c2 => mul_lt_mul_of_pos_left ?_ hpos,
    fun hll hNi c1 c2 => mul_lt_mul_of_pos_left ?_ hpos⟩
  · linarith [hle _ hk0]
  · linarith [hn' _ hk0]
  · linarith [hlt _ hk0 hll c1 c2]
  · have hNi' : 0 < p.nmax.toNat / (i + 1) := Nat.div_pos (by omega) (by omega)
    have e : p.deltaT * (((0 + 1) * (i + 1) : ℕ) : ℝ) = (i + 1) * p.deltaT := by push_cast; ring
    have := Finset.sum_lt_sum (fun j (_ : j ∈ Finset.range (p.nmax.toNat / (i + 1))) => hle _ (hkj j))
      ⟨0, Finset.mem_range.mpr hNi', by rw [e]; exact hlt _ (by positivity) hll c1 c2⟩
    linarith [hle _ hk0]

/-- **C136, `free_energy`, three distances.** The free energy is log-convex in the distance. -/
theorem C136_free_energy_convex {p : FTParams} (h : BallPairOK P R1 R2) (hprec : P.precision ≤ 0) (h0 : 0 < t) (h1 : t < 1) (hL : P.L ≤ L)
    (hs : ∀ k, 0 < k → P.SameSide k) (hp : p.nprocs.isZero) (ha : p.analyticN0 = false) (hT : 0 < p.deltaT) (hN : 1 ≤ p.nmax) :
    ∃ F F' F'' : List ℝ, (freeEnergy { p with geo := ballGeo exactBes frac P } FT.fresh).1 = .ok F ∧
      (freeEnergy { p with geo := ballGeo exactBes frac (P.at L) } FT.fresh).1 = .ok F' ∧
      (freeEnergy { p with geo := ballGeo exactBes frac (P.at (t * P.L + (1 - t) * L)) } FT.fresh).1 = .ok F'' ∧
      F.length = p.maxstep.toNat ∧ F'.length = p.maxstep.toNat ∧ F''.length = p.maxstep.toNat ∧
      ∀ (i : ℕ) (x y w : ℝ), F[i]? = some x → F'[i]? = some y → F''[i]? = some w → Spec.LogConvexAt t x y w := by
  have m1 : P.L ≤ t * P.L + (1 - t) * L := by nlinarith
  have hs' : ∀ k, 0 < k → P.SameSide k ∨ P.OppositeSide k := fun k hk => .inl (hs k hk)
  obtain ⟨F, hF, hl, hv⟩ := ball_free_sum (p := { p with geo := ballGeo exactBes frac P }) h hprec hs' rfl hp ha hT hN
  obtain ⟨F', hF', hl', hv'⟩ := ball_free_sum (P := P.at L) (p := { p with geo := ballGeo exactBes frac (P.at L) }) (h.at hL) hprec hs' rfl hp ha hT hN
  obtain ⟨F'', hF'', hl'', hv''⟩ := ball_free_sum (P := P.at (t * P.L + (1 - t) * L)) (p := { p with geo := ballGeo exactBes frac (P.at (t * P.L + (1 - t) * L)) })
    (h.at m1) hprec hs' rfl hp ha hT hN
  refine ⟨F, F', F'', hF, hF', hF'', hl, hl', hl'', fun i x y w hx hy hw => GMRel.logConvex h0.le h1.le ?_⟩
  rw [hv i x hx, hv' i y hy, hv'' i w hw]
  refine neg_free_rel (gmRel_closed h0 h1) (by positivity) (ballSum_gm h (by norm_num) (hs _ (by norm_num)) h0 h1 hL) fun j => ?_
  exact ballSum_gm h (by positivity) (hs _ (by positivity)) h0 h1 hL

/-- **C136, `free_energy`, cut-offs.** -/
theorem C136_free_energy_cut_offs {p : FTParams} (h : BallPairOK P R1 R2) (hprec : P.precision ≤ 0) {a b : ℕ} (ha : P.lmax ≤ a) (hb : P.lssmax ≤ b)
    (hab : a ≤ b) (hs : ∀ k, 0 < k → P.SameSide k) (hp : p.nprocs.isZero) (han : p.analyticN0 = false) (hT : 0 < p.deltaT) (hN : 1 ≤ p.nmax) :
    ∃ F F' : List ℝ, (freeEnergy { p with geo := ballGeo exactBes frac P } FT.fresh).1 = .ok F ∧
      (freeEnergy { p with geo := ballGeo exactBes frac (P.cut a b) } FT.fresh).1 = .ok F' ∧ F.length = p.maxstep.toNat ∧ F'.length = p.maxstep.toNat ∧
      ∀ (i : ℕ) (x y : ℝ), F[i]? = some x → F'[i]? = some y → y ≤ x ∧ x ≤ 0 := by
  have hs' : ∀ k, 0 < k → P.SameSide k ∨ P.OppositeSide k := fun k hk => .inl (hs k hk)
  obtain ⟨F, hF, hl, hv⟩ := ball_free_sum (p := { p with geo := ballGeo exactBes frac P }) h hprec hs' rfl hp han hT hN
  obtain ⟨F', hF', hl', hv'⟩ := ball_free_sum (P := P.cut a b) (p := { p with geo := ballGeo exactBes frac (P.cut a b) }) (h.cut (h.hl.trans ha) hab)
    hprec hs' rfl hp han hT hN
  refine ⟨F, F', hF, hF', hl, hl', fun i x y hx hy => ?_⟩
  rw [hv i x hx, hv' i y hy]
  have hpos : (0 : ℝ) < (i + 1 : ℕ) * p.deltaT := by positivity
  have hk0 : (0 : ℝ) < 1e-10 := by norm_num
  have hkj : ∀ j : ℕ, (0 : ℝ) < p.deltaT * ((j + 1) * (i + 1) : ℕ) := fun j => by positivity
  have hle := fun k (hk : 0 < k) => ballSum_cut_le h hk (hs k hk) ha hb hab
  have hn := fun k (hk : 0 < k) => (ballSum_sign h hk).1 (hs k hk)
  have s1 := Finset.sum_le_sum fun j (_ : j ∈ Finset.range (p.nmax.toNat / (i + 1))) => hle _ (hkj j)
  have s2 := Finset.sum_nonpos fun j (_ : j ∈ Finset.range (p.nmax.toNat / (i + 1))) => hn _ (hkj j)
  refine ⟨mul_le_mul_of_nonneg_left ?_ hpos.le, mul_nonpos_of_nonneg_of_nonpos hpos.le ?_⟩
  · linarith [hle _ hk0]
  · linarith [hn _ hk0]

/-! ## Examples -/

/-- The coated ball of `wetPair` with complete sums. -/
noncomputable def wetFull : BallPair := { wetPair with precision := 0 }

theorem wetFull_ok : BallPairOK wetFull (3/2) 4 := ⟨wetPair_ok.ok1, wetPair_ok.ok2, wetPair_ok.m3, wetPair_ok.sep, wetPair_ok.hl, wetPair_ok.hls⟩

theorem wetFull_same (hk : 0 < k) : wetFull.SameSide k := wetPair_same hk

theorem wetFull_contrast (hk : 0 < k) : wetFull.ball1.Contrast wetFull.H wetFull.mat3 k ∧ wetFull.ball2.Contrast wetFull.H wetFull.mat3 k := by
  refine ⟨⟨1, one_pos, .inr ?_⟩, ⟨1, one_pos, .inl ?_⟩⟩
  · have e1 : wetFull.ball1.matAt wetFull.mat3 1 = 1 := by
      simp [wetFull, wetPair, Ball.matAt, Ball.core, Ball.shells, wetGold, layerAt]
    rw [e1]
    have e : (⟨.lorentz, [], none⟩ : Material).epsV k = 1 := by
      simp [Material.epsV, Material.epsilon]
      rfl
    have : (1 : ℝ) < (⟨.lorentz, eGold, none⟩ : Material).epsV k := by
      rw [epsV_lorentz rfl gold_physical hk]
      have h := lorDen_pos hk (gold_physical.osc ⟨1.37e16, 0, 5.77e13⟩ (by simp [eGold]))
      simp only [eGold, List.map_cons, List.map_nil, List.sum_cons, List.sum_nil, add_zero]
      have : 0 < lorT k ⟨1.37e16, 0, 5.77e13⟩ := div_pos (pow_pos (div_pos (by norm_num) omegaNorm_pos) 2) h
      linarith
    exact (e.trans_lt this).ne'
  · have e1 : wetFull.ball2.matAt wetFull.mat3 1 = 3 := by
      simp only [wetFull, wetPair, Ball.matAt, Ball.core, Ball.shells, layerAt]
      norm_num
    rw [e1]
    rfl

/-- Moving the coated ball away from the conductor costs energy at every temperature. -/
example : ∃ F F' : List ℝ, (freeEnergy ⟨0.01, 500, 200, false, .int 0, ballGeo exactBes frac wetFull⟩ FT.fresh).1 = .ok F ∧
    (freeEnergy ⟨0.01, 500, 200, false, .int 0, ballGeo exactBes frac (wetFull.at 7)⟩ FT.fresh).1 = .ok F' ∧ F.length = 200 ∧ F'.length = 200 ∧
    ∀ (i : ℕ) (x y : ℝ), F[i]? = some x → F'[i]? = some y → x < y ∧ y ≤ 0 := by
  obtain ⟨F, F', h1, h2, h3, h4, h5⟩ := C136_free_energy (frac := frac) (p := ⟨0.01, 500, 200, false, .int 0, ballGeo exactBes frac wetFull⟩) (L := 7)
    wetFull_ok le_rfl (by norm_num [wetFull, wetPair]) (fun k hk => wetFull_same hk) rfl rfl (by norm_num) (by norm_num)
  obtain ⟨c1, c2⟩ := wetFull_contrast (k := 1e-10) (by norm_num)
  refine ⟨F, F', h1, h2, h3, h4, fun i x y hx hy => ?_⟩
  obtain ⟨-, g2, g3, -⟩ := h5 i x y hx hy
  exact ⟨g3 (by norm_num [wetFull, wetPair]) c1 c2, g2⟩

end CasSph
