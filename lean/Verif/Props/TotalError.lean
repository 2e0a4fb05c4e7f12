import Verif.Props.StratMSum
import Verif.Props.Truncation

/-! # C148: early termination of the sums over `m` and finite cut-offs together -/

namespace CasSph

open Spec Filter Topology MeasureTheory Set

variable {P : PairIn} {frac : ℝ → ℝ → ℝ} {R1 R2 : ℝ} {a b : ℕ}

/-- **C148, `mSumme([k])`.** The value for a precision `≥ 0` against complete sums with cut-offs as large as one likes: never below, and within the sum of both errors. -/
theorem C148_mSumme (h : PairOK P) (hp : 0 ≤ P.precision) (hR : Fits P R1 R2) (ha : P.lmax ≤ a) (hb : P.lssmax ≤ b) (hab : a ≤ b) {k : ℝ} (hk : 0 < k)
    (h1 : Denser P.mat1 P.mat3 k) (h2 : Denser P.mat2 P.mat3 k) (hc : EqualContrast P.mat1 P.mat2 P.mat3) :
    ∃ x y, pairVals exactBes P [k] = .ok [x] ∧ pairVals exactBes (P.complete.cut a b) [k] = .ok [y] ∧ y ≤ x ∧ x ≤ 0 ∧
      |y - x| ≤ (P.lmax - 1) * (P.precision / 10) * |x| + ((P.r1 / R1) ^ (2 * P.lmax + 1) * (freeC R1 P.r2 P.L * sharpExp (k * (P.L - (R1 + P.r2)))) +
        (P.r2 / R2) ^ (2 * P.lssmax + 1) * (freeC P.r1 R2 P.L * sharpExp (k * (P.L - (P.r1 + R2))))) := by
  obtain ⟨x, y, e1, e2, b1, b2, b3⟩ := C134_one_wavenumber h hp hk h1 h2
  have hR' : Fits P.complete R1 R2 := ⟨hR.r1, hR.r2, hR.sep1, hR.sep2⟩
  obtain ⟨vs, ws, f1, f2, l1, l2, hj⟩ := C117_mSumme h.complete le_rfl hR' ha hb hab (ks := [k]) (by simp) (by simpa using hk)
  obtain ⟨us, ts, g1, g2, -, -, gj⟩ := C111_mSumme h.complete le_rfl ha hb hab (ks := [k]) (by simp) (by simpa using hk)
  rw [e2] at f1 g1
  rw [f2] at g2
  injection f1 with f1
  injection g1 with g1
  injection g2 with g2
  subst f1 g1 g2
  obtain ⟨t, rfl⟩ := List.length_eq_one_iff.mp l2
  have c1 := hj 0 k y t rfl rfl rfl
  have c2 := ((gj 0 y t rfl rfl).1 hc).1
  refine ⟨x, t, e1, f2, c2.trans b1, b2, ?_⟩
  have := abs_sub_le t y x
  have c1 : |t - y| ≤ (P.r1 / R1) ^ (2 * P.lmax + 1) * (freeC R1 P.r2 P.L * sharpExp (k * (P.L - (R1 + P.r2)))) +
        (P.r2 / R2) ^ (2 * P.lssmax + 1) * (freeC P.r1 R2 P.L * sharpExp (k * (P.L - (P.r1 + R2)))) := c1
  linarith

/-- **C148, `mSumme_k0`.** -/
theorem C148_mSumme_k0 (h : PairOK P) (hp : 0 ≤ P.precision) (hR : Fits P R1 R2) (ha : P.lmax ≤ a) (hb : P.lssmax ≤ b) (hab : a ≤ b)
    (hc : EqualContrast P.mat1 P.mat2 P.mat3) (frac : ℝ → ℝ → ℝ) :
    ∃ z y, pairK0 frac P = .ok z ∧ pairK0 frac (P.complete.cut a b) = .ok y ∧ y ≤ z ∧ z ≤ 0 ∧
      |y - z| ≤ (P.lmax - 1) * (P.precision / 10) * |z| + ((P.r1 / R1) ^ (2 * P.lmax + 1) * (4 * staticBound R1 P.r2 P.L 0 / (1 - R1 / (P.L - P.r2))) +
        (P.r2 / R2) ^ (2 * P.lssmax + 1) * (4 * staticBound P.r1 R2 P.L 0 / (1 - P.r1 / (P.L - R2)))) := by
  obtain ⟨z, y, e1, e2, b1, b2, b3, -⟩ := C134_mSumme_k0 (frac := frac) h hp hc
  have hR' : Fits P.complete R1 R2 := ⟨hR.r1, hR.r2, hR.sep1, hR.sep2⟩
  obtain ⟨y', t, f1, f2, c1⟩ := C117_mSumme_k0 h.complete le_rfl hR' ha hb hab frac
  obtain ⟨y'', t', g1, g2, c2, -⟩ := C111_mSumme_k0 (frac := frac) h.complete le_rfl ha hb hab
  rw [e2] at f1 g1
  rw [f2] at g2
  injection f1 with f1
  injection g1 with g1
  injection g2 with g2
  subst f1 g1 g2
  refine ⟨z, t, e1, f2, (c2 hc).1.trans b1, b2, ?_⟩
  have := abs_sub_le t y z
  have c1 : |t - y| ≤ (P.r1 / R1) ^ (2 * P.lmax + 1) * (4 * staticBound R1 P.r2 P.L 0 / (1 - R1 / (P.L - P.r2))) +
        (P.r2 / R2) ^ (2 * P.lssmax + 1) * (4 * staticBound P.r1 R2 P.L 0 / (1 - P.r1 / (P.L - R2))) := c1
  linarith

/-- **C148, `e0`.** The energy at zero temperature that the code returns against the limit of infinite cut-offs with complete sums over `m`. -/
theorem C148_zero_temperature {q : Quad} {deltaT : ℝ} {nmax : ℤ} (h : PairOK P) (hp : 0 ≤ P.precision) (hR : Fits P R1 R2) (h1 : ∀ k, 0 < k → Denser P.mat1 P.mat3 k)
    (h2 : ∀ k, 0 < k → Denser P.mat2 P.mat3 k) (hc : EqualContrast P.mat1 P.mat2 P.mat3) (hq : q.Exact) {k0 : ℝ} (hk0 : 0 ≤ k0) {k1 : Upper}
    (hk1 : ∀ x, k1 = .num x → k0 ≤ x) (hk1' : k1 = .none → k0 ≤ nmax * deltaT) :
    ∃ v, (∀ lm ls : ℕ → ℕ, Tendsto lm atTop atTop → (∀ n, 1 ≤ lm n) → (∀ n, lm n ≤ ls n) → ∀ E : ℕ → ℝ,
        (∀ n, e0 q (pairAt exactBes frac (P.complete.cut (lm n) (ls n))) deltaT nmax k0 k1 = .ok (E n)) → Tendsto E atTop (𝓝 v)) ∧
      ∃ E, e0 q (pairAt exactBes frac P) deltaT nmax k0 k1 = .ok E ∧ v ≤ E ∧ E ≤ 0 ∧
        |v - E| ≤ (P.lmax - 1) * (P.precision / 10) * |E| + ((P.r1 / R1) ^ (2 * P.lmax + 1) * zeroBound R1 P.r2 P.L k0 +
          (P.r2 / R2) ^ (2 * P.lssmax + 1) * zeroBound P.r1 R2 P.L k0) := by
  obtain ⟨E, E', e1, e2, b1, b2, b3⟩ := C134_zero_temperature (frac := frac) h hp h1 h2 hq hk0 hk1 hk1'
  have hR' : Fits P.complete R1 R2 := ⟨hR.r1, hR.r2, hR.sep1, hR.sep2⟩
  obtain ⟨v, hv, D, d1, d2⟩ := C117_zero_temperature_limit (frac := frac) h.complete le_rfl hR' hq hk0 hk1 hk1'
  obtain ⟨v', -, hv', s⟩ := C111_zero_temperature_limit (frac := frac) h.complete le_rfl hq hk0 hk1 hk1'
  rw [e2] at d1
  injection d1 with d1
  subst d1
  have key := fun n => e0_value (frac := frac) (h.complete.cut (a := P.lmax + n) (b := P.lssmax + n) (by have := h.hl; omega) (by have := h.hls; omega)) hq hk0 hk1 hk1'
  have lm : Tendsto (fun n => P.lmax + n) atTop atTop := tendsto_atTop_mono (fun n => Nat.le_add_left n _) tendsto_id
  have eq : v = v' := tendsto_nhds_unique
    (hv (fun n => P.lmax + n) (fun n => P.lssmax + n) lm (fun n => by have := h.hl; omega) (fun n => by have := h.hls; omega) _ key)
    (hv' (fun n => P.lmax + n) (fun n => P.lssmax + n) lm (fun n => by have := h.hl; omega) (fun n => by have := h.hls; omega) _ key)
  subst eq
  have e3 := e2
  rw [← cut_self P.complete] at e3
  refine ⟨v, hv, E, e1, ((s _ _ h.hl h.hls _ e3).1 hc).trans b1, b2, ?_⟩
  have := abs_sub_le v E' E
  have d2 : |v - E'| ≤ (P.r1 / R1) ^ (2 * P.lmax + 1) * zeroBound R1 P.r2 P.L k0 + (P.r2 / R2) ^ (2 * P.lssmax + 1) * zeroBound P.r1 R2 P.L k0 := d2
  linarith

/-- **C148, `free_energy`.** Every entry against its limit of infinite cut-offs with complete sums over `m`: never below, and not too small. -/
theorem C148_free_energy {p : FTParams} (h : PairOK P) (hpr : 0 ≤ P.precision) (hR : Fits P R1 R2) (hc : EqualContrast P.mat1 P.mat2 P.mat3)
    (h1 : ∀ k, 0 < k → Denser P.mat1 P.mat3 k) (h2 : ∀ k, 0 < k → Denser P.mat2 P.mat3 k) (hg : p.geo = pairGeo exactBes frac P) (hp : p.nprocs.isZero)
    (han : p.analyticN0 = true) (hT : 0 < p.deltaT) (hN : 0 ≤ p.nmax) {i : ℕ} (hi : (i : ℤ) < p.maxstep) :
    ∃ v, (∀ lm ls : ℕ → ℕ, Tendsto lm atTop atTop → (∀ n, 1 ≤ lm n) → (∀ n, lm n ≤ ls n) → ∀ F : ℕ → List ℝ,
        (∀ n, (freeEnergy { p with geo := pairGeo exactBes frac (P.complete.cut (lm n) (ls n)) } FT.fresh).1 = .ok (F n)) →
        Tendsto (fun n => (F n).getD i 0) atTop (𝓝 v)) ∧
      ∃ F x, (freeEnergy p FT.fresh).1 = .ok F ∧ F[i]? = some x ∧ v ≤ x ∧ x ≤ 0 ∧
        |v| ≤ P.lmax * |x| + ((P.r1 / R1) ^ (2 * P.lmax + 1) * freeBound R1 P.r2 P.L ((i + 1) * p.deltaT) +
          (P.r2 / R2) ^ (2 * P.lssmax + 1) * freeBound P.r1 R2 P.L ((i + 1) * p.deltaT)) := by
  obtain ⟨F, F', e1, e2, l1, l2, hj⟩ := C134_free_energy h hpr hc h1 h2 hg rfl hp han hT hN
  have hR' : Fits P.complete R1 R2 := ⟨hR.r1, hR.r2, hR.sep1, hR.sep2⟩
  obtain ⟨v, hv, D, y, d1, d2, d3⟩ := C117_free_energy_limit (frac := frac) (p := { p with geo := pairGeo exactBes frac P.complete }) h.complete le_rfl hR' rfl hp han hT hN hi
  obtain ⟨v', -, hv', s⟩ := C111_free_energy_limit (frac := frac) (p := p) h.complete le_rfl hp han hT hN hi
  rw [e2] at d1
  injection d1 with d1
  subst d1
  have key : ∀ n : ℕ, ∃ G, (freeEnergy { p with geo := pairGeo exactBes frac (P.complete.cut (P.lmax + n) (P.lssmax + n)) } FT.fresh).1 = .ok G := fun n => by
    obtain ⟨-, G, -, g, -⟩ := C117_free_energy (frac := frac) (p := { p with geo := pairGeo exactBes frac P.complete }) (a := P.lmax + n) (b := P.lssmax + n) h.complete le_rfl hR'
      (Nat.le_add_right _ _) (Nat.le_add_right _ _) (by have := h.hls; omega) rfl rfl hp han hT hN
    exact ⟨G, g⟩
  choose G hG using key
  have lm : Tendsto (fun n => P.lmax + n) atTop atTop := tendsto_atTop_mono (fun n => Nat.le_add_left n _) tendsto_id
  have eq : v = v' := tendsto_nhds_unique
    (hv (fun n => P.lmax + n) (fun n => P.lssmax + n) lm (fun n => by have := h.hl; omega) (fun n => by have := h.hls; omega) G hG)
    (hv' (fun n => P.lmax + n) (fun n => P.lssmax + n) lm (fun n => by have := h.hl; omega) (fun n => by have := h.hls; omega) G hG)
  subst eq
  have hiF : i < F.length := by rw [l1]; omega
  obtain ⟨b1, b2, b3⟩ := hj i F[i] y (List.getElem?_eq_getElem hiF) d2
  have e3 := e2
  rw [← cut_self P.complete] at e3
  have e4 := (s _ _ h.hl h.hls _ e3).1 hc
  rw [List.getD_eq_getElem?_getD, d2, Option.getD_some] at e4
  refine ⟨v, hv, F, F[i], e1, List.getElem?_eq_getElem hiF, e4.trans b1, b2, ?_⟩
  have := abs_sub_abs_le_abs_sub v y
  have d3 : |v - y| ≤ (P.r1 / R1) ^ (2 * P.lmax + 1) * freeBound R1 P.r2 P.L ((i + 1) * p.deltaT) +
          (P.r2 / R2) ^ (2 * P.lssmax + 1) * freeBound P.r1 R2 P.L ((i + 1) * p.deltaT) := d3
  linarith

/-! ## Stratified spheres -/

/-- **C148, `mSumme([k])` of stratified spheres**, `R1` and `R2` their outer radii, `r1'` and `r2'` larger radii at which each of them still fits in. -/
theorem C148_stratified {P : BallPair} (h : BallPairOK P R1 R2) (hp : 0 ≤ P.precision) (ha : P.lmax ≤ a) (hb : P.lssmax ≤ b) (hab : a ≤ b) {k : ℝ} (hk : 0 < k)
    (hs : P.SameSide k) {r1' r2' : ℝ} (h1 : R1 ≤ r1') (h2 : R2 ≤ r2') (s1 : r1' + R2 < P.L) (s2 : R1 + r2' < P.L) :
    ∃ x y, ballVals exactBes P [k] = .ok [x] ∧ ballVals exactBes (P.complete.cut a b) [k] = .ok [y] ∧ y ≤ x ∧ x ≤ 0 ∧
      |y - x| ≤ (P.lmax - 1) * (P.precision / 10) * |x| + ((R1 / r1') ^ (2 * P.lmax + 1) * (freeC r1' R2 P.L * sharpExp (k * (P.L - (r1' + R2)))) +
        (R2 / r2') ^ (2 * P.lssmax + 1) * (freeC R1 r2' P.L * sharpExp (k * (P.L - (R1 + r2'))))) := by
  obtain ⟨x, y, e1, e2, b1, b2, b3⟩ := C139_one_wavenumber h hp hk hs
  have hc : BallPairOK (P.complete.cut a b) R1 R2 := h.complete.cut (h.hl.trans ha) hab
  have f := ballVals_sum hc le_rfl (ks := [k]) (by simp) (by simpa using hk) (by simpa using .inl hs)
  have g := ballVals_sum h.complete le_rfl (ks := [k]) (by simp) (by simpa using hk) (by simpa using .inl hs)
  rw [e2] at g
  injection g with g
  injection g with g
  subst g
  have c1 := (C119_cut_off h.complete hk ha hb hab h1 h2 s1 s2).2
  have c2 := ballSum_cut_le h.complete hk hs ha hb hab
  refine ⟨x, _, e1, f, c2.trans b1, b2, ?_⟩
  have := abs_sub_le (ballSum (P.complete.cut a b) k) (ballSum P.complete k) x
  have c1 : |ballSum (P.complete.cut a b) k - ballSum P.complete k| ≤ (R1 / r1') ^ (2 * P.lmax + 1) * (freeC r1' R2 P.L * sharpExp (k * (P.L - (r1' + R2)))) +
        (R2 / r2') ^ (2 * P.lssmax + 1) * (freeC R1 r2' P.L * sharpExp (k * (P.L - (R1 + r2')))) := c1
  linarith

/-- **C148, `e0` of stratified spheres.** -/
theorem C148_stratified_zero_temperature {P : BallPair} {q : Quad} {deltaT : ℝ} {nmax : ℤ} (h : BallPairOK P R1 R2) (hp : 0 ≤ P.precision) (ha : P.lmax ≤ a) (hb : P.lssmax ≤ b)
    (hab : a ≤ b) (hs : ∀ k, 0 < k → P.SameSide k) {r1' r2' : ℝ} (h1 : R1 ≤ r1') (h2 : R2 ≤ r2') (s1 : r1' + R2 < P.L) (s2 : R1 + r2' < P.L) (hq : q.Exact) {k0 : ℝ}
    (hk0 : 0 ≤ k0) {k1 : Upper} (hk1 : ∀ x, k1 = .num x → k0 ≤ x) (hk1' : k1 = .none → k0 ≤ nmax * deltaT) :
    ∃ E E', e0 q (ballAt exactBes frac P) deltaT nmax k0 k1 = .ok E ∧ e0 q (ballAt exactBes frac (P.complete.cut a b)) deltaT nmax k0 k1 = .ok E' ∧ E' ≤ E ∧ E ≤ 0 ∧
      |E' - E| ≤ (P.lmax - 1) * (P.precision / 10) * |E| + ((R1 / r1') ^ (2 * P.lmax + 1) * zeroBound r1' R2 P.L k0 +
        (R2 / r2') ^ (2 * P.lssmax + 1) * zeroBound R1 r2' P.L k0) := by
  obtain ⟨E, D, e1, e2, b1, b2, b3⟩ := C139_zero_temperature (frac := frac) h hp hs hq hk0 hk1 hk1'
  obtain ⟨D', E', f1, f2, c1, -⟩ := C138_cut_offs (frac := frac) h.complete le_rfl ha hb hab hs hq hk0 hk1 hk1'
  obtain ⟨D'', E'', M, M', g1, g2, g3, g4, c2⟩ := C138_truncation (frac := frac) h.complete le_rfl ha hb hab (fun k hk => .inl (hs k hk)) hq hk0 hk1 hk1'
  obtain ⟨N, N', m1, m2, c3⟩ := C117_zero_temperature (frac := frac) (P := P.complete.metal R1 R2) (a := a) (b := b) h.complete.metal le_rfl ⟨h1, h2, s1, s2⟩ ha hb hab hq hk0 hk1 hk1'
  rw [e2] at f1 g1
  rw [f2] at g2
  rw [m1] at g3
  rw [m2] at g4
  injection f1 with f1
  injection g1 with g1
  injection g2 with g2
  injection g3 with g3
  injection g4 with g4
  subst f1 g1 g2 g3 g4
  refine ⟨E, E', e1, f2, c1.trans b1, b2, ?_⟩
  have := abs_sub_le E' D E
  have t := neg_le_abs (N' - N)
  have c3 : |N' - N| ≤ (R1 / r1') ^ (2 * P.lmax + 1) * zeroBound r1' R2 P.L k0 + (R2 / r2') ^ (2 * P.lssmax + 1) * zeroBound R1 r2' P.L k0 := c3
  linarith

/-! ## Examples -/

theorem goldPair4_fits : Fits goldPair4 1.5 4.5 := by
  refine ⟨?_, ?_, ?_, ?_⟩ <;> norm_num [goldPair4, goldPair]

/-- Gold spheres of radii 1 and 4 at distance 6 with `lmax = lssmax = 20` and the default precision: `e0` against the exact multipole series. -/
example : ∃ v E : ℝ, e0 exactQuad (pairAt exactBes (fun _ _ => 0) goldPair4) 0 0 0 .inf = .ok E ∧ v ≤ E ∧ E ≤ 0 ∧
    |v - E| ≤ 1.9e-4 * |E| + (7e-8 * zeroBound 1.5 4 6 0 + 8e-3 * zeroBound 1 4.5 6 0) := by
  obtain ⟨v, -, E, e, b1, b2, b3⟩ := C148_zero_temperature (P := goldPair4) (frac := fun _ _ => 0) (deltaT := 0) (nmax := 0) goldPair4_ok
    (by norm_num [goldPair4]) goldPair4_fits (fun k hk => goldPair4_dense hk) (fun k hk => goldPair4_dense hk) (equalContrast_same goldPair4_ok.m1 goldPair4_ok.m3)
    exactQuad_exact le_rfl (k1 := .inf) (by simp) (by simp)
  refine ⟨v, E, e, b1, b2, b3.trans ?_⟩
  have z1 : 0 ≤ zeroBound 1.5 4 6 0 := by
    have h : PairOK { goldPair4 with r1 := 1.5 } := by
      refine ⟨goldPair4_ok.m1, goldPair4_ok.m2, goldPair4_ok.m3, ?_, ?_, ?_, ?_, ?_⟩ <;> norm_num [goldPair4, goldPair]
    obtain ⟨E, -, hb, -⟩ := C104_energy (frac := fun _ _ => 0) (deltaT := 0) (nmax := 0) h exactQuad_exact le_rfl (b := .inf) (by simp) (by simp)
    exact (abs_nonneg E).trans hb
  have z2 : 0 ≤ zeroBound 1 4.5 6 0 := by
    have h : PairOK { goldPair4 with r2 := 4.5 } := by
      refine ⟨goldPair4_ok.m1, goldPair4_ok.m2, goldPair4_ok.m3, ?_, ?_, ?_, ?_, ?_⟩ <;> norm_num [goldPair4, goldPair]
    obtain ⟨E, -, hb, -⟩ := C104_energy (frac := fun _ _ => 0) (deltaT := 0) (nmax := 0) h exactQuad_exact le_rfl (b := .inf) (by simp) (by simp)
    exact (abs_nonneg E).trans hb
  refine add_le_add (le_of_eq ?_) (add_le_add (mul_le_mul_of_nonneg_right ?_ z1) (mul_le_mul_of_nonneg_right ?_ z2)) <;> norm_num [goldPair4, goldPair]

example {a b : ℕ} (ha : 20 ≤ a) (hb : 20 ≤ b) (hab : a ≤ b) : ∃ x y, pairVals exactBes goldPair4 [1] = .ok [x] ∧ pairVals exactBes (goldPair4.complete.cut a b) [1] = .ok [y] ∧
    y ≤ x ∧ x ≤ 0 := by
  obtain ⟨x, y, e1, e2, b1, b2, -⟩ := C148_mSumme goldPair4_ok (by norm_num [goldPair4]) goldPair4_fits ha hb hab one_pos (goldPair4_dense one_pos) (goldPair4_dense one_pos)
    (equalContrast_same goldPair4_ok.m1 goldPair4_ok.m3)
  exact ⟨x, y, e1, e2, b1, b2⟩

example {a b : ℕ} (ha : 20 ≤ a) (hb : 20 ≤ b) (hab : a ≤ b) : ∃ z y, pairK0 (fun _ _ => 0) goldPair4 = .ok z ∧ pairK0 (fun _ _ => 0) (goldPair4.complete.cut a b) = .ok y ∧
    y ≤ z ∧ z ≤ 0 := by
  obtain ⟨x, y, e1, e2, b1, b2, -⟩ := C148_mSumme_k0 goldPair4_ok (by norm_num [goldPair4]) goldPair4_fits ha hb hab (equalContrast_same goldPair4_ok.m1 goldPair4_ok.m3) (fun _ _ => 0)
  exact ⟨x, y, e1, e2, b1, b2⟩

example : ∃ v F x, (freeEnergy ⟨0.01, 500, 200, true, .int 0, pairGeo exactBes (fun _ _ => 0) goldPair4⟩ FT.fresh).1 = .ok F ∧ F[199]? = some x ∧ v ≤ x ∧ x ≤ 0 := by
  obtain ⟨v, -, F, x, e1, e2, b1, b2, -⟩ := C148_free_energy (p := ⟨0.01, 500, 200, true, .int 0, pairGeo exactBes (fun _ _ => 0) goldPair4⟩) goldPair4_ok
    (by norm_num [goldPair4]) goldPair4_fits (equalContrast_same goldPair4_ok.m1 goldPair4_ok.m3) (fun k hk => goldPair4_dense hk) (fun k hk => goldPair4_dense hk)
    rfl rfl rfl (by norm_num) (by norm_num) (i := 199) (by norm_num)
  exact ⟨v, F, x, e1, e2, b1, b2⟩

/-- A gold sphere coated with water and a mirror, precision 1e-4. -/
example {a b : ℕ} (ha : 20 ≤ a) (hb : 25 ≤ b) (hab : a ≤ b) : ∃ E E' : ℝ, e0 exactQuad (ballAt exactBes frac wetPair) 0 0 0 .inf = .ok E ∧
    e0 exactQuad (ballAt exactBes frac (wetPair.complete.cut a b)) 0 0 0 .inf = .ok E' ∧ E' ≤ E ∧ E < 0 ∧
    |E' - E| ≤ 1.9e-4 * |E| + ((1.5 / 1.75) ^ 41 * zeroBound 1.75 4 6 0 + (4 / 4.25) ^ 51 * zeroBound 1.5 4.25 6 0) := by
  obtain ⟨E, E', h1, h2, h3, -, h5⟩ := C148_stratified_zero_temperature (P := wetPair) (frac := frac) (deltaT := 0) (nmax := 0) wetPair_ok
    (by norm_num [wetPair]) ha hb hab (fun k hk => wetPair_same hk) (r1' := 1.75) (r2' := 4.25) (by norm_num) (by norm_num) (by norm_num [wetPair]) (by norm_num [wetPair])
    exactQuad_exact le_rfl (k1 := .inf) (by simp) (by simp)
  obtain ⟨F, g1, g2, -⟩ := C138_strict (frac := frac) (deltaT := 0) (nmax := 0) wetPair_ok exactQuad_exact (fun k hk => (wetFull_contrast hk).1)
    (fun k hk => (wetFull_contrast hk).2) le_rfl (b := .inf) (by simp) (by simp)
  rw [h1] at g1
  injection g1 with g1
  refine ⟨E, E', h1, h2, h3, g1 ▸ g2 fun k hk => wetPair_same hk, h5.trans (le_of_eq ?_)⟩
  norm_num [wetPair]

example {a b : ℕ} (ha : 20 ≤ a) (hb : 25 ≤ b) (hab : a ≤ b) : ∃ x y : ℝ, ballVals exactBes wetPair [1] = .ok [x] ∧ ballVals exactBes (wetPair.complete.cut a b) [1] = .ok [y] ∧
    y ≤ x ∧ x ≤ 0 := by
  obtain ⟨x, y, h1, h2, h3, h4, -⟩ := C148_stratified wetPair_ok (by norm_num [wetPair]) ha hb hab one_pos (wetPair_same one_pos) (r1' := 1.75) (r2' := 4.25)
    (by norm_num) (by norm_num) (by norm_num [wetPair]) (by norm_num [wetPair])
  exact ⟨x, y, h1, h2, h3, h4⟩

end CasSph
