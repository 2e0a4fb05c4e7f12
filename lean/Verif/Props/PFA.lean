import Verif.Lemmas.PFA

/-! # C61-C64, C84: round trips between plates and the proximity force approximation -/

namespace CasSph

open PFA

/-! ## C61 -/

/-- C61: for physical plates (of any class) and a penetrable medium no logarithm fails and the single round-trip
function is the sum of the two channels. -/
theorem C61_additive {p : PFA} (h : p.Ok) {kperp kn L : ℝ} (hk : 0 < kn) (hL : 0 < L) :
    ∃ te tm, p.roundTrips kperp kn L = .ok (te, tm) ∧ p.roundTrip kperp kn L = .ok (te + tm) :=
  ⟨_, _, roundTrips_val h hk hL, roundTrip_val h hk hL⟩

theorem log_chan_sq {r e : ℝ} (hr : |r| ≤ 1) (h0 : 0 < e) (h1 : e < 1) :
    Real.log (1 - r * r * e) ≤ 0 ∧ (Real.log (1 - r * r * e) = 0 ↔ r = 0) := by
  have hr2 : |r * r| ≤ 1 := by rw [abs_mul]; exact mul_le_one₀ hr (abs_nonneg _) hr
  have hp := one_sub_pos hr2 h0 h1
  have hs : 0 ≤ r * r * e := mul_nonneg (mul_self_nonneg r) h0.le
  refine ⟨Real.log_nonpos hp.le (by linarith), ?_, ?_⟩
  · intro h
    rcases Real.log_eq_zero.1 h with h | h | h
    · linarith
    · have : r * r * e = 0 := by linarith
      rcases mul_eq_zero.1 this with h | h
      · exact mul_self_eq_zero.1 h
      · linarith
    · linarith
  · rintro rfl; simp

/-- both amplitudes vanish only if plate and medium have the same responses -/
theorem amps_zero {e m e' m' kp kn : ℝ} (he : 0 < e) (hm : 0 < m) (he' : 0 < e') (hm' : 0 < m') (hp : kp ≠ 0)
    (hk : 0 < kn)
    (h1 : m * Real.sqrt (kp ^ 2 + e' * m' * kn ^ 2) = m' * Real.sqrt (kp ^ 2 + e * m * kn ^ 2))
    (h2 : e * Real.sqrt (kp ^ 2 + e' * m' * kn ^ 2) = e' * Real.sqrt (kp ^ 2 + e * m * kn ^ 2)) : e = e' ∧ m = m' := by
  have sa := Real.sq_sqrt (show 0 ≤ kp ^ 2 + e' * m' * kn ^ 2 by positivity)
  have sb := Real.sq_sqrt (show 0 ≤ kp ^ 2 + e * m * kn ^ 2 by positivity)
  have pa : 0 < Real.sqrt (kp ^ 2 + e' * m' * kn ^ 2) := Real.sqrt_pos.2 (by positivity)
  have pb : 0 < Real.sqrt (kp ^ 2 + e * m * kn ^ 2) := Real.sqrt_pos.2 (by positivity)
  generalize Real.sqrt (kp ^ 2 + e' * m' * kn ^ 2) = a at *
  generalize Real.sqrt (kp ^ 2 + e * m * kn ^ 2) = b at *
  have h3 : e * m * a ^ 2 = e' * m' * b ^ 2 := by
    calc e * m * a ^ 2 = (m * a) * (e * a) := by ring
      _ = e' * m' * b ^ 2 := by rw [h1, h2]; ring
  rw [sa, sb] at h3
  have h4 : (e * m - e' * m') * kp ^ 2 = 0 := by linarith
  have h5 : e * m = e' * m' := by
    rcases mul_eq_zero.1 h4 with h | h
    · linarith
    · exact absurd (pow_eq_zero_iff two_ne_zero |>.1 h) hp
  have hab : a = b := by
    rw [h5] at sb
    have : a ^ 2 = b ^ 2 := by rw [sa, sb]
    exact (pow_left_inj₀ pa.le pb.le two_ne_zero).1 this
  rw [hab] at h1 h2
  exact ⟨mul_right_cancel₀ pb.ne' h2, mul_right_cancel₀ pb.ne' h1⟩

/-- C61: identical plates attract: both channels are non-positive, and (for `kperp ≠ 0`) their sum vanishes only if the
plates have the same response as the medium.  In particular it is negative for perfect conductors. -/
theorem C61_attractive {m md : Material} (h : PFA.Ok ⟨m, m, md⟩) {kperp kn L : ℝ} (hk : 0 < kn) (hL : 0 < L) :
    ∃ te tm, PFA.roundTrips ⟨m, m, md⟩ kperp kn L = .ok (te, tm) ∧ te ≤ 0 ∧ tm ≤ 0 ∧
      (m.cls = .pec → te < 0 ∧ tm < 0) ∧
      (kperp ≠ 0 → (te + tm = 0 ↔ m.medium kn = md.medium kn)) := by
  have e0 := Real.exp_pos (-2 * kapV md kperp kn * L)
  have e1 := exp_lt h hk hL (kperp := kperp)
  have b1 := log_chan_sq (reflTE_abs h.h1 h.pen h.hmd hk (kperp := kperp)) e0 e1
  have b2 := log_chan_sq (reflTM_abs h.h1 h.pen h.hmd hk (kperp := kperp)) e0 e1
  simp only at b1 b2
  refine ⟨_, _, roundTrips_val h hk hL, b1.1, b2.1, ?_, ?_⟩
  · intro hc
    have z1 : reflTE m md kperp kn ≠ 0 := by unfold reflTE; rw [if_pos hc]; norm_num
    have z2 : reflTM m md kperp kn ≠ 0 := by unfold reflTM; rw [if_pos hc]; norm_num
    exact ⟨lt_of_le_of_ne b1.1 fun h => z1 (b1.2.1 h), lt_of_le_of_ne b2.1 fun h => z2 (b2.2.1 h)⟩
  · intro hp
    have hs : ∀ x y : ℝ, x ≤ 0 → y ≤ 0 → (x + y = 0 ↔ x = 0 ∧ y = 0) := by
      intro x y hx hy
      constructor
      · intro h; constructor <;> linarith
      · rintro ⟨rfl, rfl⟩; simp
    refine (hs _ _ b1.1 b2.1).trans ((and_congr b1.2 b2.2).trans ?_)
    have vd := medium_val h.pen h.hmd hk
    simp only at vd
    have hmd := muV_pos h.hmd hk.le
    simp only at hmd
    by_cases hc : m.cls = .pec
    · constructor
      · rintro ⟨h1, -⟩; unfold reflTE at h1; rw [if_pos hc] at h1; norm_num at h1
      · intro h1; rw [vd.1] at h1; exact absurd hc (medium_ne_pec h1)
    · have vm := medium_val hc h.h1 hk
      have hm := muV_pos h.h1 hk.le
      simp only at hm
      unfold reflTE reflTM
      rw [if_neg hc, if_neg hc, amp_zero hm (kapV_pos hc h.h1 hk) hmd (kapV_pos h.pen h.hmd hk),
        amp_zero vm.2 (kapV_pos hc h.h1 hk) vd.2 (kapV_pos h.pen h.hmd hk), vm.1, vd.1]
      constructor
      · rintro ⟨h1, h2⟩
        obtain ⟨e1, e2⟩ := amps_zero vm.2 hm vd.2 hmd hp hk h1 h2
        rw [e1, e2]
      · intro h1
        have h1 := Except.ok.inj h1
        injection h1 with h1 h2
        unfold kapV
        simp only [h1, h2, and_self]

theorem vacuum_ok : (Material.mk .lorentz [] none).Physical := ⟨by simp, by simp, by simp⟩

theorem pec_ok : perfectConductor.Physical := ⟨by simp [perfectConductor], by simp [perfectConductor], by simp [perfectConductor]⟩

/-- Perfect mirrors in vacuum meet the hypotheses. -/
theorem mirrors_ok : PFA.Ok ⟨perfectConductor, perfectConductor, ⟨.lorentz, [], none⟩⟩ :=
  ⟨pec_ok, pec_ok, vacuum_ok, by simp⟩

example : ∃ te tm, PFA.roundTrips ⟨perfectConductor, perfectConductor, ⟨.lorentz, [], none⟩⟩ 1 1 1 = .ok (te, tm) ∧
    te < 0 ∧ tm < 0 := by
  obtain ⟨te, tm, h, -, -, h', -⟩ := C61_attractive mirrors_ok (kperp := 1) (kn := 1) (L := 1) one_pos one_pos
  exact ⟨te, tm, h, h' rfl⟩

/-! ## C84 -/

theorem kap_lt {e e' m kp kn : ℝ} (he : 0 < e) (hm : 0 < m) (hk : 0 < kn) (h : e < e') :
    Real.sqrt (kp ^ 2 + e * m * kn ^ 2) < Real.sqrt (kp ^ 2 + e' * m * kn ^ 2) := by
  have := mul_pos hm (pow_pos hk 2)
  apply Real.sqrt_lt_sqrt (by positivity)
  nlinarith

theorem tm_lt {e e' m kp kn : ℝ} (he : 0 < e) (hm : 0 < m) (hk : 0 < kn) (h : e < e') :
    e * Real.sqrt (kp ^ 2 + e' * m * kn ^ 2) < e' * Real.sqrt (kp ^ 2 + e * m * kn ^ 2) := by
  have he' : 0 < e' := he.trans h
  have h1 : ∀ x y : ℝ, 0 < x → x * Real.sqrt y = Real.sqrt (x ^ 2 * y) := by
    intro x y hx
    rw [Real.sqrt_mul (sq_nonneg x), Real.sqrt_sq hx.le]
  rw [h1 _ _ he, h1 _ _ he']
  apply Real.sqrt_lt_sqrt (by positivity)
  have h2 : 0 ≤ (e' ^ 2 - e ^ 2) * kp ^ 2 := mul_nonneg (by nlinarith) (sq_nonneg _)
  have h3 : 0 < e * e' * (m * kn ^ 2) * (e' - e) := mul_pos (by positivity) (by linarith)
  nlinarith

/-- TE and TM amplitudes for a purely dielectric contrast -/
theorem refl_signs {m md : Material} (hm : m.Physical) (hc : md.cls ≠ .pec) (hmd : md.Physical) {kperp kn e e0 mu : ℝ}
    (hk : 0 < kn) (h1 : m.medium kn = .ok ⟨e, mu⟩) (h2 : md.medium kn = .ok ⟨e0, mu⟩) :
    (e0 < e → reflTE m md kperp kn < 0 ∧ 0 < reflTM m md kperp kn) ∧
    (e < e0 → 0 < reflTE m md kperp kn ∧ reflTM m md kperp kn < 0) := by
  have hcm := medium_ne_pec h1
  have v1 := medium_val hcm hm hk
  have v2 := medium_val hc hmd hk
  rw [h1] at v1
  rw [h2] at v2
  have w1 := Except.ok.inj v1.1
  have w2 := Except.ok.inj v2.1
  injection w1 with w1 w1'
  injection w2 with w2 w2'
  have p1 := kapV_pos hcm hm (kperp := kperp) hk
  have p2 := kapV_pos hc hmd (kperp := kperp) hk
  have hmu := muV_pos hm hk.le
  rw [← w1'] at hmu
  have he := v1.2
  have he0 := v2.2
  unfold reflTE reflTM
  rw [if_neg hcm, if_neg hcm, ← w1', ← w2', amp_neg hmu p1 hmu p2, amp_pos hmu p1 hmu p2, amp_neg he p1 he0 p2,
    amp_pos he p1 he0 p2]
  unfold kapV
  rw [← w1, ← w1', ← w2, ← w2']
  rw [← w1] at he
  rw [← w2] at he0
  exact ⟨fun h => ⟨mul_lt_mul_of_pos_left (kap_lt he0 hmu hk h) hmu, tm_lt he0 hmu hk h⟩,
    fun h => ⟨mul_lt_mul_of_pos_left (kap_lt he hmu hk h) hmu, tm_lt he hmu hk h⟩⟩

theorem log_chan_sign {r e : ℝ} (hr : |r| ≤ 1) (h0 : 0 < e) (h1 : e < 1) :
    (0 < r → Real.log (1 - r * e) < 0) ∧ (r < 0 → 0 < Real.log (1 - r * e)) := by
  have hp := one_sub_pos hr h0 h1
  refine ⟨fun h => Real.log_neg hp ?_, fun h => Real.log_pos ?_⟩
  · have := mul_pos h h0; linarith
  · have := mul_neg_of_neg_of_pos h h0; linarith

/-- C84: plates and medium of equal permeability at the frequency in question.  If the permittivity of the medium lies
between those of the plates both channels are repulsive, if it is smaller or larger than both, attractive. -/
theorem C84_lifshitz_sign {p : PFA} (h : p.Ok) {kperp kn L e1 e2 e0 mu : ℝ} (hk : 0 < kn) (hL : 0 < L)
    (h1 : p.mat1.medium kn = .ok ⟨e1, mu⟩) (h2 : p.mat2.medium kn = .ok ⟨e2, mu⟩)
    (h0 : p.matMd.medium kn = .ok ⟨e0, mu⟩) :
    ∃ te tm, p.roundTrips kperp kn L = .ok (te, tm) ∧
      (e1 < e0 ∧ e0 < e2 ∨ e2 < e0 ∧ e0 < e1 → 0 < te ∧ 0 < tm) ∧
      (e1 < e0 ∧ e2 < e0 ∨ e0 < e1 ∧ e0 < e2 → te < 0 ∧ tm < 0) := by
  have x0 := Real.exp_pos (-2 * kapV p.matMd kperp kn * L)
  have x1 := exp_lt h hk hL (kperp := kperp)
  obtain ⟨a1, b1⟩ := refl_signs h.h1 h.pen h.hmd hk h1 h0 (kperp := kperp)
  obtain ⟨a2, b2⟩ := refl_signs h.h2 h.pen h.hmd hk h2 h0 (kperp := kperp)
  have s1 := log_chan_sign (te_abs h hk (kperp := kperp)) x0 x1
  have s2 := log_chan_sign (tm_abs h hk (kperp := kperp)) x0 x1
  refine ⟨_, _, roundTrips_val h hk hL, ?_, ?_⟩
  · rintro (⟨u, v⟩ | ⟨u, v⟩)
    · exact ⟨s1.2 (mul_neg_of_pos_of_neg (b1 u).1 (a2 v).1), s2.2 (mul_neg_of_neg_of_pos (b1 u).2 (a2 v).2)⟩
    · exact ⟨s1.2 (mul_neg_of_neg_of_pos (a1 v).1 (b2 u).1), s2.2 (mul_neg_of_pos_of_neg (a1 v).2 (b2 u).2)⟩
  · rintro (⟨u, v⟩ | ⟨u, v⟩)
    · exact ⟨s1.1 (mul_pos (b1 u).1 (b2 v).1), s2.1 (mul_pos_of_neg_of_neg (b1 u).2 (b2 v).2)⟩
    · exact ⟨s1.1 (mul_pos_of_neg_of_neg (a1 u).1 (a2 v).1), s2.1 (mul_pos (a1 u).2 (a2 v).2)⟩

/-- The hypotheses of C84 are met: vacuum facing a dielectric with permittivity 3 through one with permittivity 2 (at
`kn = 1`, plasma frequencies in units of `omegaNorm`). -/
example : ∃ te tm, PFA.roundTrips ⟨⟨.lorentz, [], none⟩, ⟨.lorentz, [⟨omegaNorm, 0, 0⟩, ⟨omegaNorm, 0, 0⟩], none⟩,
    ⟨.lorentz, [⟨omegaNorm, 0, 0⟩], none⟩⟩ 1 1 1 = .ok (te, tm) ∧ 0 < te ∧ 0 < tm := by
  have hn : omegaNorm ≠ 0 := omegaNorm_pos.ne'
  have m1 : (Material.mk .lorentz [] none).medium 1 = .ok ⟨1, 1⟩ := rfl
  have m0 : (Material.mk .lorentz [⟨omegaNorm, 0, 0⟩] none).medium 1 = .ok ⟨2, 1⟩ := by
    apply medium_ok
    · simp [Material.epsilon, Material.lorentzTerm, cdiv, hn]; norm_num [ok_bind]
    · rfl
  have m2 : (Material.mk .lorentz [⟨omegaNorm, 0, 0⟩, ⟨omegaNorm, 0, 0⟩] none).medium 1 = .ok ⟨3, 1⟩ := by
    apply medium_ok
    · simp [Material.epsilon, Material.lorentzTerm, cdiv, hn]; norm_num [ok_bind]
    · rfl
  obtain ⟨te, tm, h, h', -⟩ := C84_lifshitz_sign
    (p := ⟨⟨.lorentz, [], none⟩, ⟨.lorentz, [⟨omegaNorm, 0, 0⟩, ⟨omegaNorm, 0, 0⟩], none⟩,
    ⟨.lorentz, [⟨omegaNorm, 0, 0⟩], none⟩⟩)
    ⟨vacuum_ok, ⟨by simp, by simp, by simp⟩, ⟨by simp, by simp, by simp⟩, by simp⟩
    (kperp := 1) (kn := 1) (L := 1) one_pos one_pos m1 m2 m0
  exact ⟨te, tm, h, h' (Or.inl ⟨by norm_num, by norm_num⟩)⟩

/-! ## C62 -/

/-- C62, what the code does: the pressure functions are exactly one half of minus the derivative of the energy
functions with respect to the distance, in each channel and in the sum. -/
theorem C62_half {p : PFA} (h : p.Ok) {kperp kn L : ℝ} (hk : 0 < kn) (hL : 0 < L) (fTE fTM f : ℝ → ℝ)
    (hf : ∀ L, 0 < L → p.roundTrips kperp kn L = .ok (fTE L, fTM L))
    (hs : ∀ L, 0 < L → p.roundTrip kperp kn L = .ok (f L)) :
    ∃ pTE pTM, p.pressureRoundTrips kperp kn L = .ok (pTE, pTM) ∧ p.pressureRoundTrip kperp kn L = .ok (pTE + pTM) ∧
      HasDerivAt fTE (-(2 * pTE)) L ∧ HasDerivAt fTM (-(2 * pTM)) L ∧ HasDerivAt f (-(2 * (pTE + pTM))) L := by
  have d1 := log_deriv (te_abs h hk (kperp := kperp)) (kapV_pos h.pen h.hmd (kperp := kperp) hk) hL
  have d2 := log_deriv (tm_abs h hk (kperp := kperp)) (kapV_pos h.pen h.hmd (kperp := kperp) hk) hL
  have ev : ∀ᶠ x in nhds L, 0 < x := lt_mem_nhds hL
  refine ⟨_, _, pressureRoundTrips_val h hk hL, pressureRoundTrip_val h hk hL, ?_, ?_, ?_⟩
  · refine (d1.congr_of_eventuallyEq (f₁ := fTE) ?_).congr_deriv (by ring)
    filter_upwards [ev] with x hx
    have := Except.ok.inj ((hf x hx).symm.trans (roundTrips_val h hk hx))
    exact congrArg Prod.fst this
  · refine (d2.congr_of_eventuallyEq (f₁ := fTM) ?_).congr_deriv (by ring)
    filter_upwards [ev] with x hx
    have := Except.ok.inj ((hf x hx).symm.trans (roundTrips_val h hk hx))
    exact congrArg Prod.snd this
  · refine ((d1.add d2).congr_of_eventuallyEq (f₁ := f) ?_).congr_deriv (by ring)
    filter_upwards [ev] with x hx
    exact Except.ok.inj ((hs x hx).symm.trans (roundTrip_val h hk hx))

/-- C62 as the claim reads: the pressure function is minus the derivative of the energy function. -/
def PressureIsDerivative (p : PFA) (kperp kn L : ℝ) : Prop :=
  ∀ f : ℝ → ℝ, (∀ L, 0 < L → p.roundTrip kperp kn L = .ok (f L)) →
    ∃ v, p.pressureRoundTrip kperp kn L = .ok v ∧ HasDerivAt f (-v) L

/-- C62: it holds only where the pressure vanishes. -/
theorem C62_partial {p : PFA} (h : p.Ok) {kperp kn L : ℝ} (hk : 0 < kn) (hL : 0 < L) :
    PressureIsDerivative p kperp kn L ↔ p.pressureRoundTrip kperp kn L = .ok 0 := by
  obtain ⟨a, b, -, h2, -, -, h3⟩ := C62_half h hk hL (kperp := kperp) _ _ _ (fun L hL => roundTrips_val h hk hL)
    (fun L hL => roundTrip_val h hk hL)
  constructor
  · intro hp
    obtain ⟨v, hv, hd⟩ := hp _ (fun L hL => roundTrip_val h hk hL)
    have e1 := h3.unique hd
    have e2 := Except.ok.inj (h2.symm.trans hv)
    rw [hv]
    congr 1
    linarith
  · intro h0 f hf
    refine ⟨0, h0, ?_⟩
    obtain ⟨a, b, -, h2, -, -, h3⟩ := C62_half h hk hL (kperp := kperp) _ _ f (fun L hL => roundTrips_val h hk hL) hf
    have : a + b = 0 := Except.ok.inj (h2.symm.trans h0)
    simpa [this] using h3

/-- C62 is violated: for perfect mirrors in vacuum, at every wavenumber and distance. -/
theorem C62_refuted {kperp kn L : ℝ} (hk : 0 < kn) (hL : 0 < L) :
    ¬ PressureIsDerivative ⟨perfectConductor, perfectConductor, ⟨.lorentz, [], none⟩⟩ kperp kn L := by
  rw [C62_partial mirrors_ok hk hL, pressureRoundTrip_val mirrors_ok hk hL]
  intro h
  have h := Except.ok.inj h
  have e0 := Real.exp_pos (-2 * kapV (Material.mk .lorentz [] none) kperp kn * L)
  have e1 := exp_lt mirrors_ok hk hL (kperp := kperp)
  have kp := kapV_pos (M := ⟨.lorentz, [], none⟩) (by simp) vacuum_ok (kperp := kperp) hk
  simp only [PFA.te, PFA.tm, reflTE, reflTM, perfectConductor, if_true] at h e1
  generalize Real.exp (-2 * kapV (Material.mk .lorentz [] none) kperp kn * L) = e at *
  generalize kapV (Material.mk .lorentz [] none) kperp kn = k at *
  norm_num at h
  rcases h with h | h
  · rcases h with h | h <;> linarith
  · linarith

/-! ## C63 -/

theorem cdiv_r {rho r : ℝ} (hr : 0 < r) : cdiv rho r = .ok (rho / r) := cdiv_ok hr.ne'

theorem sqrt_r {rho r : ℝ} (hr : 0 < r) (h0 : 0 ≤ rho) (h : rho ≤ r) :
    mathSqrt (1 - (rho / r) ^ 2) = .ok (Real.sqrt (1 - (rho / r) ^ 2)) := by
  apply mathSqrt_ok
  have : rho / r ≤ 1 := (div_le_one hr).2 h
  have : 0 ≤ rho / r := div_nonneg h0 hr.le
  nlinarith

theorem sqrt_r_error {rho r : ℝ} (hr : 0 < r) (h : r < rho) : mathSqrt (1 - (rho / r) ^ 2) = .error .valueError := by
  unfold mathSqrt
  have : 1 < rho / r := (one_lt_div hr).2 h
  rw [if_pos (by nlinarith)]

theorem mul_sqrt_r {rho r : ℝ} (hr : 0 < r) : r * Real.sqrt (1 - (rho / r) ^ 2) = Real.sqrt (r ^ 2 - rho ^ 2) := by
  have : r ^ 2 - rho ^ 2 = r ^ 2 * (1 - (rho / r) ^ 2) := by field_simp
  rw [this, Real.sqrt_mul (sq_nonneg r), Real.sqrt_sq hr.le]

/-- C63: outside, the distance is the height difference of two points on the surfaces at the same distance `rho` from
the axis. -/
theorem C63_outside {r1 r2 d rho : ℝ} (h1 : 0 < r1) (h2 : 0 < r2) (h0 : 0 ≤ rho) (hr1 : rho ≤ r1) (hr2 : rho ≤ r2)
    (hd : r1 + r2 < d) :
    distance r1 r2 d rho = .ok (d - Real.sqrt (r1 ^ 2 - rho ^ 2) - Real.sqrt (r2 ^ 2 - rho ^ 2)) := by
  unfold distance
  rw [if_pos hd, cdiv_r h1, ok_bind, sqrt_r h1 h0 hr1, ok_bind, cdiv_r h2, ok_bind, sqrt_r h2 h0 hr2, ok_bind,
    mul_sqrt_r h1, mul_sqrt_r h2]

/-- C63: inside (a sphere of radius `r1` displaced by `d` in a cavity of radius `r2`). -/
theorem C63_inside {r1 r2 d rho : ℝ} (h1 : 0 < r1) (h2 : 0 < r2) (h0 : 0 ≤ rho) (hr1 : rho ≤ r1) (hr2 : rho ≤ r2)
    (hd : d ≤ r1 + r2) :
    distance r1 r2 d rho = .ok (Real.sqrt (r2 ^ 2 - rho ^ 2) - d - Real.sqrt (r1 ^ 2 - rho ^ 2)) := by
  unfold distance
  rw [if_neg (not_lt.2 hd), cdiv_r h2, ok_bind, sqrt_r h2 h0 hr2, ok_bind, cdiv_r h1, ok_bind, sqrt_r h1 h0 hr1,
    ok_bind, mul_sqrt_r h1, mul_sqrt_r h2]

/-- C63: the values on the axis: the surface-to-surface distances. -/
theorem C63_axis {r1 r2 d : ℝ} (h1 : 0 < r1) (h2 : 0 < r2) :
    (r1 + r2 < d → distance r1 r2 d 0 = .ok (d - r1 - r2)) ∧
    (d ≤ r1 + r2 → distance r1 r2 d 0 = .ok (r2 - d - r1)) := by
  constructor
  · intro hd
    rw [C63_outside h1 h2 le_rfl h1.le h2.le hd]
    simp [Real.sqrt_sq, h1.le, h2.le]
  · intro hd
    rw [C63_inside h1 h2 le_rfl h1.le h2.le hd]
    simp [Real.sqrt_sq, h1.le, h2.le]

/-- C63: the distance is strictly increasing with the distance from the axis, outside and (for `r1 < r2`) inside; so the
value on the axis is the smallest. -/
theorem C63_increasing {r1 r2 d a b : ℝ} (h1 : 0 < r1) (h2 : 0 < r2) (ha : 0 ≤ a) (hab : a < b) (hb1 : b ≤ r1)
    (hb2 : b ≤ r2) (hd : r1 + r2 < d ∨ d ≤ r1 + r2 ∧ r1 < r2) :
    ∃ x y, distance r1 r2 d a = .ok x ∧ distance r1 r2 d b = .ok y ∧ x < y := by
  have hsq : a ^ 2 < b ^ 2 := by nlinarith
  have hb : 0 ≤ b := ha.trans hab.le
  have s1 : Real.sqrt (r1 ^ 2 - b ^ 2) < Real.sqrt (r1 ^ 2 - a ^ 2) := by
    apply Real.sqrt_lt_sqrt <;> nlinarith
  have s2 : Real.sqrt (r2 ^ 2 - b ^ 2) < Real.sqrt (r2 ^ 2 - a ^ 2) := by
    apply Real.sqrt_lt_sqrt <;> nlinarith
  rcases hd with hd | ⟨hd, hr⟩
  · exact ⟨_, _, C63_outside h1 h2 ha (hab.le.trans hb1) (hab.le.trans hb2) hd, C63_outside h1 h2 hb hb1 hb2 hd,
      by linarith⟩
  · refine ⟨_, _, C63_inside h1 h2 ha (hab.le.trans hb1) (hab.le.trans hb2) hd, C63_inside h1 h2 hb hb1 hb2 hd, ?_⟩
    have q1 := Real.sq_sqrt (show 0 ≤ r1 ^ 2 - a ^ 2 by nlinarith)
    have q2 := Real.sq_sqrt (show 0 ≤ r1 ^ 2 - b ^ 2 by nlinarith)
    have q3 := Real.sq_sqrt (show 0 ≤ r2 ^ 2 - a ^ 2 by nlinarith)
    have q4 := Real.sq_sqrt (show 0 ≤ r2 ^ 2 - b ^ 2 by nlinarith)
    have t1 : Real.sqrt (r1 ^ 2 - a ^ 2) < Real.sqrt (r2 ^ 2 - a ^ 2) := by
      apply Real.sqrt_lt_sqrt <;> nlinarith
    have t2 : Real.sqrt (r1 ^ 2 - b ^ 2) < Real.sqrt (r2 ^ 2 - b ^ 2) := by
      apply Real.sqrt_lt_sqrt <;> nlinarith
    have n2 := Real.sqrt_nonneg (r1 ^ 2 - b ^ 2)
    generalize Real.sqrt (r1 ^ 2 - a ^ 2) = w1 at *
    generalize Real.sqrt (r1 ^ 2 - b ^ 2) = w2 at *
    generalize Real.sqrt (r2 ^ 2 - a ^ 2) = w3 at *
    generalize Real.sqrt (r2 ^ 2 - b ^ 2) = w4 at *
    -- w3 - w1 < w4 - w2 from (w3-w1)(w3+w1) = (w4-w2)(w4+w2) and w4+w2 < w3+w1
    have e1 : (w3 - w1) * (w3 + w1) = (w4 - w2) * (w4 + w2) := by nlinarith
    have : w3 - w1 < w4 - w2 := by
      by_contra hcon
      push Not at hcon
      nlinarith
    linarith

/-- C63: beyond one of the radii the call raises `ValueError`. -/
theorem C63_domain {r1 r2 d rho : ℝ} (h1 : 0 < r1) (h2 : 0 < r2) (h : r1 < rho ∨ r2 < rho) :
    distance r1 r2 d rho = .error .valueError := by
  have s1 : 0 < rho := by rcases h with h | h <;> linarith
  have key : ∀ r, 0 < r → mathSqrt (1 - (rho / r) ^ 2) = .error .valueError ∨
      ∃ v, mathSqrt (1 - (rho / r) ^ 2) = .ok v := by
    intro r hr
    by_cases hl : r < rho
    · exact Or.inl (sqrt_r_error hr hl)
    · exact Or.inr ⟨_, sqrt_r hr s1.le (not_lt.1 hl)⟩
  have hone : mathSqrt (1 - (rho / r1) ^ 2) = .error .valueError ∨ mathSqrt (1 - (rho / r2) ^ 2) = .error .valueError := by
    rcases h with h | h
    · exact Or.inl (sqrt_r_error h1 h)
    · exact Or.inr (sqrt_r_error h2 h)
  unfold distance
  rw [cdiv_r h1, cdiv_r h2]
  simp only [ok_bind]
  rcases key r1 h1 with e1 | ⟨v1, e1⟩ <;> rcases key r2 h2 with e2 | ⟨v2, e2⟩ <;> rw [e1, e2] <;>
    simp only [ok_bind, error_bind, ite_self]
  exfalso
  rw [e1, e2] at hone
  rcases hone with h | h <;> cases h

/-- The integrator evaluates the integrand at `x` when asked for an integral from `a` to `b`: an exception raised there
ends the integration. -/
def Quad.Visits (q : Quad) (f : ℝ → Res ℝ) (a b x : ℝ) : Prop :=
  ∀ e, f x = .error e → ∃ e', q.fin f a b = .error e'

/-- C63: with `r1 > r2` the energy integral, which runs up to `r1`, fails as soon as the integrator visits a point
beyond `r2`. -/
theorem C63_energy_domain {p : PFA} {q : Quad} {r1 r2 d : ℝ} {T : Temp} {s : Bool} (h1 : 0 < r1) (h2 : 0 < r2) {rho : ℝ}
    (hr : r2 < rho) (hv : ∀ f, q.Visits f 0 r1 rho) : ∃ e, p.sphereEnergy q r1 r2 T d s = .error e := by
  unfold sphereEnergy
  apply hv _ .valueError
  rw [C63_domain h1 h2 (Or.inr hr), error_bind]

/-- C63: at contact (`d = r1 + r2`) the inside formula is used and the distance on the axis is `-2 r1`, not zero. -/
theorem C63_contact {r1 r2 : ℝ} (h1 : 0 < r1) (h2 : 0 < r2) : distance r1 r2 (r1 + r2) 0 = .ok (-2 * r1) := by
  rw [(C63_axis h1 h2).2 le_rfl]; congr 1; ring

example : ∃ x y, distance 1 2 4 0 = .ok x ∧ distance 1 2 4 1 = .ok y ∧ x = 1 ∧ x < y := by
  obtain ⟨x, y, hx, hy, h⟩ := C63_increasing (r1 := 1) (r2 := 2) (d := 4) (a := 0) (b := 1) one_pos two_pos le_rfl
    one_pos le_rfl one_le_two (Or.inl (by norm_num))
  refine ⟨x, y, hx, hy, ?_, h⟩
  have := (C63_axis (r1 := 1) (r2 := 2) (d := 4) one_pos two_pos).1 (by norm_num)
  rw [this] at hx
  rw [← Except.ok.inj hx]; norm_num

end CasSph
