import Verif.Model.PFA
import Verif.Lemmas.MatLimits
import Verif.Props.Scattering

/-! # Reflection amplitudes and round-trip factors of plane plates -/

namespace CasSph

open Filter Topology

theorem mathSqrt_ok {x : ℝ} (h : 0 ≤ x) : mathSqrt x = .ok (Real.sqrt x) := by
  unfold mathSqrt; rw [if_neg (not_lt.2 h)]

theorem mathLog_ok {x : ℝ} (h : 0 < x) : mathLog x = .ok (Real.log x) := by
  unfold mathLog; rw [if_pos h]

/-- wavenumber perpendicular to the plates -/
noncomputable def kapV (m : Material) (kperp kn : ℝ) : ℝ := Real.sqrt (kperp ^ 2 + m.epsV kn * m.muV kn * kn ^ 2)

/-- reflection amplitude for a plate with response `x` (permittivity or permeability), wavenumber `a` against `y`, `b` in
the medium -/
noncomputable def amp (x a y b : ℝ) : ℝ := (x * b - y * a) / (x * b + y * a)

/-- TE amplitude of a plate in a medium -/
noncomputable def reflTE (m md : Material) (kperp kn : ℝ) : ℝ :=
  if m.cls = .pec then -1 else amp (m.muV kn) (kapV m kperp kn) (md.muV kn) (kapV md kperp kn)

/-- TM amplitude of a plate in a medium -/
noncomputable def reflTM (m md : Material) (kperp kn : ℝ) : ℝ :=
  if m.cls = .pec then 1 else amp (m.epsV kn) (kapV m kperp kn) (md.epsV kn) (kapV md kperp kn)

theorem epsV_pos {M : Material} (hM : M.cls ≠ .pec) (hp : M.Physical) {k : ℝ} (hk : 0 < k) : 0 < M.epsV k :=
  (medium_val hM hp hk).2

theorem kapV_pos {M : Material} (hM : M.cls ≠ .pec) (hp : M.Physical) {kperp kn : ℝ} (hk : 0 < kn) :
    0 < kapV M kperp kn := by
  have := epsV_pos hM hp hk
  have := muV_pos hp hk.le
  exact Real.sqrt_pos.2 (by positivity)

theorem sqrt_n {e m kperp kn : ℝ} (he : 0 < e) (hm : 0 < m) :
    Real.sqrt (kperp ^ 2 + (kn * Medium.n ⟨e, m⟩) ^ 2) = Real.sqrt (kperp ^ 2 + e * m * kn ^ 2) := by
  unfold Medium.n
  rw [mul_pow, Real.sq_sqrt (mul_pos he hm).le, mul_comm]

theorem amp_abs {x a y b : ℝ} (hx : 0 < x) (ha : 0 < a) (hy : 0 < y) (hb : 0 < b) : |amp x a y b| < 1 := by
  have := ratio_bound (mul_pos hx hb) (mul_pos hy ha)
  exact abs_lt.2 this

theorem fresnel_val {m md : Material} (hm : m.Physical) (hc : md.cls ≠ .pec) (hmd : md.Physical) {kperp kn : ℝ}
    (hk : 0 < kn) : fresnel m md kperp kn = .ok (reflTE m md kperp kn, reflTM m md kperp kn) := by
  by_cases h : m.cls = .pec
  · unfold fresnel reflTE reflTM; rw [if_pos h, if_pos h, h]
  · have e1 := medium_val h hm hk
    have e2 := medium_val hc hmd hk
    have : fresnel m md kperp kn = fresnelCore ⟨m.epsV kn, m.muV kn⟩ ⟨md.epsV kn, md.muV kn⟩ kperp kn := by
      unfold fresnel
      cases hcl : m.cls with
      | pec => exact absurd hcl h
      | smith => simp only; rw [e1.1, ok_bind, e2.1, ok_bind]
      | lorentz => simp only; rw [e1.1, ok_bind, e2.1, ok_bind]
    rw [this]
    unfold fresnelCore reflTE reflTM amp
    rw [if_neg h, if_neg h]
    simp only
    rw [sqrt_n e1.2 (muV_pos hm hk.le), sqrt_n e2.2 (muV_pos hmd hk.le)]
    have p1 := kapV_pos h hm (kperp := kperp) hk
    have p2 := kapV_pos hc hmd (kperp := kperp) hk
    have m1 := muV_pos hm hk.le
    have m2 := muV_pos hmd hk.le
    have q1 := e1.2
    have q2 := e2.2
    change 0 < Real.sqrt _ at p1
    change 0 < Real.sqrt _ at p2
    rw [cdiv_ok (by positivity), ok_bind, cdiv_ok (by positivity), ok_bind]
    rfl

theorem reflTE_abs {m md : Material} (hm : m.Physical) (hc : md.cls ≠ .pec) (hmd : md.Physical) {kperp kn : ℝ}
    (hk : 0 < kn) : |reflTE m md kperp kn| ≤ 1 := by
  unfold reflTE
  split
  · norm_num
  · rename_i h
    exact (amp_abs (muV_pos hm hk.le) (kapV_pos h hm hk) (muV_pos hmd hk.le) (kapV_pos hc hmd hk)).le

theorem reflTM_abs {m md : Material} (hm : m.Physical) (hc : md.cls ≠ .pec) (hmd : md.Physical) {kperp kn : ℝ}
    (hk : 0 < kn) : |reflTM m md kperp kn| ≤ 1 := by
  unfold reflTM
  split
  · norm_num
  · rename_i h
    exact (amp_abs (epsV_pos h hm hk) (kapV_pos h hm hk) (epsV_pos hc hmd hk) (kapV_pos hc hmd hk)).le

/-- plates and medium for which the calculation makes sense: plates of any class, a penetrable medium -/
structure PFA.Ok (p : PFA) : Prop where
  h1 : p.mat1.Physical
  h2 : p.mat2.Physical
  hmd : p.matMd.Physical
  pen : p.matMd.cls ≠ .pec

namespace PFA

/-- product of the TE amplitudes -/
noncomputable def te (p : PFA) (kperp kn : ℝ) : ℝ := reflTE p.mat1 p.matMd kperp kn * reflTE p.mat2 p.matMd kperp kn

/-- product of the TM amplitudes -/
noncomputable def tm (p : PFA) (kperp kn : ℝ) : ℝ := reflTM p.mat1 p.matMd kperp kn * reflTM p.mat2 p.matMd kperp kn

variable {p : PFA} {kperp kn L : ℝ}

theorem te_abs (h : p.Ok) (hk : 0 < kn) : |p.te kperp kn| ≤ 1 := by
  unfold te; rw [abs_mul]
  exact mul_le_one₀ (reflTE_abs h.h1 h.pen h.hmd hk) (abs_nonneg _) (reflTE_abs h.h2 h.pen h.hmd hk)

theorem tm_abs (h : p.Ok) (hk : 0 < kn) : |p.tm kperp kn| ≤ 1 := by
  unfold tm; rw [abs_mul]
  exact mul_le_one₀ (reflTM_abs h.h1 h.pen h.hmd hk) (abs_nonneg _) (reflTM_abs h.h2 h.pen h.hmd hk)

theorem factors_val (h : p.Ok) (hk : 0 < kn) : p.factors kperp kn L =
    .ok ⟨kapV p.matMd kperp kn, p.te kperp kn * Real.exp (-2 * kapV p.matMd kperp kn * L),
      p.tm kperp kn * Real.exp (-2 * kapV p.matMd kperp kn * L)⟩ := by
  have e := medium_val h.pen h.hmd hk
  have hE : p.matMd.epsilon kn = .ok (p.matMd.epsV kn) := by
    have h1 := e.1
    unfold Material.medium at h1
    cases he : p.matMd.epsilon kn with
    | error x => rw [he, error_bind] at h1; cases h1
    | ok v => unfold Material.epsV; rw [he]
  have m2 := muV_pos h.hmd hk.le
  have q2 := e.2
  unfold factors
  rw [fresnel_val h.h1 h.pen h.hmd hk, ok_bind, fresnel_val h.h2 h.pen h.hmd hk, ok_bind, hE, ok_bind,
    mu_val h.hmd hk.le, ok_bind]
  simp only
  rw [mathSqrt_ok (by positivity), ok_bind]
  rfl

theorem exp_lt (h : p.Ok) (hk : 0 < kn) (hL : 0 < L) : Real.exp (-2 * kapV p.matMd kperp kn * L) < 1 := by
  rw [Real.exp_lt_one_iff]
  have := mul_pos (kapV_pos h.pen h.hmd (kperp := kperp) hk) hL
  linarith

end PFA

theorem one_sub_pos {r e : ℝ} (hr : |r| ≤ 1) (h0 : 0 < e) (h1 : e < 1) : 0 < 1 - r * e := by
  have := (abs_le.1 hr).2
  nlinarith

namespace PFA

variable {p : PFA} {kperp kn L : ℝ}

theorem roundTrips_val (h : p.Ok) (hk : 0 < kn) (hL : 0 < L) : p.roundTrips kperp kn L =
    .ok (Real.log (1 - p.te kperp kn * Real.exp (-2 * kapV p.matMd kperp kn * L)),
      Real.log (1 - p.tm kperp kn * Real.exp (-2 * kapV p.matMd kperp kn * L))) := by
  unfold roundTrips
  rw [factors_val h hk, ok_bind]
  simp only
  rw [mathLog_ok (one_sub_pos (te_abs h hk) (Real.exp_pos _) (exp_lt h hk hL)), ok_bind,
    mathLog_ok (one_sub_pos (tm_abs h hk) (Real.exp_pos _) (exp_lt h hk hL)), ok_bind]

theorem roundTrip_val (h : p.Ok) (hk : 0 < kn) (hL : 0 < L) : p.roundTrip kperp kn L =
    .ok (Real.log (1 - p.te kperp kn * Real.exp (-2 * kapV p.matMd kperp kn * L)) +
      Real.log (1 - p.tm kperp kn * Real.exp (-2 * kapV p.matMd kperp kn * L))) := by
  have h1 := one_sub_pos (te_abs h hk (kperp := kperp)) (Real.exp_pos _) (exp_lt h hk hL (kperp := kperp))
  have h2 := one_sub_pos (tm_abs h hk (kperp := kperp)) (Real.exp_pos _) (exp_lt h hk hL (kperp := kperp))
  unfold roundTrip
  rw [factors_val h hk, ok_bind]
  simp only
  rw [mathLog_ok (mul_pos h1 h2), Real.log_mul h1.ne' h2.ne']

theorem pressureRoundTrips_val (h : p.Ok) (hk : 0 < kn) (hL : 0 < L) : p.pressureRoundTrips kperp kn L =
    .ok (-kapV p.matMd kperp kn * (p.te kperp kn * Real.exp (-2 * kapV p.matMd kperp kn * L)) /
        (1 - p.te kperp kn * Real.exp (-2 * kapV p.matMd kperp kn * L)),
      -kapV p.matMd kperp kn * (p.tm kperp kn * Real.exp (-2 * kapV p.matMd kperp kn * L)) /
        (1 - p.tm kperp kn * Real.exp (-2 * kapV p.matMd kperp kn * L))) := by
  unfold pressureRoundTrips
  rw [factors_val h hk, ok_bind]
  simp only
  rw [cdiv_ok (one_sub_pos (te_abs h hk) (Real.exp_pos _) (exp_lt h hk hL)).ne', ok_bind,
    cdiv_ok (one_sub_pos (tm_abs h hk) (Real.exp_pos _) (exp_lt h hk hL)).ne', ok_bind]

theorem pressureRoundTrip_val (h : p.Ok) (hk : 0 < kn) (hL : 0 < L) : p.pressureRoundTrip kperp kn L =
    .ok (-kapV p.matMd kperp kn * (p.te kperp kn * Real.exp (-2 * kapV p.matMd kperp kn * L)) /
        (1 - p.te kperp kn * Real.exp (-2 * kapV p.matMd kperp kn * L)) +
      -kapV p.matMd kperp kn * (p.tm kperp kn * Real.exp (-2 * kapV p.matMd kperp kn * L)) /
        (1 - p.tm kperp kn * Real.exp (-2 * kapV p.matMd kperp kn * L))) := by
  unfold pressureRoundTrip
  rw [factors_val h hk, ok_bind]
  simp only
  rw [cdiv_ok (one_sub_pos (te_abs h hk) (Real.exp_pos _) (exp_lt h hk hL)).ne', ok_bind,
    cdiv_ok (one_sub_pos (tm_abs h hk) (Real.exp_pos _) (exp_lt h hk hL)).ne', ok_bind]

end PFA

/-- logarithm of one channel -/
theorem log_deriv {r k L : ℝ} (hr : |r| ≤ 1) (hk : 0 < k) (hL : 0 < L) :
    HasDerivAt (fun L => Real.log (1 - r * Real.exp (-2 * k * L)))
      (-2 * (-k * (r * Real.exp (-2 * k * L)) / (1 - r * Real.exp (-2 * k * L)))) L := by
  have he : Real.exp (-2 * k * L) < 1 := by
    rw [Real.exp_lt_one_iff]; have := mul_pos hk hL; linarith
  have h0 := one_sub_pos hr (Real.exp_pos _) he
  have h1 : HasDerivAt (fun L => Real.exp (-2 * k * L)) (Real.exp (-2 * k * L) * (-2 * k)) L := by
    have := ((hasDerivAt_id L).const_mul (-2 * k)).exp
    simpa using this
  refine (((h1.const_mul r).const_sub 1).log h0.ne').congr_deriv ?_
  field_simp

theorem log_chan_bounds {r e : ℝ} (hr : |r| ≤ 1) (h0 : 0 < e) (h1 : e < 1) :
    Real.log (1 - e) ≤ Real.log (1 - r * e) ∧ Real.log (1 - r * e) ≤ -Real.log (1 - e) := by
  obtain ⟨ha, hb⟩ := abs_le.1 hr
  constructor
  · apply Real.log_le_log (by linarith)
    nlinarith
  · rw [← Real.log_inv]
    apply Real.log_le_log (one_sub_pos hr h0 h1)
    have h2 : 1 - r * e ≤ 1 + e := by nlinarith
    have : (1 - r * e) * (1 - e) ≤ 1 := by nlinarith
    rw [← one_div, le_div_iff₀ (by linarith)]
    exact this

theorem amp_pos {x a y b : ℝ} (hx : 0 < x) (ha : 0 < a) (hy : 0 < y) (hb : 0 < b) : 0 < amp x a y b ↔ y * a < x * b := by
  unfold amp
  have := mul_pos hx hb
  have := mul_pos hy ha
  rw [div_pos_iff_of_pos_right (by linarith), sub_pos]

theorem amp_neg {x a y b : ℝ} (hx : 0 < x) (ha : 0 < a) (hy : 0 < y) (hb : 0 < b) : amp x a y b < 0 ↔ x * b < y * a := by
  unfold amp
  have := mul_pos hx hb
  have := mul_pos hy ha
  rw [div_lt_iff₀ (by linarith), zero_mul, sub_lt_zero]

theorem amp_zero {x a y b : ℝ} (hx : 0 < x) (ha : 0 < a) (hy : 0 < y) (hb : 0 < b) : amp x a y b = 0 ↔ x * b = y * a := by
  unfold amp
  have := mul_pos hx hb
  have := mul_pos hy ha
  rw [div_eq_zero_iff, sub_eq_zero, or_iff_left (by linarith)]

end CasSph
