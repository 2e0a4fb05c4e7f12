import Verif.Lemmas.PFA
import Verif.Lemmas.PFAInt
import Verif.Spec.Thermo
import Mathlib.MeasureTheory.Integral.Prod
import Mathlib.MeasureTheory.Function.SpecialFunctions.Basic

/-! # Plane plates with exact integration -/

namespace CasSph

open MeasureTheory Set Filter Topology Spec

/-- The integrator returns the Lebesgue integral of every integrable function that it can evaluate on the open interval
(`scipy.integrate.quad` never evaluates the end points). -/
structure Quad.Exact (q : Quad) : Prop where
  fin : ∀ (f : ℝ → Res ℝ) (g : ℝ → ℝ) (a b : ℝ), a ≤ b → (∀ x, a < x → x < b → f x = .ok (g x)) → IntegrableOn g (Ioo a b) →
    q.fin f a b = .ok (∫ x in Ioo a b, g x)
  inf : ∀ (f : ℝ → Res ℝ) (g : ℝ → ℝ) (a : ℝ), (∀ x, a < x → f x = .ok (g x)) → IntegrableOn g (Ioi a) →
    q.inf f a = .ok (∫ x in Ioi a, g x)

/-- value of a result, zero for an exception -/
def resVal : Res ℝ → ℝ
  | .ok x => x
  | .error _ => 0

/-- an exact integrator -/
noncomputable def exactQuad : Quad where
  fin f a b := .ok (∫ x in Ioo a b, resVal (f x))
  inf f a := .ok (∫ x in Ioi a, resVal (f x))

theorem exactQuad_exact : exactQuad.Exact := by
  constructor
  · intro f g a b _ h _
    unfold exactQuad
    simp only
    congr 1
    refine setIntegral_congr_fun measurableSet_Ioo fun x hx => ?_
    rw [h x hx.1 hx.2]; rfl
  · intro f g a h _
    unfold exactQuad
    simp only
    congr 1
    refine setIntegral_congr_fun measurableSet_Ioi fun x hx => ?_
    rw [h x hx]; rfl

/-- mirror integral -/
noncomputable def mirrorInt (κ L : ℝ) : ℝ :=
  κ / (2 * L) * li 2 (Real.exp (-2 * κ * L)) + li 3 (Real.exp (-2 * κ * L)) / (4 * L ^ 2)

theorem mirrorTerm_eq (κ L : ℝ) : mirrorTerm κ L = -(mirrorInt κ L / Real.pi) := by
  unfold mirrorTerm mirrorInt; rw [neg_div]

theorem mirrorInt_nonneg {κ L : ℝ} (hκ : 0 < κ) (hL : 0 < L) : 0 ≤ mirrorInt κ L := by
  unfold mirrorInt
  rw [← mirror_integral hκ hL]
  refine setIntegral_nonneg measurableSet_Ioi fun k hk => ?_
  have hk : 0 < k := hk
  exact mul_nonneg hk.le (mlog_pos hL (Real.sqrt_pos.2 (by positivity))).le

/-- a function bounded by the logarithm of the mirrors -/
theorem chan_integrable {w : ℝ → ℝ} {κ L : ℝ} (hκ : 0 < κ) (hL : 0 < L)
    (hm : AEStronglyMeasurable w (volume.restrict (Ioi 0)))
    (hb : ∀ k, 0 < k → |w k| ≤ -Real.log (1 - Real.exp (-2 * Real.sqrt (k ^ 2 + κ ^ 2) * L))) :
    IntegrableOn (fun k => k / (2 * Real.pi) * w k) (Ioi 0) ∧
      |∫ k in Ioi (0:ℝ), k / (2 * Real.pi) * w k| ≤ mirrorInt κ L / (2 * Real.pi) := by
  have hpi := Real.pi_pos
  have hi := (mirror_integrable hκ hL).const_mul (1 / (2 * Real.pi))
  have hle : ∀ᵐ k ∂(volume.restrict (Ioi (0:ℝ))), ‖k / (2 * Real.pi) * w k‖ ≤
      1 / (2 * Real.pi) * (k * -Real.log (1 - Real.exp (-2 * Real.sqrt (k ^ 2 + κ ^ 2) * L))) := by
    filter_upwards [ae_restrict_mem measurableSet_Ioi] with k hk
    have hk : 0 < k := hk
    have h1 : 0 < k / (2 * Real.pi) := by positivity
    rw [norm_mul, Real.norm_eq_abs, Real.norm_eq_abs, abs_of_pos h1]
    calc k / (2 * Real.pi) * |w k| ≤ k / (2 * Real.pi) *
        -Real.log (1 - Real.exp (-2 * Real.sqrt (k ^ 2 + κ ^ 2) * L)) := by gcongr; exact hb k hk
      _ = _ := by ring
  have hmm : AEStronglyMeasurable (fun k => k / (2 * Real.pi) * w k) (volume.restrict (Ioi 0)) :=
    (Measurable.aestronglyMeasurable (by fun_prop)).mul hm
  refine ⟨Integrable.mono' hi hmm hle, ?_⟩
  have h := norm_integral_le_of_norm_le hi hle
  rw [Real.norm_eq_abs] at h
  refine h.trans (le_of_eq ?_)
  rw [integral_const_mul, mirror_integral hκ hL]
  unfold mirrorInt
  ring

/-! ## materials -/

theorem epsV_aemeas {M : Material} (hp : M.Physical) : AEMeasurable M.epsV (volume.restrict (Ioi 0)) := by
  cases hc : M.cls with
  | pec =>
    have : M.epsV = fun _ => 0 := by
      funext k; unfold Material.epsV Material.epsilon; rw [hc]
    rw [this]; exact aemeasurable_const
  | lorentz =>
    have hm : Measurable fun k => 1 + (M.e.map (lorT k)).sum := by
      apply measurable_const.add
      generalize M.e = l
      induction l with
      | nil => simp
      | cons p ps ih =>
        simp only [List.map_cons, List.sum_cons]
        refine Measurable.add ?_ ih
        unfold lorT
        fun_prop
    refine hm.aemeasurable.congr ?_
    filter_upwards [ae_restrict_mem measurableSet_Ioi] with k hk
    exact (epsV_lorentz hc hp hk).symm
  | smith =>
    obtain ⟨p, hpe⟩ := List.length_eq_one_iff.1 (hp.one hc)
    have hm : Measurable fun k => 1 + (p.wP / omegaNorm) ^ 2 / (k ^ 2 + p.gamma / omegaNorm * k) *
          (1 - 0.49 * (p.gamma / omegaNorm) / (k + p.gamma / omegaNorm)) := by fun_prop
    refine hm.aemeasurable.congr ?_
    filter_upwards [ae_restrict_mem measurableSet_Ioi] with k hk
    exact (epsV_smith hc hp hpe hk).symm

theorem muV_meas (M : Material) : Measurable M.muV := by
  rcases M with ⟨cls, e, b⟩
  unfold Material.muV
  cases cls <;> cases b with
  | none => exact measurable_const
  | some x =>
    first
    | exact measurable_const
    | (show Measurable fun k => Spec.debyeMu k x.1 (x.2 / omegaNorm)
       unfold Spec.debyeMu
       fun_prop)

theorem epsV_ge_one {M : Material} (hM : M.cls ≠ .pec) (hp : M.Physical) {k : ℝ} (hk : 0 < k) : 1 ≤ M.epsV k := by
  cases hc : M.cls with
  | pec => exact absurd hc hM
  | lorentz =>
    rw [epsV_lorentz hc hp hk]
    have : 0 ≤ (M.e.map (lorT k)).sum := by
      apply List.sum_nonneg
      intro x hx
      rw [List.mem_map] at hx
      obtain ⟨p, hpm, rfl⟩ := hx
      exact lorT_nonneg hk (hp.osc p hpm)
    linarith
  | smith =>
    obtain ⟨p, hpe⟩ := List.length_eq_one_iff.1 (hp.one hc)
    rw [epsV_smith hc hp hpe hk]
    have hg : 0 ≤ p.gamma / omegaNorm := div_nonneg (hp.osc p (by simp [hpe])).2 omegaNorm_pos.le
    have h2 : 0 < k + p.gamma / omegaNorm := by linarith
    have h3 : 0.49 * (p.gamma / omegaNorm) / (k + p.gamma / omegaNorm) ≤ 1 := by
      rw [div_le_one h2]; linarith
    have : 0 ≤ (p.wP / omegaNorm) ^ 2 / (k ^ 2 + p.gamma / omegaNorm * k) *
      (1 - 0.49 * (p.gamma / omegaNorm) / (k + p.gamma / omegaNorm)) :=
      mul_nonneg (by positivity) (by linarith)
    linarith

theorem muV_ge {M : Material} (hp : M.Physical) : ∃ c, 0 < c ∧ ∀ k, 0 ≤ k → c ≤ M.muV k := by
  rcases M with ⟨cls, e, b⟩
  have key : ∀ x, b = some x → ∃ c, 0 < c ∧ ∀ k, 0 ≤ k → c ≤ Spec.debyeMu k x.1 (x.2 / omegaNorm) := by
    intro x hx
    obtain ⟨h1, h2⟩ := hp.mag x hx
    have hw : 0 < x.2 / omegaNorm := div_pos h2 omegaNorm_pos
    refine ⟨min 1 x.1, lt_min one_pos h1, fun k hk => ?_⟩
    have ht : 0 ≤ k / (x.2 / omegaNorm) := div_nonneg hk hw.le
    unfold Spec.debyeMu
    generalize k / (x.2 / omegaNorm) = t at ht ⊢
    have : 1 + (x.1 - 1) / (1 + t) = (t + x.1) / (1 + t) := by
      have : 1 + t ≠ 0 := by linarith
      field_simp; ring
    rw [this, le_div_iff₀ (by linarith)]
    have a1 := min_le_left 1 x.1
    have a2 := min_le_right 1 x.1
    nlinarith
  unfold Material.muV
  cases cls <;> cases b with
  | none => exact ⟨1, one_pos, fun _ _ => le_rfl⟩
  | some x => first | exact key x rfl | exact ⟨1, one_pos, fun _ _ => le_rfl⟩

/-- wavenumber in the medium -/
noncomputable def kap0 (md : Material) (kn : ℝ) : ℝ := Real.sqrt (md.epsV kn * md.muV kn) * kn

theorem kap0_pos {md : Material} (hc : md.cls ≠ .pec) (hp : md.Physical) {kn : ℝ} (hk : 0 < kn) : 0 < kap0 md kn :=
  mul_pos (Real.sqrt_pos.2 (mul_pos (epsV_pos hc hp hk) (muV_pos hp hk.le))) hk

theorem kapV_eq {md : Material} (hc : md.cls ≠ .pec) (hp : md.Physical) {kperp kn : ℝ} (hk : 0 < kn) :
    kapV md kperp kn = Real.sqrt (kperp ^ 2 + kap0 md kn ^ 2) := by
  unfold kapV kap0
  rw [mul_pow, Real.sq_sqrt (mul_pos (epsV_pos hc hp hk) (muV_pos hp hk.le)).le]

theorem kap0_ge {md : Material} (hc : md.cls ≠ .pec) (hp : md.Physical) :
    ∃ c, 0 < c ∧ ∀ k, 0 < k → c * k ≤ kap0 md k := by
  obtain ⟨c, hc0, h⟩ := muV_ge hp
  refine ⟨Real.sqrt c, Real.sqrt_pos.2 hc0, fun k hk => ?_⟩
  unfold kap0
  gcongr
  have := epsV_ge_one hc hp hk
  have := h k hk.le
  nlinarith

/-! ## the channels -/

namespace PFA

/-- TE channel -/
noncomputable def logTE (p : PFA) (L kn kperp : ℝ) : ℝ :=
  Real.log (1 - p.te kperp kn * Real.exp (-2 * kapV p.matMd kperp kn * L))

/-- TM channel -/
noncomputable def logTM (p : PFA) (L kn kperp : ℝ) : ℝ :=
  Real.log (1 - p.tm kperp kn * Real.exp (-2 * kapV p.matMd kperp kn * L))

/-- integrals of the channels -/
noncomputable def IntTE (p : PFA) (L kn : ℝ) : ℝ := ∫ k in Ioi (0:ℝ), k / (2 * Real.pi) * p.logTE L kn k

noncomputable def IntTM (p : PFA) (L kn : ℝ) : ℝ := ∫ k in Ioi (0:ℝ), k / (2 * Real.pi) * p.logTM L kn k

variable {p : PFA} {L kn : ℝ} {q : Quad}

theorem kapV_aemeas {M : Material} (hp : M.Physical) {a : ℝ} (ha : 0 ≤ a) :
    AEMeasurable (fun z : ℝ × ℝ => kapV M z.2 z.1) ((volume.restrict (Ioi a)).prod (volume.restrict (Ioi 0))) := by
  have he : AEMeasurable M.epsV (volume.restrict (Ioi a)) :=
    (epsV_aemeas hp).mono_measure (Measure.restrict_mono (Ioi_subset_Ioi ha) le_rfl)
  have h1 : AEMeasurable (fun z : ℝ × ℝ => M.epsV z.1) ((volume.restrict (Ioi a)).prod (volume.restrict (Ioi 0))) :=
    he.comp_fst
  have h2 : AEMeasurable (fun z : ℝ × ℝ => M.muV z.1) ((volume.restrict (Ioi a)).prod (volume.restrict (Ioi 0))) :=
    ((muV_meas M).comp measurable_fst).aemeasurable
  unfold kapV
  fun_prop

theorem refl_aemeas {m md : Material} (hm : m.Physical) (hp : md.Physical) {a : ℝ} (ha : 0 ≤ a) :
    AEMeasurable (fun z : ℝ × ℝ => reflTE m md z.2 z.1) ((volume.restrict (Ioi a)).prod (volume.restrict (Ioi 0))) ∧
    AEMeasurable (fun z : ℝ × ℝ => reflTM m md z.2 z.1) ((volume.restrict (Ioi a)).prod (volume.restrict (Ioi 0))) := by
  have he : ∀ {M : Material}, M.Physical →
      AEMeasurable (fun z : ℝ × ℝ => M.epsV z.1) ((volume.restrict (Ioi a)).prod (volume.restrict (Ioi 0))) :=
    fun {M} hM => AEMeasurable.comp_fst
      ((epsV_aemeas hM).mono_measure (Measure.restrict_mono (Ioi_subset_Ioi ha) le_rfl))
  have h2 : ∀ M : Material,
      AEMeasurable (fun z : ℝ × ℝ => M.muV z.1) ((volume.restrict (Ioi a)).prod (volume.restrict (Ioi 0))) :=
    fun M => ((muV_meas M).comp measurable_fst).aemeasurable
  have a1 := he hm
  have a2 := he hp
  have a3 := h2 m
  have a4 := h2 md
  have a5 := kapV_aemeas hm ha
  have a6 := kapV_aemeas hp ha
  unfold reflTE reflTM amp
  constructor
  · split
    · exact aemeasurable_const
    · fun_prop
  · split
    · exact aemeasurable_const
    · fun_prop

theorem log_aemeas (h : p.Ok) {a : ℝ} (ha : 0 ≤ a) :
    AEMeasurable (fun z : ℝ × ℝ => p.logTE L z.1 z.2) ((volume.restrict (Ioi a)).prod (volume.restrict (Ioi 0))) ∧
    AEMeasurable (fun z : ℝ × ℝ => p.logTM L z.1 z.2) ((volume.restrict (Ioi a)).prod (volume.restrict (Ioi 0))) := by
  obtain ⟨a1, a2⟩ := refl_aemeas h.h1 h.hmd ha
  obtain ⟨b1, b2⟩ := refl_aemeas h.h2 h.hmd ha
  have c := kapV_aemeas h.hmd ha
  unfold logTE logTM te tm
  constructor <;> fun_prop

theorem refl_meas (m md : Material) (kn : ℝ) :
    Measurable (fun k => reflTE m md k kn) ∧ Measurable (fun k => reflTM m md k kn) := by
  unfold reflTE reflTM amp kapV
  constructor
  · split
    · exact measurable_const
    · fun_prop
  · split
    · exact measurable_const
    · fun_prop

theorem log_meas (p : PFA) (L kn : ℝ) : Measurable (fun k => p.logTE L kn k) ∧ Measurable (fun k => p.logTM L kn k) := by
  obtain ⟨a1, a2⟩ := refl_meas p.mat1 p.matMd kn
  obtain ⟨b1, b2⟩ := refl_meas p.mat2 p.matMd kn
  unfold logTE logTM te tm kapV
  constructor <;> fun_prop

theorem log_abs (h : p.Ok) (hk : 0 < kn) (hL : 0 < L) (kperp : ℝ) :
    |p.logTE L kn kperp| ≤ -Real.log (1 - Real.exp (-2 * Real.sqrt (kperp ^ 2 + kap0 p.matMd kn ^ 2) * L)) ∧
    |p.logTM L kn kperp| ≤ -Real.log (1 - Real.exp (-2 * Real.sqrt (kperp ^ 2 + kap0 p.matMd kn ^ 2) * L)) := by
  have e0 := Real.exp_pos (-2 * kapV p.matMd kperp kn * L)
  have e1 := exp_lt h hk hL (kperp := kperp)
  rw [← kapV_eq h.pen h.hmd hk]
  have b1 := log_chan_bounds (te_abs h hk (kperp := kperp)) e0 e1
  have b2 := log_chan_bounds (tm_abs h hk (kperp := kperp)) e0 e1
  exact ⟨abs_le.2 ⟨by rw [neg_neg]; exact b1.1, b1.2⟩, abs_le.2 ⟨by rw [neg_neg]; exact b2.1, b2.2⟩⟩

theorem intTE_ok (h : p.Ok) (hk : 0 < kn) (hL : 0 < L) :
    IntegrableOn (fun k => k / (2 * Real.pi) * p.logTE L kn k) (Ioi 0) ∧
      |p.IntTE L kn| ≤ mirrorInt (kap0 p.matMd kn) L / (2 * Real.pi) :=
  chan_integrable (kap0_pos h.pen h.hmd hk) hL (log_meas p L kn).1.aestronglyMeasurable
    (fun k _ => (log_abs h hk hL k).1)

theorem intTM_ok (h : p.Ok) (hk : 0 < kn) (hL : 0 < L) :
    IntegrableOn (fun k => k / (2 * Real.pi) * p.logTM L kn k) (Ioi 0) ∧
      |p.IntTM L kn| ≤ mirrorInt (kap0 p.matMd kn) L / (2 * Real.pi) :=
  chan_integrable (kap0_pos h.pen h.hmd hk) hL (log_meas p L kn).2.aestronglyMeasurable
    (fun k _ => (log_abs h hk hL k).2)

theorem integralTE_val (hq : q.Exact) (h : p.Ok) (hk : 0 < kn) (hL : 0 < L) :
    p.integralTE q 0 L kn = .ok (p.IntTE L kn) := by
  unfold integralTE
  refine hq.inf _ (fun k => k / (2 * Real.pi) * p.logTE L kn k) 0 (fun k _ => ?_) (intTE_ok h hk hL).1
  rw [roundTrips_val h hk hL, ok_bind]; rfl

theorem integralTM_val (hq : q.Exact) (h : p.Ok) (hk : 0 < kn) (hL : 0 < L) :
    p.integralTM q 0 L kn = .ok (p.IntTM L kn) := by
  unfold integralTM
  refine hq.inf _ (fun k => k / (2 * Real.pi) * p.logTM L kn k) 0 (fun k _ => ?_) (intTM_ok h hk hL).1
  rw [roundTrips_val h hk hL, ok_bind]; rfl

theorem integral_val (hq : q.Exact) (h : p.Ok) (hk : 0 < kn) (hL : 0 < L) :
    p.integral q L kn = .ok (p.IntTE L kn + p.IntTM L kn) := by
  have i1 := (intTE_ok h hk hL).1
  have i2 := (intTM_ok h hk hL).1
  have e : p.IntTE L kn + p.IntTM L kn =
      ∫ k in Ioi (0:ℝ), (k / (2 * Real.pi) * p.logTE L kn k + k / (2 * Real.pi) * p.logTM L kn k) :=
    (integral_add i1 i2).symm
  rw [e]
  unfold integral
  refine hq.inf _ (fun k => k / (2 * Real.pi) * p.logTE L kn k + k / (2 * Real.pi) * p.logTM L kn k) 0
    (fun k _ => ?_) (i1.add i2)
  rw [roundTrip_val h hk hL, ok_bind]
  congr 1
  exact mul_add _ _ _

theorem int_aemeas (h : p.Ok) {a : ℝ} (ha : 0 ≤ a) :
    AEStronglyMeasurable (fun kn => p.IntTE L kn) (volume.restrict (Ioi a)) ∧
    AEStronglyMeasurable (fun kn => p.IntTM L kn) (volume.restrict (Ioi a)) := by
  obtain ⟨h1, h2⟩ := log_aemeas (L := L) h ha
  have hk : AEMeasurable (fun z : ℝ × ℝ => z.2 / (2 * Real.pi))
      ((volume.restrict (Ioi a)).prod (volume.restrict (Ioi 0))) := by fun_prop
  exact ⟨(hk.mul h1).aestronglyMeasurable.integral_prod_right', (hk.mul h2).aestronglyMeasurable.integral_prod_right'⟩

theorem int_integrable (h : p.Ok) (hL : 0 < L) {a : ℝ} (ha : 0 ≤ a) :
    IntegrableOn (fun kn => p.IntTE L kn) (Ioi a) ∧ IntegrableOn (fun kn => p.IntTM L kn) (Ioi a) := by
  obtain ⟨c, hc, hle⟩ := kap0_ge h.pen h.hmd
  have hpi := Real.pi_pos
  have hb : IntegrableOn (fun k => Real.exp (-(L / 2 * c) * k) * (1 / L ^ 2 / (2 * Real.pi))) (Ioi a) :=
    (integrableOn_exp_mul_Ioi (by have := mul_pos hL hc; linarith) a).mul_const _
  obtain ⟨m1, m2⟩ := int_aemeas (L := L) h ha
  have key : ∀ k, a < k → mirrorInt (kap0 p.matMd k) L / (2 * Real.pi) ≤
      Real.exp (-(L / 2 * c) * k) * (1 / L ^ 2 / (2 * Real.pi)) := by
    intro k hk
    have hk : 0 < k := lt_of_le_of_lt ha hk
    have hκ := kap0_pos h.pen h.hmd hk
    have h1 := mirror_bound hκ hL
    rw [mirror_integral hκ hL] at h1
    have h2 : Real.exp (-(L / 2) * kap0 p.matMd k) ≤ Real.exp (-(L / 2 * c) * k) := by
      apply Real.exp_le_exp.2
      have := mul_le_mul_of_nonneg_left (hle k hk) (show 0 ≤ L / 2 by linarith)
      linarith
    calc mirrorInt (kap0 p.matMd k) L / (2 * Real.pi) ≤ Real.exp (-(L / 2) * kap0 p.matMd k) / L ^ 2 / (2 * Real.pi) := by
          gcongr; exact h1
      _ ≤ Real.exp (-(L / 2 * c) * k) / L ^ 2 / (2 * Real.pi) := by gcongr
      _ = _ := by ring
  constructor
  · refine Integrable.mono' hb m1 ?_
    filter_upwards [ae_restrict_mem measurableSet_Ioi] with k hk
    exact ((intTE_ok h (lt_of_le_of_lt ha hk) hL).2).trans (key k hk)
  · refine Integrable.mono' hb m2 ?_
    filter_upwards [ae_restrict_mem measurableSet_Ioi] with k hk
    exact ((intTM_ok h (lt_of_le_of_lt ha hk) hL).2).trans (key k hk)

end PFA

end CasSph
