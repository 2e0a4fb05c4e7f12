import Verif.Props.PFAPressure
import Mathlib.MeasureTheory.Function.JacobianOneDim
import Mathlib.MeasureTheory.Function.Floor

/-! # The energy between spheres in proximity approximation: values, measurability, bounds -/

namespace CasSph

open MeasureTheory Set Filter Topology Spec

/-- temperatures that are not negative, `np.inf` included -/
def Temp.Nonneg : Temp → Prop
  | .inf => True
  | .fin T => 0 ≤ T

namespace PFA

/-- contribution of a frequency -/
noncomputable def IntSum (p : PFA) (L kn : ℝ) : ℝ := p.IntTE L kn + p.IntTM L kn

/-- free energy of plates -/
noncomputable def plateF (p : PFA) (s : Bool) : Temp → ℝ → ℝ
  | .inf, L => if s then 0 else p.IntSum L 1e-20 / 2
  | .fin T, L => if T = 0 then ∫ k in Ioi (1e-20 : ℝ), p.IntSum L k
      else matsubaraSum (if s then 0 else p.IntSum L 1e-10 / 2) (p.IntSum L) T (20 / L)

variable {p : PFA} {q : Quad} {s : Bool} {T : Temp} {L : ℝ}

theorem plateF_val (hq : q.Exact) (h : p.Ok) (hT : T.Nonneg) (hL : 0 < L) : p.freeEnergy q T L s = .ok (p.plateF s T L) := by
  cases T with
  | inf =>
    have := C64_highT (integralTE_val hq h (by norm_num : (0:ℝ) < 1e-20) hL) (integralTM_val hq h (by norm_num : (0:ℝ) < 1e-20) hL)
    cases s
    · exact this.2
    · exact this.1
  | fin T =>
    have hT : 0 ≤ T := hT
    rcases hT.eq_or_lt with h0 | h0
    · subst h0
      have hz : (0 : ℝ) ≤ 1e-20 := by norm_num
      obtain ⟨i1, i2⟩ := int_integrable h hL hz
      unfold PFA.freeEnergy plateF
      simp only [if_true]
      unfold PFA.e0
      rw [hq.inf _ (fun k => p.IntSum L k) _ (fun k hk => integral_val hq h (lt_of_le_of_lt hz hk) hL) (i1.add i2)]
    · unfold plateF
      simp only
      rw [if_neg h0.ne']
      exact C64_freeEnergy h0 hL (fun κ hκ => integral_val hq h hκ hL) s

/-! ## measurability in the distance -/

theorem int_meas_L (p : PFA) (kn : ℝ) : Measurable (fun L => p.IntTE L kn) ∧ Measurable (fun L => p.IntTM L kn) := by
  obtain ⟨a1, a2⟩ := refl_meas p.mat1 p.matMd kn
  obtain ⟨b1, b2⟩ := refl_meas p.mat2 p.matMd kn
  have ha1 : Measurable (fun z : ℝ × ℝ => reflTE p.mat1 p.matMd z.2 kn) := a1.comp measurable_snd
  have ha2 : Measurable (fun z : ℝ × ℝ => reflTM p.mat1 p.matMd z.2 kn) := a2.comp measurable_snd
  have hb1 : Measurable (fun z : ℝ × ℝ => reflTE p.mat2 p.matMd z.2 kn) := b1.comp measurable_snd
  have hb2 : Measurable (fun z : ℝ × ℝ => reflTM p.mat2 p.matMd z.2 kn) := b2.comp measurable_snd
  have h1 : Measurable (fun z : ℝ × ℝ => z.2 / (2 * Real.pi) * p.logTE z.1 kn z.2) := by
    unfold logTE te kapV; fun_prop
  have h2 : Measurable (fun z : ℝ × ℝ => z.2 / (2 * Real.pi) * p.logTM z.1 kn z.2) := by
    unfold logTM tm kapV; fun_prop
  exact ⟨(StronglyMeasurable.integral_prod_right (ν := volume.restrict (Ioi (0:ℝ))) h1.stronglyMeasurable).measurable,
    (StronglyMeasurable.integral_prod_right (ν := volume.restrict (Ioi (0:ℝ))) h2.stronglyMeasurable).measurable⟩

theorem intSum_meas_L (p : PFA) (kn : ℝ) : Measurable (fun L => p.IntSum L kn) := (int_meas_L p kn).1.add (int_meas_L p kn).2

theorem log_aemeas_aux {μ : Measure ((ℝ × ℝ) × ℝ)} {f g c : (ℝ × ℝ) × ℝ → ℝ} (hf : AEMeasurable f μ) (hg : AEMeasurable g μ)
    (hc : AEMeasurable c μ) :
    AEMeasurable (fun z => z.2 / (2 * Real.pi) * Real.log (1 - f z * g z * Real.exp (-2 * c z * z.1.1))) μ := by
  have h1 : AEMeasurable (fun z : (ℝ × ℝ) × ℝ => z.1.1) μ := (measurable_fst.comp measurable_fst).aemeasurable
  have h2 : AEMeasurable (fun z : (ℝ × ℝ) × ℝ => z.2 / (2 * Real.pi)) μ := (measurable_snd.div_const _).aemeasurable
  exact h2.mul ((((hf.mul hg).mul (((hc.const_mul _).mul h1).exp)).const_sub _).log)

theorem comp_aux {μ : Measure ((ℝ × ℝ) × ℝ)} {ν : Measure (ℝ × ℝ)} (f : ℝ → ℝ → ℝ) (hf : AEMeasurable (fun z => f z.2 z.1) ν)
    (Q : Measure.QuasiMeasurePreserving (fun z : (ℝ × ℝ) × ℝ => (z.1.2, z.2)) μ ν) :
    AEMeasurable (fun z : (ℝ × ℝ) × ℝ => f z.2 z.1.2) μ := hf.comp_quasiMeasurePreserving Q

/-- integrands, jointly in distance, frequency and wave number -/
theorem log_aemeas_joint (h : p.Ok) {a : ℝ} (ha : 0 ≤ a) {μ : Measure ((ℝ × ℝ) × ℝ)}
    (Q : Measure.QuasiMeasurePreserving (fun z : (ℝ × ℝ) × ℝ => (z.1.2, z.2)) μ
      ((volume.restrict (Ioi a)).prod (volume.restrict (Ioi 0)))) :
    AEMeasurable (fun z : (ℝ × ℝ) × ℝ => z.2 / (2 * Real.pi) * p.logTE z.1.1 z.1.2 z.2) μ ∧
    AEMeasurable (fun z : (ℝ × ℝ) × ℝ => z.2 / (2 * Real.pi) * p.logTM z.1.1 z.1.2 z.2) μ := by
  obtain ⟨a1, a2⟩ := refl_aemeas h.h1 h.hmd ha
  obtain ⟨b1, b2⟩ := refl_aemeas h.h2 h.hmd ha
  have c := kapV_aemeas h.hmd ha
  have ha1 : AEMeasurable (fun z : (ℝ × ℝ) × ℝ => reflTE p.mat1 p.matMd z.2 z.1.2) μ := comp_aux (reflTE p.mat1 p.matMd) a1 Q
  have ha2 : AEMeasurable (fun z : (ℝ × ℝ) × ℝ => reflTM p.mat1 p.matMd z.2 z.1.2) μ := comp_aux (reflTM p.mat1 p.matMd) a2 Q
  have hb1 : AEMeasurable (fun z : (ℝ × ℝ) × ℝ => reflTE p.mat2 p.matMd z.2 z.1.2) μ := comp_aux (reflTE p.mat2 p.matMd) b1 Q
  have hb2 : AEMeasurable (fun z : (ℝ × ℝ) × ℝ => reflTM p.mat2 p.matMd z.2 z.1.2) μ := comp_aux (reflTM p.mat2 p.matMd) b2 Q
  have hc : AEMeasurable (fun z : (ℝ × ℝ) × ℝ => kapV p.matMd z.2 z.1.2) μ := comp_aux (kapV p.matMd) c Q
  exact ⟨log_aemeas_aux ha1 hb1 hc, log_aemeas_aux ha2 hb2 hc⟩

/-- jointly in distance and frequency -/
theorem int_aemeas_joint (h : p.Ok) {a : ℝ} (ha : 0 ≤ a) :
    AEStronglyMeasurable (fun z : ℝ × ℝ => p.IntSum z.1 z.2) ((volume.restrict (Ioi 0)).prod (volume.restrict (Ioi a))) := by
  have Q : Measure.QuasiMeasurePreserving (fun z : (ℝ × ℝ) × ℝ => (z.1.2, z.2))
      (((volume.restrict (Ioi (0:ℝ))).prod (volume.restrict (Ioi a))).prod (volume.restrict (Ioi (0:ℝ))))
      ((volume.restrict (Ioi a)).prod (volume.restrict (Ioi 0))) :=
    MeasureTheory.QuasiMeasurePreserving.prodMap (Measure.quasiMeasurePreserving_snd (μ := volume.restrict (Ioi (0:ℝ))))
      (Measure.QuasiMeasurePreserving.id _)
  obtain ⟨h1, h2⟩ := log_aemeas_joint h ha Q
  exact (h1.aestronglyMeasurable.integral_prod_right').add (h2.aestronglyMeasurable.integral_prod_right')

theorem plateF_meas (h : p.Ok) (s : Bool) (T : Temp) : AEStronglyMeasurable (p.plateF s T) (volume.restrict (Ioi 0)) := by
  cases T with
  | inf =>
    change AEStronglyMeasurable (fun L => if s then (0 : ℝ) else p.IntSum L 1e-20 / 2) _
    cases s
    · simp only [Bool.false_eq_true, if_false]
      exact ((intSum_meas_L p _).div_const 2).aestronglyMeasurable
    · simp only [if_true]
      exact aestronglyMeasurable_const
  | fin T =>
    by_cases hT : T = 0
    · have : p.plateF s (.fin T) = fun L => ∫ k in Ioi (1e-20 : ℝ), p.IntSum L k := by
        funext L; unfold plateF; simp only [if_pos hT]
      rw [this]
      exact (int_aemeas_joint h (by norm_num : (0:ℝ) ≤ 1e-20)).integral_prod_right'
    · have : p.plateF s (.fin T) = fun L => matsubaraSum (if s then 0 else p.IntSum L 1e-10 / 2) (p.IntSum L) T (20 / L) := by
        funext L; unfold plateF; simp only [if_neg hT]
      rw [this]
      refine Measurable.aestronglyMeasurable ?_
      have hf : Measurable (fun L : ℝ => ⌊20 / L / T⌋₊) := by
        have : Measurable (fun L : ℝ => 20 / L / T) := by fun_prop
        exact this.nat_floor
      have hsum : Measurable (fun z : ℕ × ℝ => ∑ n ∈ Finset.Icc 1 z.1, p.IntSum z.2 (n * T)) :=
        measurable_from_prod_countable_right fun N => by
          simp only
          exact Finset.measurable_fun_sum _ fun n _ => intSum_meas_L p _
      have h2 : Measurable (fun L : ℝ => ∑ n ∈ Finset.Icc 1 ⌊20 / L / T⌋₊, p.IntSum L (n * T)) :=
        hsum.comp (f := fun L : ℝ => (⌊20 / L / T⌋₊, L)) (hf.prodMk measurable_id)
      have h1 : Measurable (fun L : ℝ => if s then (0:ℝ) else p.IntSum L 1e-10 / 2) := by
        cases s
        · simp only [Bool.false_eq_true, if_false]
          exact (intSum_meas_L p _).div_const 2
        · simp only [if_true]
          exact measurable_const
      unfold matsubaraSum
      exact (h1.add h2).const_mul T

/-! ## bounds and monotonicity -/

theorem intSum_abs (h : p.Ok) {kn : ℝ} (hk : 0 < kn) (hL : 0 < L) : |p.IntSum L kn| ≤ -(mirrors p.matMd).IntSum L kn := by
  obtain ⟨v, w, hv, hw, -, hle⟩ := C85_bound exactQuad_exact h hk hL
  rw [integral_val exactQuad_exact h hk hL] at hv
  rw [integral_val exactQuad_exact (mirrors_Ok h.pen h.hmd) hk hL] at hw
  unfold IntSum
  rw [Except.ok.inj hv, Except.ok.inj hw]
  exact hle

theorem intSum_integrable (h : p.Ok) (hL : 0 < L) : IntegrableOn (fun k => p.IntSum L k) (Ioi (1e-20 : ℝ)) := by
  obtain ⟨i1, i2⟩ := int_integrable h hL (by norm_num : (0:ℝ) ≤ 1e-20)
  exact i1.add i2

theorem plateF_abs (h : p.Ok) (hT : T.Nonneg) (hL : 0 < L) : |p.plateF s T L| ≤ -(mirrors p.matMd).plateF s T L := by
  cases T with
  | inf =>
    unfold plateF
    simp only
    cases s
    · simp only [Bool.false_eq_true, if_false]
      have := intSum_abs h (by norm_num : (0:ℝ) < 1e-20) hL
      rw [abs_div, abs_of_pos (by norm_num : (0:ℝ) < 2)]
      linarith
    · simp
  | fin T =>
    have hT : 0 ≤ T := hT
    rcases hT.eq_or_lt with h0 | h0
    · subst h0
      unfold plateF
      simp only [if_true]
      rw [← integral_neg]
      refine (abs_integral_le_integral_abs).trans ?_
      refine setIntegral_mono_on (intSum_integrable h hL).abs (intSum_integrable (mirrors_Ok h.pen h.hmd) hL).neg measurableSet_Ioi
        fun k hk => ?_
      exact intSum_abs h (lt_trans (by norm_num) hk) hL
    · unfold plateF
      simp only
      rw [if_neg h0.ne', if_neg h0.ne']
      exact sum_abs h0 (by norm_num) (fun κ hκ => intSum_abs h hκ hL) s

variable {m md : Material}

theorem plateF_equal (h : PFA.Ok ⟨m, m, md⟩) (hT : T.Nonneg) :
    (∀ L, 0 < L → PFA.plateF ⟨m, m, md⟩ s T L ≤ 0) ∧ MonotoneOn (PFA.plateF ⟨m, m, md⟩ s T) (Ioi 0) := by
  cases T with
  | inf =>
    unfold plateF
    simp only
    cases s
    · simp only [Bool.false_eq_true, if_false]
      refine ⟨fun L hL => ?_, fun L hL L' _ hLL => ?_⟩
      · have := equal_nonpos h (by norm_num : (0:ℝ) < 1e-20) hL
        unfold IntSum; linarith
      · have := equal_mono h (by norm_num : (0:ℝ) < 1e-20) hL hLL
        unfold IntSum; simp only; linarith
    · simp [monotoneOn_const]
  | fin T =>
    have hT : 0 ≤ T := hT
    rcases hT.eq_or_lt with h0 | h0
    · subst h0
      unfold plateF
      simp only [if_true]
      refine ⟨fun L hL => ?_, fun L hL L' hL' hLL => ?_⟩
      · exact setIntegral_nonpos measurableSet_Ioi fun k hk => equal_nonpos h (lt_trans (by norm_num) hk) hL
      · exact setIntegral_mono_on (intSum_integrable h hL) (intSum_integrable h hL') measurableSet_Ioi
          fun k hk => equal_mono h (lt_trans (by norm_num) hk) hL hLL
    · refine ⟨fun L hL => ?_, fun L hL L' hL' hLL => ?_⟩
      · obtain ⟨F, hF, hF0, -⟩ := C87_equal_negative exactQuad_exact h h0 hL s
        rw [plateF_val exactQuad_exact h (T := .fin T) hT hL] at hF
        rw [Except.ok.inj hF]; exact hF0
      · obtain ⟨F, F', hF, hF', hle⟩ := C87_equal_mono exactQuad_exact h h0 hL hLL s
        rw [plateF_val exactQuad_exact h (T := .fin T) hT hL] at hF
        rw [plateF_val exactQuad_exact h (T := .fin T) hT hL'] at hF'
        rw [Except.ok.inj hF, Except.ok.inj hF']; exact hle

end PFA

/-! ## The surfaces -/

/-- A gap that widens with the distance `ρ` from the axis: the gap, its derivative `ρ/w` and the local radius of curvature `w`. -/
structure Widening (r W : ℝ) (g w : ℝ → ℝ) : Prop where
  r_pos : 0 < r
  cont : ContinuousOn g (Icc 0 r)
  deriv : ∀ ρ, 0 < ρ → ρ < r → HasDerivAt g (ρ / w ρ) ρ
  w_pos : ∀ ρ, 0 < ρ → ρ < r → 0 < w ρ
  w_le : ∀ ρ, 0 < ρ → ρ < r → w ρ ≤ W
  w_anti : ∀ ρ ρ', 0 < ρ → ρ ≤ ρ' → ρ' < r → w ρ' ≤ w ρ
  pos : 0 < g 0

namespace Widening

variable {r W : ℝ} {g w : ℝ → ℝ}

theorem mono (h : Widening r W g w) : StrictMonoOn g (Icc 0 r) := by
  refine strictMonoOn_of_deriv_pos (convex_Icc 0 r) h.cont fun ρ hρ => ?_
  rw [interior_Icc] at hρ
  rw [(h.deriv ρ hρ.1 hρ.2).deriv]
  exact div_pos hρ.1 (h.w_pos ρ hρ.1 hρ.2)

theorem gt (h : Widening r W g w) {ρ : ℝ} (h0 : 0 < ρ) (hr : ρ ≤ r) : g 0 < g ρ :=
  h.mono ⟨le_rfl, h.r_pos.le⟩ ⟨h0.le, hr⟩ h0

theorem image (h : Widening r W g w) {ρ : ℝ} (h0 : 0 < ρ) (hr : ρ ≤ r) : g '' Ioo 0 ρ = Ioo (g 0) (g ρ) := by
  apply Subset.antisymm
  · rintro _ ⟨x, hx, rfl⟩
    exact ⟨h.mono ⟨le_rfl, h.r_pos.le⟩ ⟨hx.1.le, hx.2.le.trans hr⟩ hx.1, h.mono ⟨hx.1.le, hx.2.le.trans hr⟩ ⟨h0.le, hr⟩ hx.2⟩
  · exact intermediate_value_Ioo h0.le (h.cont.mono (Icc_subset_Icc le_rfl hr))

/-- substitution: the gap as the new variable -/
theorem subst (h : Widening r W g w) {ρ : ℝ} (h0 : 0 < ρ) (hr : ρ ≤ r) (F : ℝ → ℝ) :
    ∫ L in Ioo (g 0) (g ρ), F L = ∫ x in Ioo 0 ρ, x / w x * F (g x) := by
  rw [← h.image h0 hr]
  have := integral_image_eq_integral_deriv_smul_of_monotoneOn (s := Ioo 0 ρ) (f := g) (f' := fun x => x / w x) measurableSet_Ioo
    (fun x hx => (h.deriv x hx.1 (hx.2.trans_le hr)).hasDerivWithinAt)
    ((h.mono.monotoneOn).mono (fun x hx => ⟨hx.1.le, hx.2.le.trans hr⟩)) F
  rw [this]
  rfl

theorem subst_integrable (h : Widening r W g w) {ρ : ℝ} (h0 : 0 < ρ) (hr : ρ ≤ r) {F : ℝ → ℝ}
    (hF : IntegrableOn F (Ioo (g 0) (g ρ))) : IntegrableOn (fun x => x / w x * F (g x)) (Ioo 0 ρ) := by
  rw [← h.image h0 hr] at hF
  exact (integrableOn_image_iff_integrableOn_deriv_smul_of_monotoneOn (s := Ioo 0 ρ) (f := g) (f' := fun x => x / w x) measurableSet_Ioo
    (fun x hx => (h.deriv x hx.1 (hx.2.trans_le hr)).hasDerivWithinAt)
    ((h.mono.monotoneOn).mono (fun x hx => ⟨hx.1.le, hx.2.le.trans hr⟩)) F).1 hF

/-- the integrand of the energy is integrable -/
theorem integrable (h : Widening r W g w) {F : ℝ → ℝ} (hm : AEStronglyMeasurable F (volume.restrict (Ioi 0)))
    (hF : IntegrableOn F (Ioo (g 0) (g r))) : IntegrableOn (fun x => 2 * Real.pi * x * F (g x)) (Ioo 0 r) := by
  have h1 := h.subst_integrable h.r_pos le_rfl hF
  have hwm : AEStronglyMeasurable w (volume.restrict (Ioo 0 r)) := by
    have : AntitoneOn w (Ioo 0 r) := fun x hx y hy hxy => h.w_anti x y hx.1 hxy hy.2
    exact (aemeasurable_restrict_of_antitoneOn measurableSet_Ioo this).aestronglyMeasurable
  have e : EqOn (fun x => 2 * Real.pi * x * F (g x)) (fun x => 2 * Real.pi * w x * (x / w x * F (g x))) (Ioo 0 r) := by
    intro x hx
    have := (h.w_pos x hx.1 hx.2).ne'
    simp only
    field_simp
  refine IntegrableOn.congr_fun ?_ e.symm measurableSet_Ioo
  have hb : ∀ᵐ x ∂(volume.restrict (Ioo 0 r)), ‖2 * Real.pi * w x‖ ≤ 2 * Real.pi * W := by
    filter_upwards [ae_restrict_mem measurableSet_Ioo] with x hx
    have h0 := h.w_pos x hx.1 hx.2
    have hpi := Real.pi_pos
    rw [Real.norm_of_nonneg (by positivity)]
    exact mul_le_mul_of_nonneg_left (h.w_le x hx.1 hx.2) (by positivity)
  exact h1.bdd_mul (hwm.const_mul (2 * Real.pi)) hb

/-- **Lower bound** by the curvature on the axis. -/
theorem lower (h : Widening r W g w) {F : ℝ → ℝ} (hm : AEStronglyMeasurable F (volume.restrict (Ioi 0)))
    (hF : IntegrableOn F (Ioo (g 0) (g r))) (h0 : ∀ L, 0 < L → F L ≤ 0) :
    2 * Real.pi * W * ∫ L in Ioo (g 0) (g r), F L ≤ ∫ x in Ioo 0 r, 2 * Real.pi * x * F (g x) := by
  have h1 := h.subst_integrable h.r_pos le_rfl hF
  rw [h.subst h.r_pos le_rfl, ← integral_const_mul]
  refine setIntegral_mono_on (h1.const_mul _) (h.integrable hm hF) measurableSet_Ioo fun x hx => ?_
  have hw := h.w_pos x hx.1 hx.2
  have hl := h.w_le x hx.1 hx.2
  have hf := h0 (g x) (h.pos.trans (h.gt hx.1 hx.2.le))
  have hpi := Real.pi_pos
  have : x ≤ W * (x / w x) := by
    rw [mul_div_assoc', le_div_iff₀ hw, mul_comm]
    exact mul_le_mul_of_nonneg_right hl hx.1.le
  have := mul_le_mul_of_nonpos_right this hf
  have := mul_le_mul_of_nonneg_left this (by positivity : (0:ℝ) ≤ 2 * Real.pi)
  linarith

/-- **Upper bound** by the part near the axis and the curvature at its edge. -/
theorem upper (h : Widening r W g w) {F : ℝ → ℝ} (hm : AEStronglyMeasurable F (volume.restrict (Ioi 0)))
    (hF : IntegrableOn F (Ioo (g 0) (g r))) (h0 : ∀ L, 0 < L → F L ≤ 0) {ρ : ℝ} (hρ : 0 < ρ) (hr : ρ < r) :
    ∫ x in Ioo 0 r, 2 * Real.pi * x * F (g x) ≤ 2 * Real.pi * w ρ * ∫ L in Ioo (g 0) (g ρ), F L := by
  have hpi := Real.pi_pos
  have hi := h.integrable hm hF
  have hsub : Ioo (0:ℝ) ρ ⊆ Ioo 0 r := Ioo_subset_Ioo le_rfl hr.le
  have hgρ : g ρ ≤ g r := h.mono.monotoneOn ⟨hρ.le, hr.le⟩ ⟨h.r_pos.le, le_rfl⟩ hr.le
  have h1 := h.subst_integrable hρ hr.le (hF.mono_set (Ioo_subset_Ioo le_rfl hgρ))
  have step1 : ∫ x in Ioo 0 r, 2 * Real.pi * x * F (g x) ≤ ∫ x in Ioo 0 ρ, 2 * Real.pi * x * F (g x) := by
    have := setIntegral_mono_set (f := fun x => -(2 * Real.pi * x * F (g x))) (s := Ioo 0 ρ) (t := Ioo 0 r) (μ := volume) hi.neg
      (by
        filter_upwards [ae_restrict_mem measurableSet_Ioo] with x hx
        have hf := h0 (g x) (h.pos.trans (h.gt hx.1 hx.2.le))
        have := mul_nonpos_of_nonneg_of_nonpos (by have := hx.1; positivity : (0:ℝ) ≤ 2 * Real.pi * x) hf
        simp only [Pi.zero_apply]
        linarith)
      (LE.le.eventuallyLE hsub)
    rw [integral_neg, integral_neg] at this
    linarith
  refine step1.trans ?_
  rw [h.subst hρ hr.le, ← integral_const_mul]
  refine setIntegral_mono_on (hi.mono_set hsub) (h1.const_mul _) measurableSet_Ioo fun x hx => ?_
  have hw := h.w_pos x hx.1 (hx.2.trans hr)
  have hl := h.w_anti x ρ hx.1 hx.2.le hr
  have hf := h0 (g x) (h.pos.trans (h.gt hx.1 (hx.2.trans hr).le))
  have : w ρ * (x / w x) ≤ x := by
    rw [mul_div_assoc', div_le_iff₀ hw, mul_comm]
    exact mul_le_mul_of_nonneg_left hl hx.1.le
  have := mul_le_mul_of_nonpos_right this hf
  have := mul_le_mul_of_nonneg_left this (by positivity : (0:ℝ) ≤ 2 * Real.pi)
  linarith

end Widening

end CasSph
