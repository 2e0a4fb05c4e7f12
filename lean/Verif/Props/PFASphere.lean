import Verif.Lemmas.PFASphere
import Mathlib.Analysis.SpecialFunctions.ImproperIntegrals
import Mathlib.Analysis.SpecialFunctions.Integrals.Basic

/-! # C140: the energy between two spheres in proximity approximation (PFA.py:166-175 `spheresphereEnergy`) -/

namespace CasSph

open MeasureTheory Set Filter Topology

namespace Spec

/-- width of the gap between two spheres next to each other, at the distance `ρ` from the axis -/
noncomputable def gapOutside (r1 r2 d ρ : ℝ) : ℝ := d - Real.sqrt (r1 ^ 2 - ρ ^ 2) - Real.sqrt (r2 ^ 2 - ρ ^ 2)

/-- width of the gap between a sphere in a spherical cavity and the wall, at the distance `ρ` from the axis -/
noncomputable def gapInside (r1 r2 d ρ : ℝ) : ℝ := Real.sqrt (r2 ^ 2 - ρ ^ 2) - d - Real.sqrt (r1 ^ 2 - ρ ^ 2)

/-- half the harmonic mean of the heights of the two spheres at the distance `ρ` from the axis; on the axis the
effective radius `r1 r2/(r1 + r2)` -/
noncomputable def radOutside (r1 r2 ρ : ℝ) : ℝ :=
  Real.sqrt (r1 ^ 2 - ρ ^ 2) * Real.sqrt (r2 ^ 2 - ρ ^ 2) / (Real.sqrt (r1 ^ 2 - ρ ^ 2) + Real.sqrt (r2 ^ 2 - ρ ^ 2))

/-- the same for a sphere in a cavity; on the axis `r1 r2/(r2 - r1)` -/
noncomputable def radInside (r1 r2 ρ : ℝ) : ℝ :=
  Real.sqrt (r1 ^ 2 - ρ ^ 2) * Real.sqrt (r2 ^ 2 - ρ ^ 2) / (Real.sqrt (r2 ^ 2 - ρ ^ 2) - Real.sqrt (r1 ^ 2 - ρ ^ 2))

end Spec

open Spec

/-! ## Geometry -/

theorem sqrt_height_deriv {r ρ : ℝ} (h0 : 0 < ρ) (hr : ρ < r) :
    HasDerivAt (fun x => Real.sqrt (r ^ 2 - x ^ 2)) (-(ρ / Real.sqrt (r ^ 2 - ρ ^ 2))) ρ := by
  have hp : 0 < r ^ 2 - ρ ^ 2 := by nlinarith
  have h1 : HasDerivAt (fun x : ℝ => r ^ 2 - x ^ 2) (-(2 * ρ)) ρ := by
    have := (hasDerivAt_pow 2 ρ).const_sub (r ^ 2)
    simpa using this
  refine (h1.sqrt hp.ne').congr_deriv ?_
  have := (Real.sqrt_pos.2 hp).ne'
  field_simp

theorem height_pos {r ρ : ℝ} (h0 : 0 < ρ) (hr : ρ < r) : 0 < Real.sqrt (r ^ 2 - ρ ^ 2) :=
  Real.sqrt_pos.2 (by nlinarith)

theorem height_anti {r ρ ρ' : ℝ} (h0 : 0 ≤ ρ) (hρ : ρ ≤ ρ') : Real.sqrt (r ^ 2 - ρ' ^ 2) ≤ Real.sqrt (r ^ 2 - ρ ^ 2) :=
  Real.sqrt_le_sqrt (by nlinarith)

theorem height_le {r ρ : ℝ} (hr : 0 ≤ r) : Real.sqrt (r ^ 2 - ρ ^ 2) ≤ r := by
  calc Real.sqrt (r ^ 2 - ρ ^ 2) ≤ Real.sqrt (r ^ 2) := Real.sqrt_le_sqrt (by nlinarith [sq_nonneg ρ])
    _ = r := Real.sqrt_sq hr

theorem height_lt {r r' ρ : ℝ} (h0 : 0 < ρ) (hr : ρ < r) (hrr : r < r') : Real.sqrt (r ^ 2 - ρ ^ 2) < Real.sqrt (r' ^ 2 - ρ ^ 2) :=
  Real.sqrt_lt_sqrt (by nlinarith) (by nlinarith)

theorem harm_mono {a b a' b' : ℝ} (ha : 0 < a) (hb : 0 < b) (haa : a ≤ a') (hbb : b ≤ b') :
    a * b / (a + b) ≤ a' * b' / (a' + b') := by
  have ha' := ha.trans_le haa
  have hb' := hb.trans_le hbb
  rw [div_le_div_iff₀ (by positivity) (by positivity)]
  nlinarith [mul_nonneg (mul_nonneg ha.le ha'.le) (sub_nonneg.2 hbb), mul_nonneg (mul_nonneg hb.le hb'.le) (sub_nonneg.2 haa)]

theorem radInside_eq {r1 r2 ρ : ℝ} (h0 : 0 < ρ) (hr : ρ < r1) (h12 : r1 < r2) :
    radInside r1 r2 ρ = Real.sqrt (r1 ^ 2 - ρ ^ 2) * Real.sqrt (r2 ^ 2 - ρ ^ 2) *
      (Real.sqrt (r1 ^ 2 - ρ ^ 2) + Real.sqrt (r2 ^ 2 - ρ ^ 2)) / (r2 ^ 2 - r1 ^ 2) := by
  have e1 := Real.sq_sqrt (by nlinarith : (0:ℝ) ≤ r1 ^ 2 - ρ ^ 2)
  have e2 := Real.sq_sqrt (by nlinarith : (0:ℝ) ≤ r2 ^ 2 - ρ ^ 2)
  have hl := height_lt h0 hr h12
  unfold radInside
  generalize Real.sqrt (r1 ^ 2 - ρ ^ 2) = a at *
  generalize Real.sqrt (r2 ^ 2 - ρ ^ 2) = b at *
  have : r2 ^ 2 - r1 ^ 2 = (b - a) * (a + b) := by ring_nf; linarith
  have hp : 0 < r2 ^ 2 - r1 ^ 2 := by nlinarith
  rw [div_eq_div_iff (by linarith) hp.ne', this]
  ring

theorem widening_outside {r1 r2 d : ℝ} (h1 : 0 < r1) (h12 : r1 ≤ r2) (hd : r1 + r2 < d) :
    Widening r1 (r1 * r2 / (r1 + r2)) (gapOutside r1 r2 d) (radOutside r1 r2) where
  r_pos := h1
  cont := by unfold gapOutside; fun_prop
  deriv := fun ρ h0 hr => by
    have a := sqrt_height_deriv h0 hr
    have b := sqrt_height_deriv h0 (hr.trans_le h12)
    have ha := (height_pos h0 hr).ne'
    have hb := (height_pos h0 (hr.trans_le h12)).ne'
    have hab : Real.sqrt (r1 ^ 2 - ρ ^ 2) + Real.sqrt (r2 ^ 2 - ρ ^ 2) ≠ 0 := by
      have := height_pos h0 hr
      have := height_pos h0 (hr.trans_le h12)
      positivity
    refine ((a.const_sub d).sub b).congr_deriv ?_
    unfold radOutside
    field_simp
    ring
  w_pos := fun ρ h0 hr => by
    have := height_pos h0 hr
    have := height_pos h0 (hr.trans_le h12)
    unfold radOutside; positivity
  w_le := fun ρ h0 hr => harm_mono (height_pos h0 hr) (height_pos h0 (hr.trans_le h12)) (height_le h1.le) (height_le (h1.le.trans h12))
  w_anti := fun ρ ρ' h0 hρ hr => harm_mono (height_pos (h0.trans_le hρ) hr) (height_pos (h0.trans_le hρ) (hr.trans_le h12))
    (height_anti h0.le hρ) (height_anti h0.le hρ)
  pos := by
    unfold gapOutside
    rw [zero_pow two_ne_zero, sub_zero, sub_zero, Real.sqrt_sq h1.le, Real.sqrt_sq (h1.le.trans h12)]
    linarith

theorem widening_inside {r1 r2 d : ℝ} (h1 : 0 < r1) (h12 : r1 < r2) (hd : d < r2 - r1) :
    Widening r1 (r1 * r2 / (r2 - r1)) (gapInside r1 r2 d) (radInside r1 r2) where
  r_pos := h1
  cont := by unfold gapInside; fun_prop
  deriv := fun ρ h0 hr => by
    have a := sqrt_height_deriv h0 hr
    have b := sqrt_height_deriv h0 (hr.trans h12)
    have ha := (height_pos h0 hr).ne'
    have hb := (height_pos h0 (hr.trans h12)).ne'
    have hab : Real.sqrt (r2 ^ 2 - ρ ^ 2) - Real.sqrt (r1 ^ 2 - ρ ^ 2) ≠ 0 := by
      have := height_lt h0 hr h12
      exact (sub_pos.2 this).ne'
    refine ((b.sub_const d).sub a).congr_deriv ?_
    unfold radInside
    generalize Real.sqrt (r1 ^ 2 - ρ ^ 2) = a at *
    generalize Real.sqrt (r2 ^ 2 - ρ ^ 2) = b at *
    rw [div_div_eq_mul_div]
    field_simp
    ring
  w_pos := fun ρ h0 hr => by
    have := height_pos h0 hr
    have := height_pos h0 (hr.trans h12)
    have := sub_pos.2 (height_lt h0 hr h12)
    unfold radInside; positivity
  w_le := fun ρ h0 hr => by
    have a := height_pos h0 hr
    have b := height_pos h0 (hr.trans h12)
    have a' := height_le (r := r1) (ρ := ρ) h1.le
    have b' := height_le (r := r2) (ρ := ρ) (h1.trans h12).le
    have h2 := h1.trans h12
    have hp : 0 < r2 ^ 2 - r1 ^ 2 := by nlinarith
    rw [radInside_eq h0 hr h12]
    have e : r1 * r2 / (r2 - r1) = r1 * r2 * (r1 + r2) / (r2 ^ 2 - r1 ^ 2) := by
      have : r2 - r1 ≠ 0 := by linarith
      rw [div_eq_div_iff this hp.ne']; ring
    rw [e]
    gcongr
  w_anti := fun ρ ρ' h0 hρ hr => by
    have h0' := h0.trans_le hρ
    have a := height_anti (r := r1) h0.le hρ
    have b := height_anti (r := r2) h0.le hρ
    have a' := height_pos h0' hr
    have b' := height_pos h0' (hr.trans h12)
    have hp : 0 < r2 ^ 2 - r1 ^ 2 := by nlinarith
    rw [radInside_eq h0 (hρ.trans_lt hr) h12, radInside_eq h0' hr h12]
    gcongr
  pos := by
    unfold gapInside
    rw [zero_pow two_ne_zero, sub_zero, sub_zero, Real.sqrt_sq h1.le, Real.sqrt_sq (h1.trans h12).le]
    linarith

/-! ## Values -/

variable {q : Quad} {p : PFA} {T : Temp} {r1 r2 d : ℝ}

theorem plateF_integrable (h : p.Ok) (hT : T.Nonneg) (s : Bool) {a b : ℝ} (ha : 0 < a) : IntegrableOn (p.plateF s T) (Ioo a b) := by
  have hsub : Ioo a b ⊆ Ioi 0 := fun x hx => ha.trans hx.1
  obtain ⟨-, hm⟩ := PFA.plateF_equal (mirrors_Ok h.pen h.hmd) (s := s) hT
  have hc : IntegrableOn (fun _ : ℝ => -(mirrors p.matMd).plateF s T a) (Ioo a b) := integrableOn_const (by simp)
  refine hc.mono' ((PFA.plateF_meas h s T).mono_measure (Measure.restrict_mono hsub le_rfl)) ?_
  filter_upwards [ae_restrict_mem measurableSet_Ioo] with x hx
  rw [Real.norm_eq_abs]
  refine (PFA.plateF_abs h hT (hsub hx)).trans (neg_le_neg ?_)
  exact hm ha (hsub hx) hx.1.le

theorem energy_integrable (h : p.Ok) (hT : T.Nonneg) (s : Bool) {r W : ℝ} {g w : ℝ → ℝ} (hg : Widening r W g w) :
    IntegrableOn (fun ρ => 2 * Real.pi * ρ * p.plateF s T (g ρ)) (Ioo 0 r) :=
  hg.integrable (PFA.plateF_meas h s T) (plateF_integrable h hT s hg.pos)

theorem sphereEnergy_val (hq : q.Exact) (h : p.Ok) (hT : T.Nonneg) (s : Bool) {W : ℝ} {g w : ℝ → ℝ} (hg : Widening r1 W g w)
    (hdist : ∀ ρ, 0 < ρ → ρ < r1 → PFA.distance r1 r2 d ρ = .ok (g ρ)) :
    p.sphereEnergy q r1 r2 T d s = .ok (∫ ρ in Ioo 0 r1, 2 * Real.pi * ρ * p.plateF s T (g ρ)) := by
  unfold PFA.sphereEnergy
  refine hq.fin _ (fun ρ => 2 * Real.pi * ρ * p.plateF s T (g ρ)) _ _ hg.r_pos.le (fun ρ h0 hr => ?_) (energy_integrable h hT s hg)
  rw [hdist ρ h0 hr, ok_bind, PFA.plateF_val hq h hT (hg.pos.trans (hg.gt h0 hr.le)), ok_bind]

theorem distance_outside (h1 : 0 < r1) (h12 : r1 ≤ r2) (hd : r1 + r2 < d) :
    ∀ ρ, 0 < ρ → ρ < r1 → PFA.distance r1 r2 d ρ = .ok (gapOutside r1 r2 d ρ) := fun _ h0 hr =>
  C63_outside h1 (h1.trans_le h12) h0.le hr.le (hr.le.trans h12) hd

theorem distance_inside (h1 : 0 < r1) (h12 : r1 < r2) (hd : d < r2 - r1) :
    ∀ ρ, 0 < ρ → ρ < r1 → PFA.distance r1 r2 d ρ = .ok (gapInside r1 r2 d ρ) := fun _ h0 hr =>
  C63_inside h1 (h1.trans h12) h0.le hr.le (hr.le.trans h12.le) (by linarith)

theorem plateF_eq (hq : q.Exact) (h : p.Ok) (hT : T.Nonneg) {s : Bool} {F : ℝ → ℝ}
    (hF : ∀ L, 0 < L → p.freeEnergy q T L s = .ok (F L)) : ∀ L, 0 < L → p.plateF s T L = F L := fun L hL =>
  Except.ok.inj ((PFA.plateF_val hq h hT hL).symm.trans (hF L hL))

theorem integral_F {F G : ℝ → ℝ} (he : ∀ L, 0 < L → F L = G L) {a b : ℝ} (ha : 0 ≤ a) : ∫ L in Ioo a b, F L = ∫ L in Ioo a b, G L :=
  setIntegral_congr_fun measurableSet_Ioo fun L hL => he L (ha.trans_lt hL.1)

theorem integral_gap {F G : ℝ → ℝ} (he : ∀ L, 0 < L → F L = G L) {r W : ℝ} {g w : ℝ → ℝ} (hg : Widening r W g w) :
    ∫ ρ in Ioo 0 r, 2 * Real.pi * ρ * F (g ρ) = ∫ ρ in Ioo 0 r, 2 * Real.pi * ρ * G (g ρ) :=
  setIntegral_congr_fun measurableSet_Ioo fun ρ hρ => by
    simp only [he (g ρ) (hg.pos.trans (hg.gt hρ.1 hρ.2.le))]

/-- C140: two spheres next to each other: the energy is the integral of the free energy of plates at the local width of
the gap over the disc of the first sphere's radius. -/
theorem C140_outside (hq : q.Exact) (h : p.Ok) (hT : T.Nonneg) (h1 : 0 < r1) (h12 : r1 ≤ r2) (hd : r1 + r2 < d) {s : Bool} {F : ℝ → ℝ}
    (hF : ∀ L, 0 < L → p.freeEnergy q T L s = .ok (F L)) :
    p.sphereEnergy q r1 r2 T d s = .ok (∫ ρ in Ioo 0 r1, 2 * Real.pi * ρ * F (gapOutside r1 r2 d ρ)) := by
  rw [sphereEnergy_val hq h hT s (widening_outside h1 h12 hd) (distance_outside h1 h12 hd),
    integral_gap (plateF_eq hq h hT hF) (widening_outside h1 h12 hd)]

/-- C140: a sphere in a cavity, likewise. -/
theorem C140_inside (hq : q.Exact) (h : p.Ok) (hT : T.Nonneg) (h1 : 0 < r1) (h12 : r1 < r2) (hd : d < r2 - r1) {s : Bool} {F : ℝ → ℝ}
    (hF : ∀ L, 0 < L → p.freeEnergy q T L s = .ok (F L)) :
    p.sphereEnergy q r1 r2 T d s = .ok (∫ ρ in Ioo 0 r1, 2 * Real.pi * ρ * F (gapInside r1 r2 d ρ)) := by
  rw [sphereEnergy_val hq h hT s (widening_inside h1 h12 hd) (distance_inside h1 h12 hd),
    integral_gap (plateF_eq hq h hT hF) (widening_inside h1 h12 hd)]

/-- C140: plates have a free energy at every temperature that is not negative and every distance. -/
theorem C140_plates (hq : q.Exact) (h : p.Ok) (hT : T.Nonneg) (s : Bool) :
    ∃ F : ℝ → ℝ, ∀ L, 0 < L → p.freeEnergy q T L s = .ok (F L) :=
  ⟨_, fun _ hL => PFA.plateF_val hq h hT hL⟩

theorem abs_energy (h : p.Ok) (hT : T.Nonneg) (s : Bool) {r W : ℝ} {g w : ℝ → ℝ} (hg : Widening r W g w) :
    |∫ ρ in Ioo 0 r, 2 * Real.pi * ρ * p.plateF s T (g ρ)| ≤ -∫ ρ in Ioo 0 r, 2 * Real.pi * ρ * (mirrors p.matMd).plateF s T (g ρ) := by
  rw [← integral_neg]
  refine abs_integral_le_integral_abs.trans ?_
  refine setIntegral_mono_on (energy_integrable h hT s hg).abs (energy_integrable (mirrors_Ok h.pen h.hmd) hT s hg).neg
    measurableSet_Ioo fun ρ hρ => ?_
  have hpos : 0 ≤ 2 * Real.pi * ρ := by have := Real.pi_pos; have := hρ.1; positivity
  rw [abs_mul, abs_of_nonneg hpos]
  have := mul_le_mul_of_nonneg_left (PFA.plateF_abs (s := s) h hT (hg.pos.trans (hg.gt hρ.1 hρ.2.le))) hpos
  linarith

/-- C140: for all materials the energy exists, and its size is at most that between perfect mirrors of the same shape. -/
theorem C140_bound (hq : q.Exact) (h : p.Ok) (hT : T.Nonneg) (h1 : 0 < r1) (hd : r1 ≤ r2 ∧ r1 + r2 < d ∨ r1 < r2 ∧ d < r2 - r1)
    (s : Bool) : ∃ E E', p.sphereEnergy q r1 r2 T d s = .ok E ∧ (mirrors p.matMd).sphereEnergy q r1 r2 T d s = .ok E' ∧ |E| ≤ -E' := by
  rcases hd with ⟨h12, hd⟩ | ⟨h12, hd⟩
  · exact ⟨_, _, sphereEnergy_val hq h hT s (widening_outside h1 h12 hd) (distance_outside h1 h12 hd),
      sphereEnergy_val hq (mirrors_Ok h.pen h.hmd) hT s (widening_outside h1 h12 hd) (distance_outside h1 h12 hd), abs_energy h hT s (widening_outside h1 h12 hd)⟩
  · exact ⟨_, _, sphereEnergy_val hq h hT s (widening_inside h1 h12 hd) (distance_inside h1 h12 hd),
      sphereEnergy_val hq (mirrors_Ok h.pen h.hmd) hT s (widening_inside h1 h12 hd) (distance_inside h1 h12 hd), abs_energy h hT s (widening_inside h1 h12 hd)⟩

/-! ## Equal materials -/

variable {m md : Material}

theorem energy_mono (h : PFA.Ok ⟨m, m, md⟩) (hT : T.Nonneg) (s : Bool) {r W W' : ℝ} {g w g' w' : ℝ → ℝ} (hg : Widening r W g w)
    (hg' : Widening r W' g' w') (hle : ∀ ρ, g ρ ≤ g' ρ) :
    ∫ ρ in Ioo 0 r, 2 * Real.pi * ρ * PFA.plateF ⟨m, m, md⟩ s T (g ρ) ≤ ∫ ρ in Ioo 0 r, 2 * Real.pi * ρ * PFA.plateF ⟨m, m, md⟩ s T (g' ρ) := by
  refine setIntegral_mono_on (energy_integrable h hT s hg) (energy_integrable h hT s hg') measurableSet_Ioo fun ρ hρ => ?_
  have hpos : 0 ≤ 2 * Real.pi * ρ := by have := Real.pi_pos; have := hρ.1; positivity
  exact mul_le_mul_of_nonneg_left ((PFA.plateF_equal h hT).2 (hg.pos.trans (hg.gt hρ.1 hρ.2.le))
    (hg'.pos.trans (hg'.gt hρ.1 hρ.2.le)) (hle ρ)) hpos

theorem energy_nonpos (h : PFA.Ok ⟨m, m, md⟩) (hT : T.Nonneg) (s : Bool) {r W : ℝ} {g w : ℝ → ℝ} (hg : Widening r W g w) :
    ∫ ρ in Ioo 0 r, 2 * Real.pi * ρ * PFA.plateF ⟨m, m, md⟩ s T (g ρ) ≤ 0 := by
  refine setIntegral_nonpos measurableSet_Ioo fun ρ hρ => ?_
  have hpos : 0 ≤ 2 * Real.pi * ρ := by have := Real.pi_pos; have := hρ.1; positivity
  exact mul_nonpos_of_nonneg_of_nonpos hpos ((PFA.plateF_equal h hT).1 _ (hg.pos.trans (hg.gt hρ.1 hρ.2.le)))

/-- C140: spheres of one material attract each other: the energy is not positive and does not fall with the distance of
the centres. -/
theorem C140_equal_outside (hq : q.Exact) (h : PFA.Ok ⟨m, m, md⟩) (hT : T.Nonneg) (h1 : 0 < r1) (h12 : r1 ≤ r2) {d' : ℝ}
    (hd : r1 + r2 < d) (hdd : d ≤ d') (s : Bool) :
    ∃ E E', PFA.sphereEnergy q ⟨m, m, md⟩ r1 r2 T d s = .ok E ∧ PFA.sphereEnergy q ⟨m, m, md⟩ r1 r2 T d' s = .ok E' ∧ E ≤ E' ∧ E' ≤ 0 := by
  have hd' := hd.trans_le hdd
  exact ⟨_, _, sphereEnergy_val hq h hT s (widening_outside h1 h12 hd) (distance_outside h1 h12 hd),
    sphereEnergy_val hq h hT s (widening_outside h1 h12 hd') (distance_outside h1 h12 hd'),
    energy_mono h hT s (widening_outside h1 h12 hd) (widening_outside h1 h12 hd') (fun ρ => by unfold gapOutside; linarith),
    energy_nonpos h hT s (widening_outside h1 h12 hd')⟩

/-- C140: in a cavity the energy does not rise when the sphere is displaced further from the centre. -/
theorem C140_equal_inside (hq : q.Exact) (h : PFA.Ok ⟨m, m, md⟩) (hT : T.Nonneg) (h1 : 0 < r1) (h12 : r1 < r2) {d' : ℝ}
    (hd : d' < r2 - r1) (hdd : d ≤ d') (s : Bool) :
    ∃ E E', PFA.sphereEnergy q ⟨m, m, md⟩ r1 r2 T d s = .ok E ∧ PFA.sphereEnergy q ⟨m, m, md⟩ r1 r2 T d' s = .ok E' ∧ E' ≤ E ∧ E ≤ 0 := by
  have hd' := hdd.trans_lt hd
  exact ⟨_, _, sphereEnergy_val hq h hT s (widening_inside h1 h12 hd') (distance_inside h1 h12 hd'),
    sphereEnergy_val hq h hT s (widening_inside h1 h12 hd) (distance_inside h1 h12 hd),
    energy_mono h hT s (widening_inside h1 h12 hd) (widening_inside h1 h12 hd') (fun ρ => by unfold gapInside; linarith),
    energy_nonpos h hT s (widening_inside h1 h12 hd')⟩

theorem disc_area {r : ℝ} (hr : 0 ≤ r) (c : ℝ) : ∫ ρ in Ioo 0 r, 2 * Real.pi * ρ * c = Real.pi * r ^ 2 * c := by
  rw [← integral_Ioc_eq_integral_Ioo, ← intervalIntegral.integral_of_le hr, intervalIntegral.integral_mul_const,
    intervalIntegral.integral_const_mul, integral_id]
  ring

theorem disc_integrable {r : ℝ} (c : ℝ) : IntegrableOn (fun ρ : ℝ => 2 * Real.pi * ρ * c) (Ioo 0 r) := by
  have : Continuous (fun ρ : ℝ => 2 * Real.pi * ρ * c) := by fun_prop
  exact (this.integrableOn_Icc).mono_set Ioo_subset_Icc_self

theorem energy_area (h : PFA.Ok ⟨m, m, md⟩) (hT : T.Nonneg) (s : Bool) {r W : ℝ} {g w : ℝ → ℝ} (hg : Widening r W g w) :
    Real.pi * r ^ 2 * PFA.plateF ⟨m, m, md⟩ s T (g 0) ≤ ∫ ρ in Ioo 0 r, 2 * Real.pi * ρ * PFA.plateF ⟨m, m, md⟩ s T (g ρ) ∧
    ∫ ρ in Ioo 0 r, 2 * Real.pi * ρ * PFA.plateF ⟨m, m, md⟩ s T (g ρ) ≤ Real.pi * r ^ 2 * PFA.plateF ⟨m, m, md⟩ s T (g r) := by
  have hm := (PFA.plateF_equal (s := s) h hT).2
  have hpos : ∀ ρ ∈ Ioo 0 r, 0 ≤ 2 * Real.pi * ρ := fun ρ hρ => by have := Real.pi_pos; have := hρ.1; positivity
  have hr : ∀ ρ ∈ Ioo 0 r, g ρ ≤ g r := fun ρ hρ => hg.mono.monotoneOn ⟨hρ.1.le, hρ.2.le⟩ ⟨hg.r_pos.le, le_rfl⟩ hρ.2.le
  constructor
  · rw [← disc_area hg.r_pos.le]
    refine setIntegral_mono_on (disc_integrable _) (energy_integrable h hT s hg) measurableSet_Ioo fun ρ hρ => ?_
    have hl := hg.gt hρ.1 hρ.2.le
    exact mul_le_mul_of_nonneg_left (hm hg.pos (hg.pos.trans hl) hl.le) (hpos ρ hρ)
  · rw [← disc_area hg.r_pos.le]
    refine setIntegral_mono_on (energy_integrable h hT s hg) (disc_integrable _) measurableSet_Ioo fun ρ hρ => ?_
    have hl := hg.gt hρ.1 hρ.2.le
    exact mul_le_mul_of_nonneg_left (hm (hg.pos.trans hl) (hg.pos.trans (hl.trans_le (hr ρ hρ))) (hr ρ hρ)) (hpos ρ hρ)

/-- C140: the energy of spheres of one material lies between those of plates of the area of the first sphere's disc, at
the smallest and at the largest width of the gap. -/
theorem C140_area (hq : q.Exact) (h : PFA.Ok ⟨m, m, md⟩) (hT : T.Nonneg) (h1 : 0 < r1) {s : Bool} {F : ℝ → ℝ}
    (hF : ∀ L, 0 < L → PFA.freeEnergy q ⟨m, m, md⟩ T L s = .ok (F L)) :
    (r1 ≤ r2 → r1 + r2 < d → ∃ E, PFA.sphereEnergy q ⟨m, m, md⟩ r1 r2 T d s = .ok E ∧
      Real.pi * r1 ^ 2 * F (d - r1 - r2) ≤ E ∧ E ≤ Real.pi * r1 ^ 2 * F (d - Real.sqrt (r2 ^ 2 - r1 ^ 2))) ∧
    (r1 < r2 → d < r2 - r1 → ∃ E, PFA.sphereEnergy q ⟨m, m, md⟩ r1 r2 T d s = .ok E ∧
      Real.pi * r1 ^ 2 * F (r2 - d - r1) ≤ E ∧ E ≤ Real.pi * r1 ^ 2 * F (Real.sqrt (r2 ^ 2 - r1 ^ 2) - d)) := by
  have he := plateF_eq hq h hT hF
  constructor
  · intro h12 hd
    have hg := widening_outside h1 h12 hd
    have e0 : gapOutside r1 r2 d 0 = d - r1 - r2 := by
      unfold gapOutside
      rw [zero_pow two_ne_zero, sub_zero, sub_zero, Real.sqrt_sq h1.le, Real.sqrt_sq (h1.le.trans h12)]
    have e1 : gapOutside r1 r2 d r1 = d - Real.sqrt (r2 ^ 2 - r1 ^ 2) := by
      unfold gapOutside
      rw [sub_self, Real.sqrt_zero, sub_zero]
    have := energy_area h hT s hg
    rw [he _ hg.pos, he _ (hg.pos.trans (hg.gt h1 le_rfl)), e0, e1] at this
    exact ⟨_, sphereEnergy_val hq h hT s hg (distance_outside h1 h12 hd), this⟩
  · intro h12 hd
    have hg := widening_inside h1 h12 hd
    have e0 : gapInside r1 r2 d 0 = r2 - d - r1 := by
      unfold gapInside
      rw [zero_pow two_ne_zero, sub_zero, sub_zero, Real.sqrt_sq h1.le, Real.sqrt_sq (h1.trans h12).le]
    have e1 : gapInside r1 r2 d r1 = Real.sqrt (r2 ^ 2 - r1 ^ 2) - d := by
      unfold gapInside
      rw [sub_self, Real.sqrt_zero, sub_zero]
    have := energy_area h hT s hg
    rw [he _ hg.pos, he _ (hg.pos.trans (hg.gt h1 le_rfl)), e0, e1] at this
    exact ⟨_, sphereEnergy_val hq h hT s hg (distance_inside h1 h12 hd), this⟩

/-- C140: the energy of spheres of one material lies between the integrals of the free energy of plates over all widths
of the gap, with the effective radius, and over the widths near the axis, with the smaller radius there. -/
theorem C140_bracket_outside (hq : q.Exact) (h : PFA.Ok ⟨m, m, md⟩) (hT : T.Nonneg) (h1 : 0 < r1) (h12 : r1 ≤ r2) (hd : r1 + r2 < d)
    {s : Bool} {F : ℝ → ℝ} (hF : ∀ L, 0 < L → PFA.freeEnergy q ⟨m, m, md⟩ T L s = .ok (F L)) :
    ∃ E, PFA.sphereEnergy q ⟨m, m, md⟩ r1 r2 T d s = .ok E ∧
      2 * Real.pi * (r1 * r2 / (r1 + r2)) * ∫ L in Ioo (d - r1 - r2) (d - Real.sqrt (r2 ^ 2 - r1 ^ 2)), F L ≤ E ∧
      ∀ ρ, 0 < ρ → ρ < r1 → E ≤ 2 * Real.pi * radOutside r1 r2 ρ * ∫ L in Ioo (d - r1 - r2) (gapOutside r1 r2 d ρ), F L := by
  have hg := widening_outside h1 h12 hd
  have he := plateF_eq hq h hT hF
  have e0 : gapOutside r1 r2 d 0 = d - r1 - r2 := by
    unfold gapOutside
    rw [zero_pow two_ne_zero, sub_zero, sub_zero, Real.sqrt_sq h1.le, Real.sqrt_sq (h1.le.trans h12)]
  have e1 : gapOutside r1 r2 d r1 = d - Real.sqrt (r2 ^ 2 - r1 ^ 2) := by
    unfold gapOutside
    rw [sub_self, Real.sqrt_zero, sub_zero]
  have hn := (PFA.plateF_equal (s := s) h hT).1
  refine ⟨_, sphereEnergy_val hq h hT s hg (distance_outside h1 h12 hd), ?_, fun ρ h0 hr => ?_⟩
  · have := hg.lower (PFA.plateF_meas h s T) (plateF_integrable h hT s hg.pos) hn
    rwa [integral_F he hg.pos.le, e0, e1] at this
  · have := hg.upper (PFA.plateF_meas h s T) (plateF_integrable h hT s hg.pos) hn h0 hr
    rwa [integral_F he hg.pos.le, e0] at this

/-- C140: the same for a sphere in a cavity. -/
theorem C140_bracket_inside (hq : q.Exact) (h : PFA.Ok ⟨m, m, md⟩) (hT : T.Nonneg) (h1 : 0 < r1) (h12 : r1 < r2) (hd : d < r2 - r1)
    {s : Bool} {F : ℝ → ℝ} (hF : ∀ L, 0 < L → PFA.freeEnergy q ⟨m, m, md⟩ T L s = .ok (F L)) :
    ∃ E, PFA.sphereEnergy q ⟨m, m, md⟩ r1 r2 T d s = .ok E ∧
      2 * Real.pi * (r1 * r2 / (r2 - r1)) * ∫ L in Ioo (r2 - d - r1) (Real.sqrt (r2 ^ 2 - r1 ^ 2) - d), F L ≤ E ∧
      ∀ ρ, 0 < ρ → ρ < r1 → E ≤ 2 * Real.pi * radInside r1 r2 ρ * ∫ L in Ioo (r2 - d - r1) (gapInside r1 r2 d ρ), F L := by
  have hg := widening_inside h1 h12 hd
  have he := plateF_eq hq h hT hF
  have e0 : gapInside r1 r2 d 0 = r2 - d - r1 := by
    unfold gapInside
    rw [zero_pow two_ne_zero, sub_zero, sub_zero, Real.sqrt_sq h1.le, Real.sqrt_sq (h1.trans h12).le]
  have e1 : gapInside r1 r2 d r1 = Real.sqrt (r2 ^ 2 - r1 ^ 2) - d := by
    unfold gapInside
    rw [sub_self, Real.sqrt_zero, sub_zero]
  have hn := (PFA.plateF_equal (s := s) h hT).1
  refine ⟨_, sphereEnergy_val hq h hT s hg (distance_inside h1 h12 hd), ?_, fun ρ h0 hr => ?_⟩
  · have := hg.lower (PFA.plateF_meas h s T) (plateF_integrable h hT s hg.pos) hn
    rwa [integral_F he hg.pos.le, e0, e1] at this
  · have := hg.upper (PFA.plateF_meas h s T) (plateF_integrable h hT s hg.pos) hn h0 hr
    rwa [integral_F he hg.pos.le, e0] at this

theorem integral_shift (F : ℝ → ℝ) (a b c : ℝ) : ∫ x in Ioo (a + c) (b + c), F (x - c) = ∫ L in Ioo a b, F L := by
  have := (measurePreserving_sub_right volume c).setIntegral_preimage_emb (measurableEmbedding_subRight c) F (Ioo a b)
  rw [← this]
  congr 2
  ext x
  simp only [mem_Ioo, mem_preimage]
  constructor <;> rintro ⟨a, b⟩ <;> constructor <;> linarith

/-- C140: energy and force belong together: the work of `spheresphereForce` on the way from the distance `d` until the
gap on the axis is as wide as the gap at the rim of the first sphere was at the start bounds the energy from below, and
the work on a shorter way, reduced by the ratio of the radii, bounds it from above. -/
theorem C140_force (hq : q.Exact) (h : PFA.Ok ⟨m, m, md⟩) (hT : T.Nonneg) (h1 : 0 < r1) (h12 : r1 ≤ r2) (hd : r1 + r2 < d)
    {s : Bool} {Φ : ℝ → ℝ} (hΦ : ∀ x, r1 + r2 < x → PFA.sphereForce q ⟨m, m, md⟩ r1 r2 T x s = .ok (Φ x)) :
    ∃ E, PFA.sphereEnergy q ⟨m, m, md⟩ r1 r2 T d false = .ok E ∧
      ∫ x in Ioo d (d + r1 + (r2 - Real.sqrt (r2 ^ 2 - r1 ^ 2))), Φ x ≤ E ∧
      ∀ ρ, 0 < ρ → ρ < r1 → E ≤ radOutside r1 r2 ρ / (r1 * r2 / (r1 + r2)) *
        ∫ x in Ioo d (d + (r1 - Real.sqrt (r1 ^ 2 - ρ ^ 2)) + (r2 - Real.sqrt (r2 ^ 2 - ρ ^ 2))), Φ x := by
  obtain ⟨F, hF⟩ := C140_plates hq h hT false
  obtain ⟨E, hE, hl, hu⟩ := C140_bracket_outside hq h hT h1 h12 hd hF
  have h2 := h1.trans_le h12
  have hΦF : ∀ x, r1 + r2 < x → Φ x = 2 * Real.pi * (r1 * r2 / (r1 + r2)) * F (x - (r1 + r2)) := by
    intro x hx
    have := hΦ x hx
    unfold PFA.sphereForce at this
    simp only at this
    rw [if_neg (not_lt.2 hx.le), cdiv_ok (by linarith), ok_bind, (C63_axis h1 h2).1 hx, ok_bind, hF _ (by linarith), ok_bind] at this
    rw [← Except.ok.inj this, sub_sub]
    ring
  have key : ∀ b, ∫ x in Ioo d b, Φ x = 2 * Real.pi * (r1 * r2 / (r1 + r2)) * ∫ L in Ioo (d - r1 - r2) (b - r1 - r2), F L := by
    intro b
    have e := integral_shift F (d - r1 - r2) (b - r1 - r2) (r1 + r2)
    rw [show d - r1 - r2 + (r1 + r2) = d by ring, show b - r1 - r2 + (r1 + r2) = b by ring] at e
    rw [← e, ← integral_const_mul]
    exact setIntegral_congr_fun measurableSet_Ioo fun x hx => hΦF x (hd.trans hx.1)
  refine ⟨E, hE, ?_, fun ρ h0 hr => ?_⟩
  · rw [key, show d + r1 + (r2 - Real.sqrt (r2 ^ 2 - r1 ^ 2)) - r1 - r2 = d - Real.sqrt (r2 ^ 2 - r1 ^ 2) by ring]
    exact hl
  · rw [key]
    refine (hu ρ h0 hr).trans (le_of_eq ?_)
    have hW : r1 * r2 / (r1 + r2) ≠ 0 := by positivity
    have eg : gapOutside r1 r2 d ρ = d + (r1 - Real.sqrt (r1 ^ 2 - ρ ^ 2)) + (r2 - Real.sqrt (r2 ^ 2 - ρ ^ 2)) - r1 - r2 := by
      unfold gapOutside; ring
    rw [eg]
    generalize r1 * r2 / (r1 + r2) = W at *
    field_simp

/-- The force exists at all distances, so that the hypothesis of `C140_force` can be met. -/
theorem C140_force_exists (hq : q.Exact) (h : p.Ok) (hT : T.Nonneg) (h1 : 0 < r1) (h2 : 0 < r2) (s : Bool) :
    ∃ Φ : ℝ → ℝ, ∀ x, r1 + r2 < x → p.sphereForce q r1 r2 T x s = .ok (Φ x) := by
  obtain ⟨F, hF⟩ := C140_plates hq h hT false
  refine ⟨fun x => 2 * Real.pi * r1 * r2 / (r1 + r2) * F (x - r1 - r2), fun x hx => ?_⟩
  unfold PFA.sphereForce
  simp only
  rw [if_neg (not_lt.2 hx.le), cdiv_ok (by linarith), ok_bind, (C63_axis h1 h2).1 hx, ok_bind, hF _ (by linarith), ok_bind]

/-! ## Explicit bounds in vacuum -/

theorem power_integral {a b c n : ℝ} (ha : 0 < a) (hc : 0 ≤ c) (hn : 1 < n) :
    ∫ L in Ioo a b, c * L ^ (-n) ≤ c / ((n - 1) * a ^ (n - 1)) := by
  have hi : IntegrableOn (fun L : ℝ => c * L ^ (-n)) (Ioi a) := (integrableOn_Ioi_rpow_of_lt (by linarith) ha).const_mul c
  have h1 : ∫ L in Ioo a b, c * L ^ (-n) ≤ ∫ L in Ioi a, c * L ^ (-n) := by
    refine setIntegral_mono_set hi ?_ (LE.le.eventuallyLE (fun x hx => hx.1))
    filter_upwards [ae_restrict_mem measurableSet_Ioi] with x hx
    have hx : 0 < x := ha.trans hx
    simp only [Pi.zero_apply]
    positivity
  refine h1.trans (le_of_eq ?_)
  rw [integral_const_mul, integral_Ioi_rpow_of_lt (by linarith) ha]
  have e : a ^ (-n + 1) = (a ^ (n - 1))⁻¹ := by rw [← Real.rpow_neg ha.le]; congr 1; ring
  have : a ^ (n - 1) ≠ 0 := (Real.rpow_pos_of_pos ha _).ne'
  have h3 : n - 1 ≠ 0 := by linarith
  have h4 : -n + 1 ≠ 0 := by linarith
  rw [e]
  generalize a ^ (n - 1) = A at *
  rw [show -n + 1 = -(n - 1) by ring, neg_div_neg_eq]
  generalize n - 1 = N at *
  field_simp

theorem energy_bound (h : p.Ok) (hT : T.Nonneg) {s : Bool} {r W c n : ℝ} {g w : ℝ → ℝ} (hg : Widening r W g w) (hc : 0 ≤ c) (hn : 1 < n)
    (hm : ∀ L, 0 < L → -(c * L ^ (-n)) ≤ (mirrors p.matMd).plateF s T L) :
    |∫ ρ in Ioo 0 r, 2 * Real.pi * ρ * p.plateF s T (g ρ)| ≤ 2 * Real.pi * W * (c / ((n - 1) * g 0 ^ (n - 1))) := by
  have hM := mirrors_Ok h.pen h.hmd
  have hi := plateF_integrable hM hT s hg.pos (b := g r)
  have hl := hg.lower (PFA.plateF_meas hM s T) hi (PFA.plateF_equal (s := s) hM hT).1
  have hW : 0 ≤ 2 * Real.pi * W := by
    have := hg.w_pos (r / 2) (by linarith [hg.r_pos]) (by linarith [hg.r_pos])
    have := hg.w_le (r / 2) (by linarith [hg.r_pos]) (by linarith [hg.r_pos])
    have := Real.pi_pos
    have : 0 < W := by linarith
    positivity
  have hp : -∫ L in Ioo (g 0) (g r), (mirrors p.matMd).plateF s T L ≤ c / ((n - 1) * g 0 ^ (n - 1)) := by
    refine le_trans ?_ (power_integral (b := g r) hg.pos hc hn)
    rw [← integral_neg]
    have hic0 : IntegrableOn (fun L : ℝ => c * L ^ (-n)) (Ioi (g 0)) := (integrableOn_Ioi_rpow_of_lt (by linarith) hg.pos).const_mul c
    have hic : IntegrableOn (fun L : ℝ => c * L ^ (-n)) (Ioo (g 0) (g r)) := hic0.mono_set (fun x hx => hx.1)
    exact setIntegral_mono_on hi.neg hic measurableSet_Ioo fun L hL => neg_le.1 (hm L (hg.pos.trans hL.1))
  have := mul_le_mul_of_nonneg_left hp hW
  refine (abs_energy h hT s hg).trans ?_
  linarith

theorem gap0_outside (h1 : 0 < r1) (h12 : r1 ≤ r2) : gapOutside r1 r2 d 0 = d - r1 - r2 := by
  unfold gapOutside
  rw [zero_pow two_ne_zero, sub_zero, sub_zero, Real.sqrt_sq h1.le, Real.sqrt_sq (h1.le.trans h12)]

theorem gap0_inside (h1 : 0 < r1) (h12 : r1 < r2) : gapInside r1 r2 d 0 = r2 - d - r1 := by
  unfold gapInside
  rw [zero_pow two_ne_zero, sub_zero, sub_zero, Real.sqrt_sq h1.le, Real.sqrt_sq (h1.trans h12).le]

theorem zero_bound {m1 m2 : Material} {s : Bool} {L : ℝ} (hL : 0 < L) :
    -(Real.pi ^ 3 / 360 * L ^ (-(3:ℝ))) ≤ (mirrors (PFA.mk m1 m2 ⟨.lorentz, [], none⟩).matMd).plateF s (.fin 0) L := by
  obtain ⟨E, hE, h', -⟩ := C86_zeroT exactQuad_exact hL s
  rw [PFA.plateF_val (T := .fin 0) exactQuad_exact (mirrors_Ok (by simp) vacuum_ok) le_rfl hL] at hE
  rw [Except.ok.inj hE]
  refine le_trans (le_of_eq ?_) h'
  rw [Real.rpow_neg hL.le, Real.rpow_ofNat]
  field_simp

/-- C140: at zero temperature the size of the energy between spheres of any materials in vacuum is at most Derjaguin's
value for perfect mirrors, `π⁴/360 · r1 r2/(r1 + r2)/(d - r1 - r2)²`. -/
theorem C140_zeroT_outside {m1 m2 : Material} (hq : q.Exact) (h : PFA.Ok ⟨m1, m2, ⟨.lorentz, [], none⟩⟩) (h1 : 0 < r1)
    (h12 : r1 ≤ r2) (hd : r1 + r2 < d) (s : Bool) :
    ∃ E, PFA.sphereEnergy q ⟨m1, m2, ⟨.lorentz, [], none⟩⟩ r1 r2 (.fin 0) d s = .ok E ∧
      |E| ≤ Real.pi ^ 4 / 360 * (r1 * r2 / (r1 + r2)) / (d - r1 - r2) ^ 2 := by
  have hg := widening_outside h1 h12 hd
  refine ⟨_, sphereEnergy_val hq h (T := .fin 0) le_rfl s hg (distance_outside h1 h12 hd), ?_⟩
  refine (energy_bound (T := .fin 0) h le_rfl hg (c := Real.pi ^ 3 / 360) (n := 3) (by have := Real.pi_pos; positivity) (by norm_num)
    fun L hL => zero_bound hL).trans (le_of_eq ?_)
  rw [gap0_outside h1 h12, show (3:ℝ) - 1 = 2 by norm_num, Real.rpow_ofNat]
  have : d - r1 - r2 ≠ 0 := by linarith
  generalize d - r1 - r2 = z at *
  generalize r1 * r2 / (r1 + r2) = W at *
  field_simp

/-- C140: in a cavity the value is `π⁴/360 · r1 r2/(r2 - r1)/(r2 - r1 - d)²`. -/
theorem C140_zeroT_inside {m1 m2 : Material} (hq : q.Exact) (h : PFA.Ok ⟨m1, m2, ⟨.lorentz, [], none⟩⟩) (h1 : 0 < r1)
    (h12 : r1 < r2) (hd : d < r2 - r1) (s : Bool) :
    ∃ E, PFA.sphereEnergy q ⟨m1, m2, ⟨.lorentz, [], none⟩⟩ r1 r2 (.fin 0) d s = .ok E ∧
      |E| ≤ Real.pi ^ 4 / 360 * (r1 * r2 / (r2 - r1)) / (r2 - r1 - d) ^ 2 := by
  have hg := widening_inside h1 h12 hd
  refine ⟨_, sphereEnergy_val hq h (T := .fin 0) le_rfl s hg (distance_inside h1 h12 hd), ?_⟩
  refine (energy_bound (T := .fin 0) h le_rfl hg (c := Real.pi ^ 3 / 360) (n := 3) (by have := Real.pi_pos; positivity) (by norm_num)
    fun L hL => zero_bound hL).trans (le_of_eq ?_)
  rw [gap0_inside h1 h12, show (3:ℝ) - 1 = 2 by norm_num, Real.rpow_ofNat, show r2 - d - r1 = r2 - r1 - d by ring]
  have : r2 - r1 - d ≠ 0 := by linarith
  generalize r2 - r1 - d = z at *
  generalize r1 * r2 / (r2 - r1) = W at *
  field_simp

theorem high_bound {m1 m2 : Material} {L : ℝ} (hL : 0 < L) :
    -(li 3 1 / (8 * Real.pi) * L ^ (-(2:ℝ))) ≤ (mirrors (PFA.mk m1 m2 ⟨.lorentz, [], none⟩).matMd).plateF false .inf L := by
  obtain ⟨E, hE, h', -⟩ := C86_highT exactQuad_exact hL
  rw [PFA.plateF_val (T := .inf) exactQuad_exact (mirrors_Ok (by simp) vacuum_ok) trivial hL] at hE
  rw [Except.ok.inj hE]
  refine le_trans (le_of_eq ?_) h'
  rw [Real.rpow_neg hL.le, Real.rpow_ofNat]
  have := Real.pi_pos
  field_simp

/-- C140: in the high-temperature limit the bound is `ζ(3)/4 · r1 r2/(r1 + r2)/(d - r1 - r2)` (`li 3 1` is `ζ(3)`). -/
theorem C140_highT_outside {m1 m2 : Material} (hq : q.Exact) (h : PFA.Ok ⟨m1, m2, ⟨.lorentz, [], none⟩⟩) (h1 : 0 < r1)
    (h12 : r1 ≤ r2) (hd : r1 + r2 < d) :
    ∃ E, PFA.sphereEnergy q ⟨m1, m2, ⟨.lorentz, [], none⟩⟩ r1 r2 .inf d false = .ok E ∧
      |E| ≤ li 3 1 / 4 * (r1 * r2 / (r1 + r2)) / (d - r1 - r2) := by
  have hg := widening_outside h1 h12 hd
  refine ⟨_, sphereEnergy_val hq h (T := .inf) trivial false hg (distance_outside h1 h12 hd), ?_⟩
  have hli : 0 ≤ li 3 1 := by
    unfold li
    exact tsum_nonneg fun n => by positivity
  refine (energy_bound (T := .inf) h trivial hg (c := li 3 1 / (8 * Real.pi)) (n := 2) (by have := Real.pi_pos; positivity) (by norm_num)
    fun L hL => high_bound hL).trans (le_of_eq ?_)
  rw [gap0_outside h1 h12, show (2:ℝ) - 1 = 1 by norm_num, Real.rpow_one]
  have : d - r1 - r2 ≠ 0 := by linarith
  have hpi := Real.pi_pos.ne'
  generalize d - r1 - r2 = z at *
  generalize r1 * r2 / (r1 + r2) = W at *
  field_simp
  ring

/-- Gold spheres of radii 1 and 2 in vacuum next to each other, or radii 1 and 3 one in the other, meet the hypotheses. -/
example : ∃ E E', PFA.sphereEnergy exactQuad ⟨⟨.lorentz, eGold, none⟩, ⟨.lorentz, eGold, none⟩, ⟨.lorentz, [], none⟩⟩ 1 2 (.fin 1) 4 false = .ok E ∧
    PFA.sphereEnergy exactQuad ⟨⟨.lorentz, eGold, none⟩, ⟨.lorentz, eGold, none⟩, ⟨.lorentz, [], none⟩⟩ 1 2 (.fin 1) 5 false = .ok E' ∧ E ≤ E' ∧ E' ≤ 0 := by
  have hgold : (Material.mk .lorentz eGold none).Physical := ⟨by norm_num [eGold], by simp, by simp⟩
  exact C140_equal_outside exactQuad_exact ⟨hgold, hgold, vacuum_ok, by simp⟩ (T := .fin 1) zero_le_one one_pos one_le_two (by norm_num)
    (by norm_num) false

example : ∃ E E', PFA.sphereEnergy exactQuad ⟨⟨.lorentz, eGold, none⟩, ⟨.lorentz, eGold, none⟩, ⟨.lorentz, [], none⟩⟩ 1 3 .inf 0 false = .ok E ∧
    PFA.sphereEnergy exactQuad ⟨⟨.lorentz, eGold, none⟩, ⟨.lorentz, eGold, none⟩, ⟨.lorentz, [], none⟩⟩ 1 3 .inf 1 false = .ok E' ∧ E' ≤ E ∧ E ≤ 0 := by
  have hgold : (Material.mk .lorentz eGold none).Physical := ⟨by norm_num [eGold], by simp, by simp⟩
  exact C140_equal_inside exactQuad_exact ⟨hgold, hgold, vacuum_ok, by simp⟩ (T := .inf) trivial one_pos (by norm_num) (by norm_num)
    (by norm_num) false

/-- Two gold spheres of radius 1 at zero temperature. -/
example : ∃ E, PFA.sphereEnergy exactQuad ⟨⟨.lorentz, eGold, none⟩, ⟨.lorentz, eGold, none⟩, ⟨.lorentz, [], none⟩⟩ 1 1 (.fin 0) 3 false = .ok E ∧
    |E| ≤ Real.pi ^ 4 / 720 := by
  have hgold : (Material.mk .lorentz eGold none).Physical := ⟨by norm_num [eGold], by simp, by simp⟩
  obtain ⟨E, hE, hb⟩ := C140_zeroT_outside exactQuad_exact ⟨hgold, hgold, vacuum_ok, by simp⟩ one_pos le_rfl (by norm_num : (1:ℝ) + 1 < 3) false
  refine ⟨E, hE, hb.trans (le_of_eq ?_)⟩
  ring

end CasSph
