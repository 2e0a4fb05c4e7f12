import Verif.Lemmas.PFAExact
import Mathlib.Analysis.Calculus.ParametricIntegral

/-! # Integrals of the pressure between plane plates -/

namespace CasSph

open MeasureTheory Set Filter Topology Spec

/-- `s/(e^{2sL} - 1) ≤ e^{-sL}/(2L)` -/
theorem pres_bound {L s : ℝ} (hL : 0 < L) (hs : 0 < s) :
    s * Real.exp (-2 * s * L) / (1 - Real.exp (-2 * s * L)) ≤ Real.exp (-L * s) / (2 * L) := by
  have hsL : 0 < s * L := mul_pos hs hL
  have he := exp_mul_lt hL hs
  have hp : 0 < 1 - Real.exp (-2 * s * L) := by linarith
  have h := Real.self_le_sinh_iff.2 hsL.le
  rw [Real.sinh_eq] at h
  have e1 : Real.exp (-2 * s * L) = Real.exp (-(s * L)) ^ 2 := by
    rw [← Real.exp_nat_mul]; congr 1; push_cast; ring
  have e2 : Real.exp (s * L) = (Real.exp (-(s * L)))⁻¹ := by rw [Real.exp_neg, inv_inv]
  have e3 : Real.exp (-L * s) = Real.exp (-(s * L)) := by congr 1; ring
  rw [e1] at he hp ⊢
  rw [e2] at h
  rw [e3]
  have ey := Real.exp_pos (-(s * L))
  generalize Real.exp (-(s * L)) = y at *
  have h2 : 2 * (s * L) * y ≤ 1 - y ^ 2 := by
    have := mul_le_mul_of_nonneg_right h (by linarith : (0:ℝ) ≤ 2 * y)
    have e : (y⁻¹ - y) / 2 * (2 * y) = 1 - y ^ 2 := by field_simp
    rw [e] at this
    linarith
  rw [div_le_div_iff₀ hp (by positivity)]
  have := mul_le_mul_of_nonneg_left h2 ey.le
  nlinarith

/-- the integrand of the mirrors -/
noncomputable def presM (κ L k : ℝ) : ℝ :=
  Real.sqrt (k ^ 2 + κ ^ 2) * Real.exp (-2 * Real.sqrt (k ^ 2 + κ ^ 2) * L) /
    (1 - Real.exp (-2 * Real.sqrt (k ^ 2 + κ ^ 2) * L))

theorem presM_nonneg {κ L k : ℝ} (hκ : 0 < κ) (hL : 0 < L) : 0 ≤ presM κ L k := by
  have hs : 0 < Real.sqrt (k ^ 2 + κ ^ 2) := Real.sqrt_pos.2 (by positivity)
  have := exp_mul_lt hL hs
  unfold presM
  exact div_nonneg (mul_nonneg hs.le (Real.exp_pos _).le) (by linarith)

theorem presM_meas (κ L : ℝ) : Measurable (presM κ L) := by
  unfold presM; fun_prop

theorem presM_integrable {κ L : ℝ} (hκ : 0 < κ) (hL : 0 < L) : IntegrableOn (fun k => k * presM κ L k) (Ioi 0) := by
  have hb := (term_integrable hκ hL).1.div_const (2 * L)
  refine Integrable.mono' hb ((measurable_id.mul (presM_meas κ L)).aestronglyMeasurable) ?_
  filter_upwards [ae_restrict_mem measurableSet_Ioi] with k hk
  have hk : 0 < k := hk
  have hs : 0 < Real.sqrt (k ^ 2 + κ ^ 2) := Real.sqrt_pos.2 (by positivity)
  change |k * presM κ L k| ≤ _
  rw [abs_of_nonneg (mul_nonneg hk.le (presM_nonneg hκ hL)), mul_div_assoc]
  exact mul_le_mul_of_nonneg_left (pres_bound hL hs) hk.le

/-- antiderivative of `k sqrt(k²+κ²) exp(-b sqrt(k²+κ²))` -/
theorem deriv_presTerm {κ b k : ℝ} (hκ : 0 < κ) (hb : 0 < b) :
    HasDerivAt (fun k => -((Real.sqrt (k ^ 2 + κ ^ 2) ^ 2 / b + 2 * Real.sqrt (k ^ 2 + κ ^ 2) / b ^ 2 + 2 / b ^ 3) *
        Real.exp (-b * Real.sqrt (k ^ 2 + κ ^ 2))))
      (k * (Real.sqrt (k ^ 2 + κ ^ 2) * Real.exp (-b * Real.sqrt (k ^ 2 + κ ^ 2)))) k := by
  have hp : 0 < k ^ 2 + κ ^ 2 := by positivity
  have h1 : HasDerivAt (fun k : ℝ => k ^ 2 + κ ^ 2) (2 * k) k := by
    simpa using (hasDerivAt_pow 2 k).add_const (κ ^ 2)
  have h2 : HasDerivAt (fun k : ℝ => Real.sqrt (k ^ 2 + κ ^ 2)) (2 * k / (2 * Real.sqrt (k ^ 2 + κ ^ 2))) k :=
    h1.sqrt hp.ne'
  have h3 := ((((h2.pow 2).div_const b).add ((h2.const_mul 2).div_const (b ^ 2))).add_const (2 / b ^ 3)).mul
    ((h2.const_mul (-b)).exp)
  refine h3.neg.congr_deriv ?_
  have hs : 0 < Real.sqrt (k ^ 2 + κ ^ 2) := Real.sqrt_pos.2 hp
  simp only [Pi.pow_apply, Pi.add_apply]
  generalize Real.sqrt (k ^ 2 + κ ^ 2) = s at *
  push_cast
  field_simp
  ring

theorem quad_exp_tendsto {b : ℝ} (hb : 0 < b) :
    Tendsto (fun s : ℝ => (s ^ 2 / b + 2 * s / b ^ 2 + 2 / b ^ 3) * Real.exp (-b * s)) atTop (𝓝 0) := by
  have h : ∀ n : ℕ, Tendsto (fun s : ℝ => (b * s) ^ n * Real.exp (-(b * s))) atTop (𝓝 0) := fun n =>
    (Real.tendsto_pow_mul_exp_neg_atTop_nhds_zero n).comp (tendsto_id.const_mul_atTop hb)
  have h3 := (((h 2).add ((h 1).const_mul 2)).add ((h 0).const_mul 2)).const_mul (1 / b ^ 3)
  simp only [mul_zero, add_zero] at h3
  refine h3.congr fun s => ?_
  rw [neg_mul]
  field_simp

theorem presTerm_integral {κ b : ℝ} (hκ : 0 < κ) (hb : 0 < b) :
    IntegrableOn (fun k => k * (Real.sqrt (k ^ 2 + κ ^ 2) * Real.exp (-b * Real.sqrt (k ^ 2 + κ ^ 2)))) (Ioi 0) ∧
    ∫ k in Ioi (0:ℝ), k * (Real.sqrt (k ^ 2 + κ ^ 2) * Real.exp (-b * Real.sqrt (k ^ 2 + κ ^ 2))) =
      (κ ^ 2 / b + 2 * κ / b ^ 2 + 2 / b ^ 3) * Real.exp (-b * κ) := by
  have hl := ((quad_exp_tendsto hb).comp (sqrt_atTop (κ := κ))).neg
  rw [neg_zero] at hl
  have hn : ∀ x ∈ Ioi (0:ℝ), 0 ≤ x * (Real.sqrt (x ^ 2 + κ ^ 2) * Real.exp (-b * Real.sqrt (x ^ 2 + κ ^ 2))) :=
    fun x hx => mul_nonneg (le_of_lt hx) (mul_nonneg (Real.sqrt_nonneg _) (Real.exp_pos _).le)
  refine ⟨integrableOn_Ioi_deriv_of_nonneg' (fun x _ => deriv_presTerm hκ hb) hn hl, ?_⟩
  rw [integral_Ioi_of_hasDerivAt_of_nonneg' (fun x _ => deriv_presTerm hκ hb) hn hl]
  have : Real.sqrt (0 ^ 2 + κ ^ 2) = κ := by rw [zero_pow two_ne_zero, zero_add, Real.sqrt_sq hκ.le]
  rw [this]; ring

theorem summable_li1 {z : ℝ} (h0 : 0 ≤ z) (h1 : z < 1) : Summable fun n : ℕ => z ^ (n + 1) / (n + 1 : ℝ) ^ 1 := by
  have h := Real.hasSum_pow_div_log_of_abs_lt_one (x := z) (by rwa [abs_of_nonneg h0])
  simpa using h.summable

theorem li1_eq {z : ℝ} (h0 : 0 ≤ z) (h1 : z < 1) : li 1 z = -Real.log (1 - z) := by
  have h := Real.hasSum_pow_div_log_of_abs_lt_one (x := z) (by rwa [abs_of_nonneg h0])
  rw [← h.tsum_eq]
  unfold li
  simp

/-- the integral for mirrors -/
noncomputable def presInt (κ L : ℝ) : ℝ :=
  κ ^ 2 / (2 * L) * li 1 (Real.exp (-2 * κ * L)) + κ / (2 * L ^ 2) * li 2 (Real.exp (-2 * κ * L)) +
    li 3 (Real.exp (-2 * κ * L)) / (4 * L ^ 3)

theorem mirrorPressure_eq (κ L : ℝ) : mirrorPressure κ L = -(presInt κ L / Real.pi) := by
  unfold mirrorPressure presInt; rw [neg_div]

theorem pres_series {κ L : ℝ} (hκ : 0 < κ) (hL : 0 < L) :
    HasSum (fun n : ℕ => (κ ^ 2 / (2 * L * (n + 1)) + 2 * κ / (2 * L * (n + 1)) ^ 2 + 2 / (2 * L * (n + 1)) ^ 3) *
      Real.exp (-(2 * L * (n + 1)) * κ)) (presInt κ L) := by
  have h0 := Real.exp_pos (-2 * κ * L)
  have h1 := exp_mul_lt hL hκ
  have s1 := (summable_li1 h0.le h1).hasSum
  have s2 := (summable_li h0.le h1.le (s := 2) le_rfl).hasSum
  have s3 := (summable_li h0.le h1.le (s := 3) (by norm_num)).hasSum
  have h := ((s1.mul_left (κ ^ 2 / (2 * L))).add (s2.mul_left (κ / (2 * L ^ 2)))).add (s3.div_const (4 * L ^ 3))
  refine h.congr_fun fun n => ?_
  have hn : (n + 1 : ℝ) ≠ 0 := by positivity
  have e : Real.exp (-(2 * L * (n + 1)) * κ) = Real.exp (-2 * κ * L) ^ (n + 1) := by
    rw [← Real.exp_nat_mul]; congr 1; push_cast; ring
  rw [e]
  field_simp
  try ring

theorem presM_integral {κ L : ℝ} (hκ : 0 < κ) (hL : 0 < L) :
    ∫ k in Ioi (0:ℝ), k * presM κ L k = presInt κ L := by
  have hb : ∀ n : ℕ, 0 < 2 * L * (n + 1 : ℝ) := fun n => by positivity
  set F : ℕ → ℝ → ℝ := fun n k => k * (Real.sqrt (k ^ 2 + κ ^ 2) *
    Real.exp (-(2 * L * (n + 1)) * Real.sqrt (k ^ 2 + κ ^ 2))) with hF
  have hint : ∀ n, Integrable (F n) (volume.restrict (Ioi 0)) := fun n => (presTerm_integral hκ (hb n)).1
  have hval : ∀ n, ∫ k in Ioi (0:ℝ), F n k =
      (κ ^ 2 / (2 * L * (n + 1)) + 2 * κ / (2 * L * (n + 1)) ^ 2 + 2 / (2 * L * (n + 1)) ^ 3) *
      Real.exp (-(2 * L * (n + 1)) * κ) := fun n => (presTerm_integral hκ (hb n)).2
  have hnorm : ∀ n, ∫ k in Ioi (0:ℝ), ‖F n k‖ = ∫ k in Ioi (0:ℝ), F n k := by
    intro n
    refine setIntegral_congr_fun measurableSet_Ioi fun k hk => ?_
    have hk : 0 < k := hk
    rw [hF]
    simp only
    rw [Real.norm_eq_abs, abs_of_nonneg (by positivity)]
  have hS := pres_series hκ hL
  have h := hasSum_integral_of_summable_integral_norm hint (by simp_rw [hnorm, hval]; exact hS.summable)
  simp_rw [hval] at h
  rw [← h.unique hS]
  refine setIntegral_congr_fun measurableSet_Ioi fun k hk => ?_
  have hk : 0 < k := hk
  have hs : 0 < Real.sqrt (k ^ 2 + κ ^ 2) := Real.sqrt_pos.2 (by positivity)
  have hlt := exp_mul_lt hL hs
  have h0 := Real.exp_pos (-2 * Real.sqrt (k ^ 2 + κ ^ 2) * L)
  have hg := (hasSum_geometric_of_lt_one h0.le hlt).mul_left
    (k * (Real.sqrt (k ^ 2 + κ ^ 2) * Real.exp (-2 * Real.sqrt (k ^ 2 + κ ^ 2) * L)))
  have e : k * presM κ L k = k * (Real.sqrt (k ^ 2 + κ ^ 2) * Real.exp (-2 * Real.sqrt (k ^ 2 + κ ^ 2) * L)) *
      (1 - Real.exp (-2 * Real.sqrt (k ^ 2 + κ ^ 2) * L))⁻¹ := by
    unfold presM; rw [div_eq_mul_inv]; ring
  try simp only
  rw [e, ← hg.tsum_eq]
  refine tsum_congr fun n => ?_
  rw [hF]
  simp only
  have : Real.exp (-(2 * L * (n + 1)) * Real.sqrt (k ^ 2 + κ ^ 2)) =
      Real.exp (-2 * Real.sqrt (k ^ 2 + κ ^ 2) * L) * Real.exp (-2 * Real.sqrt (k ^ 2 + κ ^ 2) * L) ^ n := by
    rw [← pow_succ', ← Real.exp_nat_mul]; congr 1; push_cast; ring
  rw [this]
  ring

theorem presInt_pos {κ L : ℝ} (hκ : 0 < κ) (hL : 0 < L) : 0 < presInt κ L := by
  have h := pres_series hκ hL
  rw [← h.tsum_eq]
  refine h.summable.tsum_pos (fun n => ?_) 0 ?_ <;> positivity

/-- one channel of the pressure -/
noncomputable def chanP (r s L : ℝ) : ℝ := -s * (r * Real.exp (-2 * s * L)) / (1 - r * Real.exp (-2 * s * L))

theorem chanP_abs {r s L : ℝ} (hr : |r| ≤ 1) (hs : 0 < s) (hL : 0 < L) :
    |chanP r s L| ≤ s * Real.exp (-2 * s * L) / (1 - Real.exp (-2 * s * L)) := by
  have he := exp_mul_lt hL hs
  have h0 := Real.exp_pos (-2 * s * L)
  have h1 := one_sub_pos hr h0 he
  unfold chanP
  rw [abs_div, abs_of_pos h1, abs_mul, abs_neg, abs_of_pos hs, abs_mul, abs_of_pos h0]
  have : r * Real.exp (-2 * s * L) ≤ Real.exp (-2 * s * L) := by
    have := (abs_le.1 hr).2; nlinarith
  have h2 : |r| * Real.exp (-2 * s * L) ≤ Real.exp (-2 * s * L) := by nlinarith
  have h3 : 0 < 1 - Real.exp (-2 * s * L) := by linarith
  gcongr

theorem chanP_mirror (s L : ℝ) : chanP 1 s L = -(s * Real.exp (-2 * s * L) / (1 - Real.exp (-2 * s * L))) := by
  unfold chanP; rw [one_mul]; ring

/-- `s/(e^{2sL} - 1)` falls with `L` -/
theorem presM_anti {κ l L k : ℝ} (hκ : 0 < κ) (hl : 0 < l) (h : l ≤ L) : presM κ L k ≤ presM κ l k := by
  have hs : 0 < Real.sqrt (k ^ 2 + κ ^ 2) := Real.sqrt_pos.2 (by positivity)
  have h1 := exp_mul_lt hl hs
  have h2 : Real.exp (-2 * Real.sqrt (k ^ 2 + κ ^ 2) * L) ≤ Real.exp (-2 * Real.sqrt (k ^ 2 + κ ^ 2) * l) := by
    apply Real.exp_le_exp.2; nlinarith
  have h3 : 0 < 1 - Real.exp (-2 * Real.sqrt (k ^ 2 + κ ^ 2) * l) := by linarith
  unfold presM
  gcongr

/-- differentiation of one channel under the integral -/
theorem chan_deriv {r : ℝ → ℝ} {κ L : ℝ} (hκ : 0 < κ) (hL : 0 < L) (hm : Measurable r) (hr : ∀ k, |r k| ≤ 1) :
    IntegrableOn (fun k => k / (2 * Real.pi) * chanP (r k) (Real.sqrt (k ^ 2 + κ ^ 2)) L) (Ioi 0) ∧
    |∫ k in Ioi (0:ℝ), k / (2 * Real.pi) * chanP (r k) (Real.sqrt (k ^ 2 + κ ^ 2)) L| ≤ presInt κ L / (2 * Real.pi) ∧
    HasDerivAt (fun L => ∫ k in Ioi (0:ℝ), k / (2 * Real.pi) *
        Real.log (1 - r k * Real.exp (-2 * Real.sqrt (k ^ 2 + κ ^ 2) * L)))
      (-(2 * ∫ k in Ioi (0:ℝ), k / (2 * Real.pi) * chanP (r k) (Real.sqrt (k ^ 2 + κ ^ 2)) L)) L := by
  have hpi := Real.pi_pos
  have hsp : ∀ k : ℝ, 0 < Real.sqrt (k ^ 2 + κ ^ 2) := fun k => Real.sqrt_pos.2 (by positivity)
  have hmeas : ∀ L, Measurable fun k => k / (2 * Real.pi) * chanP (r k) (Real.sqrt (k ^ 2 + κ ^ 2)) L := by
    intro L; unfold chanP; fun_prop
  have hb : ∀ l, 0 < l → l ≤ L → ∀ x, l ≤ x → ∀ k : ℝ, 0 < k →
      |k / (2 * Real.pi) * chanP (r k) (Real.sqrt (k ^ 2 + κ ^ 2)) x| ≤ 1 / (2 * Real.pi) * (k * presM κ l k) := by
    intro l hl _ x hx k hk
    have h1 : 0 < k / (2 * Real.pi) := by positivity
    rw [abs_mul, abs_of_pos h1]
    have h2 := (chanP_abs (hr k) (hsp k) (hl.trans_le hx)).trans (presM_anti hκ hl hx (k := k))
    calc _ ≤ k / (2 * Real.pi) * presM κ l k := by gcongr
      _ = _ := by ring
  have hi := (presM_integrable hκ hL).const_mul (1 / (2 * Real.pi))
  have hle : ∀ᵐ k ∂(volume.restrict (Ioi (0:ℝ))),
      ‖k / (2 * Real.pi) * chanP (r k) (Real.sqrt (k ^ 2 + κ ^ 2)) L‖ ≤ 1 / (2 * Real.pi) * (k * presM κ L k) := by
    filter_upwards [ae_restrict_mem measurableSet_Ioi] with k hk
    exact hb L hL le_rfl L le_rfl k hk
  refine ⟨Integrable.mono' hi (hmeas L).aestronglyMeasurable hle, ?_, ?_⟩
  · have h := norm_integral_le_of_norm_le hi hle
    rw [Real.norm_eq_abs] at h
    refine h.trans (le_of_eq ?_)
    rw [integral_const_mul, presM_integral hκ hL]
    ring
  · have hL2 : 0 < L / 2 := by linarith
    have hi2 := ((presM_integrable hκ hL2).const_mul (1 / (2 * Real.pi))).const_mul 2
    have hlm : ∀ x, Measurable fun k => k / (2 * Real.pi) *
        Real.log (1 - r k * Real.exp (-2 * Real.sqrt (k ^ 2 + κ ^ 2) * x)) := by
      intro x; fun_prop
    have hF := hasDerivAt_integral_of_dominated_loc_of_deriv_le (μ := volume.restrict (Ioi (0:ℝ)))
      (F := fun x k => k / (2 * Real.pi) * Real.log (1 - r k * Real.exp (-2 * Real.sqrt (k ^ 2 + κ ^ 2) * x)))
      (F' := fun x k => -2 * (k / (2 * Real.pi) * chanP (r k) (Real.sqrt (k ^ 2 + κ ^ 2)) x)) (x₀ := L)
      (s := Ioi (L / 2)) (bound := fun k => 2 * (1 / (2 * Real.pi) * (k * presM κ (L / 2) k)))
      (Ioi_mem_nhds (by linarith)) (Eventually.of_forall fun x => (hlm x).aestronglyMeasurable)
      (chan_integrable (w := fun k => Real.log (1 - r k * Real.exp (-2 * Real.sqrt (k ^ 2 + κ ^ 2) * L))) hκ hL
        (Measurable.aestronglyMeasurable (by fun_prop)) (fun k _ => by
          have b := log_chan_bounds (hr k) (Real.exp_pos _) (exp_mul_lt hL (hsp k))
          exact abs_le.2 ⟨by rw [neg_neg]; exact b.1, b.2⟩)).1
      (((hmeas L).const_mul (-2)).aestronglyMeasurable)
      (by
        filter_upwards [ae_restrict_mem measurableSet_Ioi] with k hk x hx
        have hx : L / 2 < x := hx
        rw [Real.norm_eq_abs, abs_mul, abs_neg, abs_of_pos (two_pos : (0:ℝ) < 2)]
        exact mul_le_mul_of_nonneg_left (hb _ hL2 (by linarith) x hx.le k hk) two_pos.le)
      hi2
      (by
        filter_upwards with k x hx
        have hx : L / 2 < x := hx
        have := (log_deriv (hr k) (hsp k) (hL2.trans hx)).const_mul (k / (2 * Real.pi))
        refine this.congr_deriv ?_
        unfold chanP
        ring)
    refine hF.2.congr_deriv ?_
    rw [integral_const_mul]
    ring

namespace PFA

/-- integrals of the pressure channels -/
noncomputable def PresTE (p : PFA) (L kn : ℝ) : ℝ :=
  ∫ k in Ioi (0:ℝ), k / (2 * Real.pi) * chanP (p.te k kn) (Real.sqrt (k ^ 2 + kap0 p.matMd kn ^ 2)) L

noncomputable def PresTM (p : PFA) (L kn : ℝ) : ℝ :=
  ∫ k in Ioi (0:ℝ), k / (2 * Real.pi) * chanP (p.tm k kn) (Real.sqrt (k ^ 2 + kap0 p.matMd kn ^ 2)) L

variable {p : PFA} {L kn : ℝ} {q : Quad}

theorem te_meas (p : PFA) (kn : ℝ) : Measurable (fun k => p.te k kn) ∧ Measurable (fun k => p.tm k kn) := by
  obtain ⟨a1, a2⟩ := refl_meas p.mat1 p.matMd kn
  obtain ⟨b1, b2⟩ := refl_meas p.mat2 p.matMd kn
  exact ⟨a1.mul b1, a2.mul b2⟩

theorem presTE_ok (h : p.Ok) (hk : 0 < kn) (hL : 0 < L) :
    IntegrableOn (fun k => k / (2 * Real.pi) * chanP (p.te k kn) (Real.sqrt (k ^ 2 + kap0 p.matMd kn ^ 2)) L) (Ioi 0) ∧
    |p.PresTE L kn| ≤ presInt (kap0 p.matMd kn) L / (2 * Real.pi) ∧
    HasDerivAt (fun L => p.IntTE L kn) (-(2 * p.PresTE L kn)) L := by
  have := chan_deriv (kap0_pos h.pen h.hmd hk) hL (te_meas p kn).1 (fun k => te_abs h hk)
  simp only [← kapV_eq h.pen h.hmd hk] at this ⊢
  unfold PresTE IntTE logTE
  simp only [← kapV_eq h.pen h.hmd hk]
  exact this

theorem presTM_ok (h : p.Ok) (hk : 0 < kn) (hL : 0 < L) :
    IntegrableOn (fun k => k / (2 * Real.pi) * chanP (p.tm k kn) (Real.sqrt (k ^ 2 + kap0 p.matMd kn ^ 2)) L) (Ioi 0) ∧
    |p.PresTM L kn| ≤ presInt (kap0 p.matMd kn) L / (2 * Real.pi) ∧
    HasDerivAt (fun L => p.IntTM L kn) (-(2 * p.PresTM L kn)) L := by
  have := chan_deriv (kap0_pos h.pen h.hmd hk) hL (te_meas p kn).2 (fun k => tm_abs h hk)
  simp only [← kapV_eq h.pen h.hmd hk] at this ⊢
  unfold PresTM IntTM logTM
  simp only [← kapV_eq h.pen h.hmd hk]
  exact this

theorem rawPressureTE_val (hq : q.Exact) (h : p.Ok) (hk : 0 < kn) (hL : 0 < L) :
    p.rawPressureTE q L kn = .ok (p.PresTE L kn) := by
  unfold rawPressureTE
  refine hq.inf _ (fun k => k / (2 * Real.pi) * chanP (p.te k kn) (Real.sqrt (k ^ 2 + kap0 p.matMd kn ^ 2)) L) 0
    (fun k _ => ?_) (presTE_ok h hk hL).1
  rw [pressureRoundTrips_val h hk hL, ok_bind, ← kapV_eq h.pen h.hmd hk]; rfl

theorem rawPressureTM_val (hq : q.Exact) (h : p.Ok) (hk : 0 < kn) (hL : 0 < L) :
    p.rawPressureTM q L kn = .ok (p.PresTM L kn) := by
  unfold rawPressureTM
  refine hq.inf _ (fun k => k / (2 * Real.pi) * chanP (p.tm k kn) (Real.sqrt (k ^ 2 + kap0 p.matMd kn ^ 2)) L) 0
    (fun k _ => ?_) (presTM_ok h hk hL).1
  rw [pressureRoundTrips_val h hk hL, ok_bind, ← kapV_eq h.pen h.hmd hk]; rfl

theorem pressureIntegral_val (hq : q.Exact) (h : p.Ok) (hk : 0 < kn) (hL : 0 < L) :
    p.pressureIntegral q L kn = .ok (p.PresTE L kn + p.PresTM L kn) := by
  have i1 := (presTE_ok h hk hL).1
  have i2 := (presTM_ok h hk hL).1
  have e := (integral_add i1 i2).symm
  unfold PresTE PresTM
  rw [e]
  unfold pressureIntegral
  refine hq.inf _ (fun k => k / (2 * Real.pi) * chanP (p.te k kn) (Real.sqrt (k ^ 2 + kap0 p.matMd kn ^ 2)) L +
    k / (2 * Real.pi) * chanP (p.tm k kn) (Real.sqrt (k ^ 2 + kap0 p.matMd kn ^ 2)) L) 0 (fun k _ => ?_) (i1.add i2)
  rw [pressureRoundTrip_val h hk hL, ok_bind, ← kapV_eq h.pen h.hmd hk]
  congr 1
  exact mul_add _ _ _

end PFA

end CasSph
