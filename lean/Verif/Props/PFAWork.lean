import Verif.Props.PFARaw
import Verif.Props.PFASphere

/-! # C141: raw_PFA.py: is the energy between spheres the work of the force? -/

namespace CasSph

open MeasureTheory Set Filter Topology Spec

namespace Spec

/-- work of a force, given as a function that may fail, on the way from `L` to infinity; counted such that it is the
energy (attraction negative) -/
def IsWork (Φ : ℝ → Res ℝ) (L A : ℝ) : Prop :=
  ∃ φ : ℝ → ℝ, (∀ x, L < x → Φ x = .ok (φ x)) ∧ IntegrableOn φ (Ioi L) ∧ A = ∫ x in Ioi L, φ x

theorem IsWork.unique {Φ : ℝ → Res ℝ} {L A B : ℝ} (h : IsWork Φ L A) (h' : IsWork Φ L B) : A = B := by
  obtain ⟨f, hf, -, rfl⟩ := h
  obtain ⟨g, hg, -, rfl⟩ := h'
  exact setIntegral_congr_fun measurableSet_Ioi fun x hx => Except.ok.inj ((hf x hx).symm.trans (hg x hx))

/-- effective radius: spheres next to each other, or one in the other -/
noncomputable def effRad (r1 r2 : ℝ) (ext : Bool) : ℝ := if ext then r1 * r2 / (r1 + r2) else r1 * r2 / (r2 - r1)

end Spec

open PFA

variable {q : Quad} {p : PFA} {L : ℝ}

/-! ## The high-temperature limit with lower limit -/

/-- the integral with lower limit -/
noncomputable def highRaw (p : PFA) (a L : ℝ) : ℝ :=
  ((∫ k in Ioi a, k / (2 * Real.pi) * p.logTE L 1e-20 k) + ∫ k in Ioi a, k / (2 * Real.pi) * p.logTM L 1e-20 k) / 2

theorem highRaw_val (hq : q.Exact) (h : p.Ok) (hL : 0 < L) {a : ℝ} (ha : 0 ≤ a) : p.freeEnergyHT q a L false = .ok (highRaw p a L) := by
  have hk : (0:ℝ) < 1e-20 := by norm_num
  have e1 : p.integralTE q a L 1e-20 = .ok (∫ k in Ioi a, k / (2 * Real.pi) * p.logTE L 1e-20 k) := by
    unfold integralTE
    refine hq.inf _ (fun k => k / (2 * Real.pi) * p.logTE L 1e-20 k) a (fun k _ => ?_)
      ((intTE_ok h hk hL).1.mono_set (Ioi_subset_Ioi ha))
    rw [roundTrips_val h hk hL, ok_bind]; rfl
  have e2 : p.integralTM q a L 1e-20 = .ok (∫ k in Ioi a, k / (2 * Real.pi) * p.logTM L 1e-20 k) := by
    unfold integralTM
    refine hq.inf _ (fun k => k / (2 * Real.pi) * p.logTM L 1e-20 k) a (fun k _ => ?_)
      ((intTM_ok h hk hL).1.mono_set (Ioi_subset_Ioi ha))
    rw [roundTrips_val h hk hL, ok_bind]; rfl
  unfold freeEnergyHT
  rw [e1, ok_bind, e2, ok_bind]
  simp only [Bool.false_eq_true, if_false]
  congr 1
  unfold highRaw
  ring

theorem neg_log_le_inv {x : ℝ} (hx : 0 < x) : -Real.log (1 - Real.exp (-x)) ≤ 1 / x := by
  have h1 : 0 < 1 - Real.exp (-x) := by
    have : Real.exp (-x) < 1 := Real.exp_lt_one_iff.2 (by linarith)
    linarith
  have h2 : x ≤ Real.exp x - 1 := by linarith [Real.add_one_le_exp x]
  have h3 := Real.one_sub_inv_le_log_of_pos h1
  have h4 : (1 - Real.exp (-x))⁻¹ - 1 = 1 / (Real.exp x - 1) := by
    have he : Real.exp (-x) = (Real.exp x)⁻¹ := Real.exp_neg x
    have hp := Real.exp_pos x
    rw [he] at h1 ⊢
    generalize Real.exp x = y at *
    have hy : y - 1 ≠ 0 := by linarith
    have hy0 : y ≠ 0 := hp.ne'
    have h5 : 1 - y⁻¹ = (y - 1) / y := by field_simp
    rw [h5, inv_div, div_sub_one hy]
    ring
  have h5 : 1 / (Real.exp x - 1) ≤ 1 / x := one_div_le_one_div_of_le hx h2
  linarith

theorem cut_abs (h : p.Ok) (hL : 0 < L) {k : ℝ} (hk : 0 < k) :
    |k / (2 * Real.pi) * p.logTE L 1e-20 k| ≤ 1 / (4 * Real.pi * L) ∧ |k / (2 * Real.pi) * p.logTM L 1e-20 k| ≤ 1 / (4 * Real.pi * L) := by
  have hpi := Real.pi_pos
  obtain ⟨a, b⟩ := log_abs h (by norm_num : (0:ℝ) < 1e-20) hL k
  have hs : k ≤ Real.sqrt (k ^ 2 + kap0 p.matMd 1e-20 ^ 2) := by
    apply Real.le_sqrt_of_sq_le
    nlinarith [sq_nonneg (kap0 p.matMd 1e-20)]
  generalize Real.sqrt (k ^ 2 + kap0 p.matMd 1e-20 ^ 2) = σ at *
  have hb : -Real.log (1 - Real.exp (-2 * σ * L)) ≤ 1 / (2 * k * L) := by
    have hσ := hk.trans_le hs
    rw [show -2 * σ * L = -(2 * σ * L) by ring]
    refine (neg_log_le_inv (by positivity)).trans ?_
    apply one_div_le_one_div_of_le (by positivity)
    gcongr
  have e : k / (2 * Real.pi) * (1 / (2 * k * L)) = 1 / (4 * Real.pi * L) := by field_simp; norm_num
  rw [← e]
  have hp : 0 ≤ k / (2 * Real.pi) := by positivity
  constructor
  · rw [abs_mul, abs_of_nonneg hp]; exact mul_le_mul_of_nonneg_left (a.trans hb) hp
  · rw [abs_mul, abs_of_nonneg hp]; exact mul_le_mul_of_nonneg_left (b.trans hb) hp

theorem cut_integral {f : ℝ → ℝ} {a c : ℝ} (ha : 0 ≤ a) (hf : IntegrableOn f (Ioi 0)) (hb : ∀ k, 0 < k → |f k| ≤ c) :
    |(∫ k in Ioi a, f k) - ∫ k in Ioi 0, f k| ≤ a * c := by
  have e : ∫ k in Ioi 0, f k = (∫ k in Ioc 0 a, f k) + ∫ k in Ioi a, f k := by
    rw [← setIntegral_union (Set.Ioc_disjoint_Ioi le_rfl) measurableSet_Ioi (hf.mono_set Ioc_subset_Ioi_self)
      (hf.mono_set (Ioi_subset_Ioi ha)), Ioc_union_Ioi_eq_Ioi ha]
  rw [e, sub_add_cancel_right, abs_neg, ← Real.norm_eq_abs]
  have := norm_setIntegral_le_of_norm_le_const (μ := volume) (s := Ioc 0 a) (C := c) (f := f) (by simp)
    (fun k hk => by rw [Real.norm_eq_abs]; exact hb k hk.1)
  refine this.trans (le_of_eq ?_)
  rw [Real.volume_real_Ioc_of_le ha]
  ring

theorem highRaw_near (h : p.Ok) (hL : 0 < L) {a : ℝ} (ha : 0 ≤ a) : |highRaw p a L - highRaw p 0 L| ≤ a / (4 * Real.pi * L) := by
  have hk : (0:ℝ) < 1e-20 := by norm_num
  have h1 := cut_integral ha (intTE_ok h hk hL).1 (fun k hk => (cut_abs h hL hk).1)
  have h2 := cut_integral ha (intTM_ok h hk hL).1 (fun k hk => (cut_abs h hL hk).2)
  unfold highRaw
  rw [abs_le] at h1 h2 ⊢
  have e : a * (1 / (4 * Real.pi * L)) = a / (4 * Real.pi * L) := by ring
  rw [e] at h1 h2
  constructor <;> linarith [h1.1, h1.2, h2.1, h2.2]

/-- C141: the lower limit `1e-10` of the wave numbers in raw_PFA.py changes the high-temperature value of plates of any
materials by at most `1e-10/(4πL)`. -/
theorem C141_highT_limit (hq : q.Exact) (h : p.Ok) (hL : 0 < L) :
    ∃ v w, p.freeEnergyHT q 1e-10 L false = .ok v ∧ p.freeEnergy q .inf L false = .ok w ∧ |v - w| ≤ 1e-10 / (4 * Real.pi * L) := by
  refine ⟨_, _, highRaw_val hq h hL (by norm_num), ?_, highRaw_near h hL (by norm_num)⟩
  exact highRaw_val hq h hL le_rfl

theorem highRaw_meas (p : PFA) (a : ℝ) : Measurable (highRaw p a) := by
  obtain ⟨a1, a2⟩ := refl_meas p.mat1 p.matMd 1e-20
  obtain ⟨b1, b2⟩ := refl_meas p.mat2 p.matMd 1e-20
  have ha1 : Measurable (fun z : ℝ × ℝ => reflTE p.mat1 p.matMd z.2 1e-20) := a1.comp measurable_snd
  have ha2 : Measurable (fun z : ℝ × ℝ => reflTM p.mat1 p.matMd z.2 1e-20) := a2.comp measurable_snd
  have hb1 : Measurable (fun z : ℝ × ℝ => reflTE p.mat2 p.matMd z.2 1e-20) := b1.comp measurable_snd
  have hb2 : Measurable (fun z : ℝ × ℝ => reflTM p.mat2 p.matMd z.2 1e-20) := b2.comp measurable_snd
  have h1 : Measurable (fun z : ℝ × ℝ => z.2 / (2 * Real.pi) * p.logTE z.1 1e-20 z.2) := by
    unfold logTE te kapV; fun_prop
  have h2 : Measurable (fun z : ℝ × ℝ => z.2 / (2 * Real.pi) * p.logTM z.1 1e-20 z.2) := by
    unfold logTM tm kapV; fun_prop
  exact ((StronglyMeasurable.integral_prod_right (ν := volume.restrict (Ioi a)) h1.stronglyMeasurable).measurable.add
    (StronglyMeasurable.integral_prod_right (ν := volume.restrict (Ioi a)) h2.stronglyMeasurable).measurable).div_const 2

/-! ## Forces and energies -/

theorem rawForce_val {r1 r2 v : ℝ} {T : Temp} {s ext : Bool} (h1 : 0 < r1) (h2 : 0 < r2) (he : ext = false → r1 < r2)
    (hv : p.rawPlane q T L s = .ok v) : p.rawSphereForce q r1 r2 T L s ext = .ok (2 * Real.pi * effRad r1 r2 ext * v) := by
  unfold PFA.rawSphereForce effRad
  rw [cdiv_ok (by positivity : r1 + r2 ≠ 0), ok_bind]
  cases ext
  · have := he rfl
    simp only [Bool.false_eq_true, if_false]
    rw [cdiv_ok (by linarith : r2 - r1 ≠ 0), ok_bind, hv, ok_bind]
    congr 1; ring
  · simp only [if_true, ok_bind]
    rw [hv, ok_bind]
    congr 1; ring

theorem effRad_pos {r1 r2 : ℝ} {ext : Bool} (h1 : 0 < r1) (h2 : 0 < r2) (he : ext = false → r1 < r2) : 0 < effRad r1 r2 ext := by
  unfold effRad
  cases ext
  · have := sub_pos.2 (he rfl)
    simp only [Bool.false_eq_true, if_false]; positivity
  · simp only [if_true]; positivity

/-- perfect mirrors in vacuum -/
abbrev vacMirrors : PFA := mirrors ⟨.lorentz, [], none⟩

theorem vacMirrors_ok : vacMirrors.Ok := mirrors_Ok (by simp) vacuum_ok

theorem li3_one_le : 1 ≤ li 3 1 := by
  have := (summable_li (z := 1) (by norm_num) le_rfl (s := 3) (by norm_num)).hasSum
  have h := le_hasSum this 0 (fun n _ => by positivity)
  simpa [li] using h

theorem inv_sq_integral {a : ℝ} (ha : 0 < a) : IntegrableOn (fun x : ℝ => 1 / x ^ 2) (Ioi a) ∧ ∫ x in Ioi a, 1 / x ^ 2 = 1 / a := by
  have e : ∀ x ∈ Ioi a, (x : ℝ) ^ (-(2:ℝ)) = 1 / x ^ 2 := fun x hx => by
    have hx : 0 < x := ha.trans hx
    rw [Real.rpow_neg hx.le, Real.rpow_ofNat, one_div]
  constructor
  · exact (integrableOn_Ioi_rpow_of_lt (by norm_num : (-(2:ℝ)) < -1) ha).congr_fun e measurableSet_Ioi
  · rw [← setIntegral_congr_fun measurableSet_Ioi e, integral_Ioi_rpow_of_lt (by norm_num) ha]
    rw [show (-(2:ℝ)) + 1 = -1 by norm_num, Real.rpow_neg_one]
    norm_num

theorem inv_cube_integral {a : ℝ} (ha : 0 < a) :
    IntegrableOn (fun x : ℝ => 1 / x ^ 3) (Ioi a) ∧ ∫ x in Ioi a, 1 / x ^ 3 = 1 / (2 * a ^ 2) := by
  have e : ∀ x ∈ Ioi a, (x : ℝ) ^ (-(3:ℝ)) = 1 / x ^ 3 := fun x hx => by
    have hx : 0 < x := ha.trans hx
    rw [Real.rpow_neg hx.le, Real.rpow_ofNat, one_div]
  constructor
  · exact (integrableOn_Ioi_rpow_of_lt (by norm_num : (-(3:ℝ)) < -1) ha).congr_fun e measurableSet_Ioi
  · rw [← setIntegral_congr_fun measurableSet_Ioi e, integral_Ioi_rpow_of_lt (by norm_num) ha]
    rw [show (-(3:ℝ)) + 1 = -2 by norm_num, Real.rpow_neg ha.le, Real.rpow_ofNat]
    field_simp

/-! ## High temperatures: half of the work -/

theorem high_bounds (hL : 0 < L) : -(li 3 1 / (8 * Real.pi * L ^ 2)) ≤ highRaw vacMirrors 0 L ∧
    highRaw vacMirrors 0 L ≤ -(li 3 1 / (8 * Real.pi * L ^ 2)) + 1e-20 * Real.pi / (24 * L) := by
  obtain ⟨F, hF, a, b⟩ := C86_highT exactQuad_exact hL
  have e : vacMirrors.freeEnergy exactQuad .inf L false = .ok (highRaw vacMirrors 0 L) := highRaw_val exactQuad_exact vacMirrors_ok hL le_rfl
  rw [hF] at e
  rw [← Except.ok.inj e]
  exact ⟨a, b⟩

theorem mirrors_log_nonpos (hL : 0 < L) {k : ℝ} (hk : 0 < k) :
    k / (2 * Real.pi) * vacMirrors.logTE L 1e-20 k ≤ 0 ∧ k / (2 * Real.pi) * vacMirrors.logTM L 1e-20 k ≤ 0 := by
  have hpi := Real.pi_pos
  have hn : ((1e-20 : ℝ)) > 0 := by norm_num
  have hs : 0 < Real.sqrt (k ^ 2 + kap0 ⟨.lorentz, [], none⟩ 1e-20 ^ 2) := Real.sqrt_pos.2 (by positivity)
  have hl : Real.log (1 - Real.exp (-2 * Real.sqrt (k ^ 2 + kap0 ⟨.lorentz, [], none⟩ 1e-20 ^ 2) * L)) ≤ 0 := by
    apply Real.log_nonpos
    · have : Real.exp (-2 * Real.sqrt (k ^ 2 + kap0 ⟨.lorentz, [], none⟩ 1e-20 ^ 2) * L) ≤ 1 := by
        rw [Real.exp_le_one_iff]
        have := mul_pos hs hL
        linarith
      linarith
    · linarith [Real.exp_pos (-2 * Real.sqrt (k ^ 2 + kap0 ⟨.lorentz, [], none⟩ 1e-20 ^ 2) * L)]
  have hp : 0 ≤ k / (2 * Real.pi) := by positivity
  have e := kapV_eq (md := ⟨.lorentz, [], none⟩) (kperp := k) (by simp) vacuum_ok hn
  constructor
  · refine mul_nonpos_of_nonneg_of_nonpos hp ?_
    simp only [logTE, PFA.te, reflTE, mirrors, perfectConductor, if_true, e]
    norm_num
    norm_num at hl
    exact hl
  · refine mul_nonpos_of_nonneg_of_nonpos hp ?_
    simp only [logTM, PFA.tm, reflTM, mirrors, perfectConductor, if_true, e]
    norm_num
    norm_num at hl
    exact hl

theorem highRaw_mirrors (hL : 0 < L) : -(li 3 1 / (8 * Real.pi * L ^ 2)) ≤ highRaw vacMirrors 1e-10 L ∧
    highRaw vacMirrors 1e-10 L ≤ -(li 3 1 / (8 * Real.pi * L ^ 2)) + 1e-10 / L ∧ highRaw vacMirrors 1e-10 L ≤ 0 := by
  have hpi := Real.pi_pos
  have hk : (0:ℝ) < 1e-20 := by norm_num
  obtain ⟨lo, hi⟩ := high_bounds hL
  have hn := (abs_le.1 (highRaw_near vacMirrors_ok hL (by norm_num : (0:ℝ) ≤ 1e-10))).2
  have hsub : Ioi (1e-10 : ℝ) ⊆ Ioi 0 := Ioi_subset_Ioi (by norm_num)
  have mono : ∀ f : ℝ → ℝ, IntegrableOn f (Ioi 0) → (∀ k, 0 < k → f k ≤ 0) → ∫ k in Ioi 0, f k ≤ ∫ k in Ioi (1e-10 : ℝ), f k := by
    intro f hf h0
    have := setIntegral_mono_set (f := fun k => -f k) hf.neg
      (by filter_upwards [ae_restrict_mem measurableSet_Ioi] with k hk; simpa using h0 k hk) (LE.le.eventuallyLE hsub)
    rw [integral_neg, integral_neg] at this
    linarith
  refine ⟨lo.trans ?_, ?_, ?_⟩
  · have a := mono _ (intTE_ok vacMirrors_ok hk hL).1 (fun k hk => (mirrors_log_nonpos hL hk).1)
    have b := mono _ (intTM_ok vacMirrors_ok hk hL).1 (fun k hk => (mirrors_log_nonpos hL hk).2)
    unfold highRaw
    linarith
  · have e1 : 1e-10 / (4 * Real.pi * L) ≤ 0.1e-10 / L := by
      rw [div_le_div_iff₀ (by positivity) hL]
      have := mul_lt_mul_of_pos_right Real.pi_gt_three hL
      nlinarith
    have e2 : 1e-20 * Real.pi / (24 * L) ≤ 0.1e-10 / L := by
      rw [div_le_div_iff₀ (by positivity) hL]
      have := mul_lt_mul_of_pos_right Real.pi_lt_four hL
      nlinarith
    have e3 : 0.1e-10 / L + 0.1e-10 / L ≤ 1e-10 / L := by
      rw [← add_div]
      gcongr
      norm_num
    linarith
  · have a : ∫ k in Ioi (1e-10 : ℝ), k / (2 * Real.pi) * vacMirrors.logTE L 1e-20 k ≤ 0 :=
      setIntegral_nonpos measurableSet_Ioi fun k hk => (mirrors_log_nonpos hL (hsub hk)).1
    have b : ∫ k in Ioi (1e-10 : ℝ), k / (2 * Real.pi) * vacMirrors.logTM L 1e-20 k ≤ 0 :=
      setIntegral_nonpos measurableSet_Ioi fun k hk => (mirrors_log_nonpos hL (hsub hk)).2
    unfold highRaw
    linarith

theorem highRaw_integrable (hL : 0 < L) : IntegrableOn (highRaw vacMirrors 1e-10) (Ioi L) := by
  have hpi := Real.pi_pos
  have hi := (inv_sq_integral hL).1.const_mul (li 3 1 / (8 * Real.pi))
  refine hi.mono' (highRaw_meas _ _).aestronglyMeasurable ?_
  filter_upwards [ae_restrict_mem measurableSet_Ioi] with x hx
  have hx : 0 < x := hL.trans hx
  obtain ⟨a, -, c⟩ := highRaw_mirrors hx
  rw [Real.norm_eq_abs, abs_of_nonpos c]
  have e : li 3 1 / (8 * Real.pi) * (1 / x ^ 2) = li 3 1 / (8 * Real.pi * x ^ 2) := by field_simp
  rw [e]
  linarith

theorem highRaw_work (hL : 0 < L) : ∫ x in Ioi L, highRaw vacMirrors 1e-10 x ≤ -(li 3 1 / (8 * Real.pi)) * (9 / (10 * L)) + 9e-10 := by
  have hpi := Real.pi_pos
  have hi := highRaw_integrable hL
  have hsub : Ioc L (10 * L) ⊆ Ioi L := fun x hx => hx.1
  have s1 : ∫ x in Ioi L, highRaw vacMirrors 1e-10 x ≤ ∫ x in Ioc L (10 * L), highRaw vacMirrors 1e-10 x := by
    have := setIntegral_mono_set (f := fun k => -highRaw vacMirrors 1e-10 k) hi.neg
      (by
        filter_upwards [ae_restrict_mem measurableSet_Ioi] with k hk
        simpa using (highRaw_mirrors (hL.trans hk)).2.2) (LE.le.eventuallyLE hsub)
    rw [integral_neg, integral_neg] at this
    linarith
  have hsq := (inv_sq_integral hL)
  have e : ∫ x in Ioc L (10 * L), 1 / x ^ 2 = 9 / (10 * L) := by
    have := setIntegral_union (f := fun x : ℝ => 1 / x ^ 2) (μ := volume) (Set.Ioc_disjoint_Ioi (a := L) (b := 10 * L) le_rfl) measurableSet_Ioi
      (hsq.1.mono_set Ioc_subset_Ioi_self) (hsq.1.mono_set (Ioi_subset_Ioi (by linarith)))
    rw [Ioc_union_Ioi_eq_Ioi (by linarith), hsq.2, (inv_sq_integral (by positivity : 0 < 10 * L)).2] at this
    have e2 : 1 / L - 1 / (10 * L) = 9 / (10 * L) := by field_simp; norm_num
    linarith
  have s2 : ∫ x in Ioc L (10 * L), highRaw vacMirrors 1e-10 x ≤ ∫ x in Ioc L (10 * L), (-(li 3 1 / (8 * Real.pi)) * (1 / x ^ 2) + 1e-10 / L) := by
    refine setIntegral_mono_on (hi.mono_set hsub) (((hsq.1.mono_set hsub).const_mul _).add (integrableOn_const (by simp))) measurableSet_Ioc fun x hx => ?_
    have hx0 : 0 < x := hL.trans hx.1
    refine (highRaw_mirrors hx0).2.1.trans ?_
    have e : -(li 3 1 / (8 * Real.pi)) * (1 / x ^ 2) = -(li 3 1 / (8 * Real.pi * x ^ 2)) := by field_simp
    rw [e]
    have : 1e-10 / x ≤ 1e-10 / L := by
      have := hx.1.le
      gcongr
    linarith
  refine s1.trans (s2.trans (le_of_eq ?_))
  rw [integral_add ((hsq.1.mono_set hsub).const_mul _) (integrableOn_const (by simp)), integral_const_mul, e, setIntegral_const,
    Real.volume_real_Ioc_of_le (by linarith), smul_eq_mul]
  congr 1
  field_simp
  norm_num

/-- C141 is violated: in the high-temperature limit the energy that raw_PFA.py returns for perfectly reflecting spheres
in vacuum is at most 10/17 of the work of the force it returns, for all radii and all distances up to `10⁶`. -/
theorem C141_refuted (hq : q.Exact) {r1 r2 : ℝ} {ext : Bool} (h1 : 0 < r1) (h2 : 0 < r2) (he : ext = false → r1 < r2) (hL : 0 < L)
    (hL6 : L ≤ 10 ^ 6) :
    ∃ E A, vacMirrors.rawSphereEnergy q r1 r2 .inf L false ext = .ok E ∧
      IsWork (fun x => vacMirrors.rawSphereForce q r1 r2 .inf x false ext) L A ∧ A ≤ 1.7 * E ∧ E < 0 := by
  have hpi := Real.pi_pos
  have hW := effRad_pos h1 h2 he
  have hz := li3_one_le
  have hF : ∀ x, 0 < x → vacMirrors.rawSphereForce q r1 r2 .inf x false ext = .ok (2 * Real.pi * effRad r1 r2 ext * highRaw vacMirrors 1e-10 x) :=
    fun x hx => rawForce_val h1 h2 he (highRaw_val hq vacMirrors_ok hx (by norm_num))
  refine ⟨_, _, C89_energy_force (hF L hL), ⟨_, fun x hx => hF x (hL.trans hx), (highRaw_integrable hL).const_mul _, rfl⟩, ?_, ?_⟩
  · rw [integral_const_mul]
    have hw := highRaw_work hL
    have hl := (highRaw_mirrors hL).1
    have key : ∫ x in Ioi L, highRaw vacMirrors 1e-10 x ≤ 1.7 * (L / 2 * highRaw vacMirrors 1e-10 L) := by
      have h3 : L / 2 * -(li 3 1 / (8 * Real.pi * L ^ 2)) ≤ L / 2 * highRaw vacMirrors 1e-10 L := mul_le_mul_of_nonneg_left hl (by positivity)
      have e1 : L / 2 * -(li 3 1 / (8 * Real.pi * L ^ 2)) = -(li 3 1 / (8 * Real.pi)) * (1 / (2 * L)) := by field_simp
      rw [e1] at h3
      have e2 : 9 / (10 * L) = 0.9 * (1 / L) := by field_simp; norm_num
      have e3 : 1 / (2 * L) = 0.5 * (1 / L) := by field_simp; norm_num
      rw [e2] at hw
      rw [e3] at h3
      have hinv : 1e-6 ≤ 1 / L := by
        rw [le_div_iff₀ hL]
        nlinarith
      have hc : 0.03 ≤ li 3 1 / (8 * Real.pi) := by
        rw [le_div_iff₀ (by positivity)]
        nlinarith [Real.pi_lt_d2]
      generalize li 3 1 / (8 * Real.pi) = c at *
      generalize 1 / L = y at *
      have : 0.03e-6 ≤ c * y := by nlinarith
      nlinarith
    have := mul_le_mul_of_nonneg_left key (by positivity : 0 ≤ 2 * Real.pi * effRad r1 r2 ext)
    linarith
  · have hu := (highRaw_mirrors hL).2.1
    have : highRaw vacMirrors 1e-10 L < 0 := by
      refine lt_of_le_of_lt hu ?_
      have e : -(li 3 1 / (8 * Real.pi * L ^ 2)) + 1e-10 / L = -(li 3 1 / (8 * Real.pi) - 1e-10 * L) / L ^ 2 := by field_simp; ring
      rw [e]
      apply div_neg_of_neg_of_pos _ (by positivity)
      have hc : 0.03 ≤ li 3 1 / (8 * Real.pi) := by
        rw [le_div_iff₀ (by positivity)]
        nlinarith [Real.pi_lt_d2]
      nlinarith
    have := mul_neg_of_pos_of_neg (by positivity : 0 < 2 * Real.pi * effRad r1 r2 ext) this
    exact mul_neg_of_pos_of_neg (by positivity) this

/-! ## Zero temperature: the work -/

theorem zero_integrable {T : Temp} (hL : 0 < L) {c : ℝ} (hT : T.Nonneg) (hc : ∀ x, 0 < x → -(c * (1 / x ^ 3)) ≤ vacMirrors.plateF false T x) :
    IntegrableOn (vacMirrors.plateF false T) (Ioi L) := by
  refine ((inv_cube_integral hL).1.const_mul c).mono' ?_ ?_
  · exact (PFA.plateF_meas vacMirrors_ok false T).mono_measure (Measure.restrict_mono (Ioi_subset_Ioi hL.le) le_rfl)
  · filter_upwards [ae_restrict_mem measurableSet_Ioi] with x hx
    have hx : 0 < x := hL.trans hx
    have a : vacMirrors.plateF false T x ≤ 0 := (PFA.plateF_equal (m := perfectConductor) (s := false) vacMirrors_ok hT).1 x hx
    rw [Real.norm_eq_abs, abs_of_nonpos a]
    have := hc x hx
    linarith

theorem rawPlane_zero (hq : q.Exact) (h : p.Ok) (hL : 0 < L) (s : Bool) : p.rawPlane q (.fin 0) L s = .ok (p.plateF false (.fin 0) L) := by
  obtain ⟨v, hv, hv'⟩ := C89_zero_temperature hq h hL s false
  rw [PFA.plateF_val (T := .fin 0) hq h le_rfl hL] at hv'
  rw [Except.ok.inj hv']
  unfold PFA.rawFreeEnergy at hv
  rw [if_pos rfl] at hv
  unfold PFA.rawPlane
  simp only [if_true]
  exact hv

/-- C141 (what is missing: temperatures other than zero, where it is false, and other materials): at zero temperature the
energy of perfectly reflecting spheres in vacuum is the work of the force up to the effect of the lower limit `1e-20` of
the frequencies. -/
theorem C141_zeroT_partial (hq : q.Exact) {r1 r2 : ℝ} {s ext : Bool} (h1 : 0 < r1) (h2 : 0 < r2) (he : ext = false → r1 < r2) (hL : 0 < L) :
    ∃ E A, vacMirrors.rawSphereEnergy q r1 r2 (.fin 0) L s ext = .ok E ∧
      IsWork (fun x => vacMirrors.rawSphereForce q r1 r2 (.fin 0) x s ext) L A ∧ |E - A| ≤ 1e-20 * effRad r1 r2 ext * li 3 1 / (2 * L) := by
  have hpi := Real.pi_pos
  have hW := effRad_pos h1 h2 he
  have hz := li3_one_le
  have hb : ∀ x, 0 < x → -(Real.pi ^ 3 / 360 * (1 / x ^ 3)) ≤ vacMirrors.plateF false (.fin 0) x ∧
      vacMirrors.plateF false (.fin 0) x ≤ -(Real.pi ^ 3 / 360 * (1 / x ^ 3)) + 1e-20 * li 3 1 / (4 * Real.pi) * (1 / x ^ 2) := by
    intro x hx
    obtain ⟨E, hE, a, b⟩ := C86_zeroT exactQuad_exact hx false
    rw [PFA.plateF_val (T := .fin 0) exactQuad_exact vacMirrors_ok le_rfl hx] at hE
    rw [Except.ok.inj hE]
    have e1 : Real.pi ^ 3 / 360 * (1 / x ^ 3) = Real.pi ^ 3 / (360 * x ^ 3) := by field_simp
    have e2 : 1e-20 * li 3 1 / (4 * Real.pi) * (1 / x ^ 2) = 1e-20 / (4 * Real.pi * x ^ 2) * li 3 1 := by field_simp
    rw [e1, e2]
    exact ⟨a, b⟩
  have hi := zero_integrable (T := .fin 0) hL le_rfl (fun x hx => (hb x hx).1)
  have hF : ∀ x, 0 < x → vacMirrors.rawSphereForce q r1 r2 (.fin 0) x s ext = .ok (2 * Real.pi * effRad r1 r2 ext * vacMirrors.plateF false (.fin 0) x) :=
    fun x hx => rawForce_val h1 h2 he (rawPlane_zero hq vacMirrors_ok hx s)
  refine ⟨_, _, C89_energy_force (hF L hL), ⟨_, fun x hx => hF x (hL.trans hx), hi.const_mul _, rfl⟩, ?_⟩
  rw [integral_const_mul]
  have c3 := inv_cube_integral hL
  have c2 := inv_sq_integral hL
  have i3 : IntegrableOn (fun x : ℝ => -(Real.pi ^ 3 / 360 * (1 / x ^ 3))) (Ioi L) := (c3.1.const_mul _).neg
  have w1 : -(Real.pi ^ 3 / 360 * (1 / (2 * L ^ 2))) ≤ ∫ x in Ioi L, vacMirrors.plateF false (.fin 0) x := by
    rw [← c3.2, ← integral_const_mul, ← integral_neg]
    exact setIntegral_mono_on i3 hi measurableSet_Ioi fun x hx => (hb x (hL.trans hx)).1
  have w2 : ∫ x in Ioi L, vacMirrors.plateF false (.fin 0) x ≤ -(Real.pi ^ 3 / 360 * (1 / (2 * L ^ 2))) + 1e-20 * li 3 1 / (4 * Real.pi) * (1 / L) := by
    rw [← c3.2, ← c2.2, ← integral_const_mul, ← integral_const_mul, ← integral_neg, ← integral_add i3 (c2.1.const_mul _)]
    exact setIntegral_mono_on hi (i3.add (c2.1.const_mul _)) measurableSet_Ioi fun x hx => (hb x (hL.trans hx)).2
  obtain ⟨b1, b2⟩ := hb L hL
  have hL2 : 0 ≤ L / 2 := by positivity
  have b1 := mul_le_mul_of_nonneg_left b1 hL2
  have b2 := mul_le_mul_of_nonneg_left b2 hL2
  have e1 : L / 2 * -(Real.pi ^ 3 / 360 * (1 / L ^ 3)) = -(Real.pi ^ 3 / 360 * (1 / (2 * L ^ 2))) := by field_simp
  have e2 : L / 2 * (-(Real.pi ^ 3 / 360 * (1 / L ^ 3)) + 1e-20 * li 3 1 / (4 * Real.pi) * (1 / L ^ 2)) =
      -(Real.pi ^ 3 / 360 * (1 / (2 * L ^ 2))) + 1e-20 * li 3 1 / (4 * Real.pi) * (1 / L) / 2 := by field_simp
  rw [e1] at b1
  rw [e2] at b2
  have hδ : 0 ≤ 1e-20 * li 3 1 / (4 * Real.pi) * (1 / L) := by positivity
  have e3 : 1e-20 * effRad r1 r2 ext * li 3 1 / (2 * L) = 2 * Real.pi * effRad r1 r2 ext * (1e-20 * li 3 1 / (4 * Real.pi) * (1 / L)) := by
    field_simp; norm_num
  have e4 : ∀ F I : ℝ, L / 2 * (2 * Real.pi * effRad r1 r2 ext * F) - 2 * Real.pi * effRad r1 r2 ext * I =
      2 * Real.pi * effRad r1 r2 ext * (L / 2 * F - I) := fun F I => by ring
  rw [e3, e4, abs_mul, abs_of_pos (by positivity : 0 < 2 * Real.pi * effRad r1 r2 ext)]
  refine mul_le_mul_of_nonneg_left ?_ (by positivity)
  rw [abs_le]
  constructor <;> linarith

/-- Two spheres of radius 1 at distance 1, and a sphere of radius 1 in one of radius 3. -/
example : ∃ E A, vacMirrors.rawSphereEnergy exactQuad 1 1 .inf 1 false true = .ok E ∧
    IsWork (fun x => vacMirrors.rawSphereForce exactQuad 1 1 .inf x false true) 1 A ∧ A ≤ 1.7 * E ∧ E < 0 :=
  C141_refuted exactQuad_exact one_pos one_pos (by simp) one_pos (by norm_num)

example : ∃ E A, vacMirrors.rawSphereEnergy exactQuad 1 3 (.fin 0) 1 false false = .ok E ∧
    IsWork (fun x => vacMirrors.rawSphereForce exactQuad 1 3 (.fin 0) x false false) 1 A ∧ |E - A| ≤ 1e-20 * effRad 1 3 false * li 3 1 / (2 * 1) :=
  C141_zeroT_partial exactQuad_exact one_pos (by norm_num) (by norm_num) one_pos

end CasSph
