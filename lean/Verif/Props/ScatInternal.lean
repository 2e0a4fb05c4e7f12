import Verif.Props.ScatPlasma

/-! # C46: `mie_internal_k0` and the low-frequency limit of `mie_internal` -/

namespace CasSph

open Spec Filter Topology Nat

/-- `c` is the limit `k → 0+` of the unscaled `mie_internal(k)` times `(n R k)^(2l+1)`, `n` the static refractive index
of the interior. -/
def MieIntLimit (T : BesTable) (m1 m2 : Material) (l : ℕ) (R : ℝ) (c : Mie) : Prop :=
  ∃ (e0 mu0 : ℝ) (v : ℝ → Mie), m1.epsilon 0 = .ok e0 ∧ m1.mu 0 = .ok mu0 ∧ 0 < e0 * mu0 ∧
    (∀ k, 0 < k → mieInternal T T m1 m2 l k R = .ok (v k)) ∧
    Tendsto (fun k => (v k).TE * Real.exp (v k).ln * (Real.sqrt (e0 * mu0) * R * k) ^ (2 * l + 1)) (𝓝[>] 0)
      (𝓝 (c.TE * Real.exp c.ln)) ∧
    Tendsto (fun k => (v k).TM * Real.exp (v k).ln * (Real.sqrt (e0 * mu0) * R * k) ^ (2 * l + 1)) (𝓝[>] 0)
      (𝓝 (c.TM * Real.exp c.ln))

theorem scale_int {T : BesTable} {l : ℕ} (hT : LowFreq T l) {M : Material} (hd : M.Dielectric) (hp : M.Physical)
    {R e0 : ℝ} (hR : 0 < R) (he : M.epsilon 0 = .ok e0) :
    Tendsto (fun k => Real.exp ((T l (k * R * (Medium.mk (M.epsV k) (M.muV k)).n)).k1 -
        (T l (k * R * (Medium.mk (M.epsV k) (M.muV k)).n)).i1) * (Real.sqrt (e0 * M.muV 0) * R * k) ^ (2 * l + 1))
      (𝓝[>] 0) (𝓝 (Real.pi / 2 * (((2 * l + 1)‼ : ℝ) * ((2 * l - 1)‼ : ℝ)))) := by
  have hpi := Real.pi_pos
  have d1 := dfac_pos (2 * l + 1)
  have d2 := dfac_pos (2 * l - 1)
  have h := (scale_ext hT hd hp hR he).inv₀ (by positivity)
  have e : (2 / Real.pi / (((2 * l + 1)‼ : ℝ) * ((2 * l - 1)‼ : ℝ)))⁻¹ =
      Real.pi / 2 * (((2 * l + 1)‼ : ℝ) * ((2 * l - 1)‼ : ℝ)) := by
    field_simp
  rw [e] at h
  refine h.congr ?_
  intro k
  rw [inv_div, div_eq_mul_inv, ← Real.exp_neg, neg_sub]
  ring

theorem prefak_scale_int {l : ℕ} (hl : 1 ≤ l) (q : ℝ) :
    q * ((-1) ^ l * 2 / Real.pi) * (Real.pi / 2 * (((2 * l + 1)‼ : ℝ) * ((2 * l - 1)‼ : ℝ))) =
      (-1) ^ l * q * Real.exp (Real.log (2 * l + 1) + 2 * ln2dbl l) := by
  rw [exp_lnc' hl]
  have := Real.pi_pos
  field_simp

/-- internal coefficients: only the ratio of the two responses matters -/
theorem ratio_int {F : Filter ℝ} {we wi Di Ki Ke : ℝ → ℝ} {s D d c : ℝ} (hwe : ∀ᶠ k in F, 0 < we k)
    (hs : Tendsto (fun k => wi k / we k) F (𝓝 s)) (hD : Tendsto Di F (𝓝 D)) (hd : Tendsto Ki F (𝓝 d))
    (hK : Tendsto Ke F (𝓝 c)) (h0 : D - s * c ≠ 0) :
    Tendsto (fun k => (we k * Ki k - wi k * Ke k) / (we k * Di k - wi k * Ke k)) F (𝓝 ((d - s * c) / (D - s * c))) := by
  have h := (hd.sub (hs.mul hK)).div (hD.sub (hs.mul hK)) h0
  refine h.congr' ?_
  filter_upwards [hwe] with k hk
  simp only [Pi.div_apply]
  have e1 : we k * Ki k - wi k * Ke k = we k * (Ki k - wi k / we k * Ke k) := by field_simp
  have e2 : we k * Di k - wi k * Ke k = we k * (Di k - wi k / we k * Ke k) := by field_simp
  rw [e1, e2, mul_div_mul_left _ _ hk.ne']

/-- value of `mieIntCore` -/
noncomputable def mieIntCoreV (l : ℕ) (kr : ℝ) (a b : Medium) (Bi Be : Bes) : Mie :=
  ⟨(b.mu * kdT l (kr * a.n) Bi - a.mu * kdT l (kr * b.n) Be) /
      (b.mu * idT l (kr * a.n) Bi - a.mu * kdT l (kr * b.n) Be) * ((-1) ^ l * 2 / Real.pi),
    (b.eps * kdT l (kr * a.n) Bi - a.eps * kdT l (kr * b.n) Be) /
      (b.eps * idT l (kr * a.n) Bi - a.eps * kdT l (kr * b.n) Be) * ((-1) ^ l * 2 / Real.pi),
    Bi.k1 - Bi.i1⟩

/-- the general low-frequency limit: `K` is the limit of `kd` outside, `s` that of `ε_i/ε_e` -/
theorem mieInt_limit_core {T : BesTable} {l : ℕ} (hl : 1 ≤ l) (hT : ∀ x, 0 < x → BesOK T l x) (hlow : LowFreq T l)
    {m1 m2 : Material} (hd1 : m1.Dielectric) (h1 : m1.Physical) (hm2 : m2.cls ≠ .pec) (h2 : m2.Physical) {R : ℝ}
    (hR : 0 < R) {K s : ℝ} (hK0 : K < 0) (hs0 : 0 ≤ s)
    (hK : Tendsto (fun k => kdT l (k * R * (Medium.mk (m2.epsV k) (m2.muV k)).n)
      (T l (k * R * (Medium.mk (m2.epsV k) (m2.muV k)).n))) (𝓝[>] 0) (𝓝 K))
    (hs : Tendsto (fun k => m1.epsV k / m2.epsV k) (𝓝[>] 0) (𝓝 s)) :
    MieIntLimit T m1 m2 l R ⟨(-1) ^ l * (-(m2.muV 0 * l + m1.muV 0 * K) / ((l + 1) * m2.muV 0 - m1.muV 0 * K)),
      (-1) ^ l * ((-l - s * K) / (l + 1 - s * K)), Real.log (2 * l + 1) + 2 * ln2dbl l⟩ := by
  have hm1 : m1.cls ≠ .pec := by rw [hd1.1]; simp
  obtain ⟨e0, he, he0, hlim⟩ := dielectric_static hd1 h1
  have l0 : (0 : ℝ) < l := by exact_mod_cast hl
  have mu1 := muV_pos h1 le_rfl
  have mu2 := muV_pos h2 le_rfl
  have hx := arg_zero hm1 h1 hR (sq_eps_dielectric hd1 h1)
  have hDi := idT_low hlow hx
  have hKi := kdT_low hlow hx
  have hsc := scale_int hlow hd1 h1 hR he
  refine ⟨e0, m1.muV 0, fun k => mieIntCoreV l (k * R) ⟨m1.epsV k, m1.muV k⟩ ⟨m2.epsV k, m2.muV k⟩
    (T l (k * R * (Medium.mk (m1.epsV k) (m1.muV k)).n)) (T l (k * R * (Medium.mk (m2.epsV k) (m2.muV k)).n)),
    he, mu_val h1 le_rfl, mul_pos he0 mu1, fun k hk => ?_, ?_, ?_⟩
  · rw [mieInternal_diel hm2 (medium_val hm1 h1 hk).1 (medium_val hm2 h2 hk).1]
    exact mieIntCore_ok ⟨(medium_val hm1 h1 hk).2, muV_pos h1 hk.le⟩ ⟨(medium_val hm2 h2 hk).2, muV_pos h2 hk.le⟩
      (idT_pos (hT _ (arg_pos hm1 h1 hR hk))) (kdT_neg hl (arg_pos hm2 h2 hR hk) _)
  · have hr := ratio_int (we := m2.muV) (wi := m1.muV) (s := m1.muV 0 / m2.muV 0)
      (by filter_upwards [self_mem_nhdsWithin] with k hk; exact muV_pos h2 (le_of_lt hk))
      ((muV_tendsto h1).div (muV_tendsto h2) mu2.ne') hDi hKi hK
      (by have : m1.muV 0 / m2.muV 0 * K < 0 := mul_neg_of_pos_of_neg (by positivity) hK0
          linarith)
    have h := (hr.mul_const ((-1) ^ l * 2 / Real.pi)).mul hsc
    rw [prefak_scale_int hl] at h
    have e : (-l - m1.muV 0 / m2.muV 0 * K) / (l + 1 - m1.muV 0 / m2.muV 0 * K) =
        -(m2.muV 0 * l + m1.muV 0 * K) / ((l + 1) * m2.muV 0 - m1.muV 0 * K) := by
      rw [← mul_div_mul_left _ _ mu2.ne']
      congr 1 <;> field_simp
      ring
    rw [e] at h
    refine h.congr ?_
    intro k
    unfold mieIntCoreV
    ring
  · have hr := ratio_int (we := m2.epsV) (wi := m1.epsV) (s := s)
      (by filter_upwards [self_mem_nhdsWithin] with k hk; exact (medium_val hm2 h2 hk).2)
      hs hDi hKi hK (by have : s * K ≤ 0 := mul_nonpos_of_nonneg_of_nonpos hs0 hK0.le
                        linarith)
    have h := (hr.mul_const ((-1) ^ l * 2 / Real.pi)).mul hsc
    rw [prefak_scale_int hl] at h
    refine h.congr ?_
    intro k
    unfold mieIntCoreV
    ring

theorem mieInternalK0_start {lnK : ℝ → ℕ → ℝ} {m1 m2 : Material} (hd1 : m1.Dielectric) (h1 : m1.Physical)
    (h2 : m2.Physical) {e0 : ℝ} (he : m1.epsilon 0 = .ok e0) {lmin l : ℕ} {R : ℝ} :
    mieInternalK0 lnK m1 m2 lmin l R = (do
      match m2.cls with
      | .pec => .ok ⟨(-1) ^ l * 1, -(-1) ^ l * (l / (l + 1)), Real.log (2 * l + 1) + 2 * ln2dbl l⟩
      | _ =>
        let wPR := match m2.firstWp with
          | .ok w => w * R / 2.998e14
          | .error _ => 0
        if ¬ m2.sigmaFinite then
          if lmin ≠ 1 then .error .valueError
          else
            let kr := Real.exp (lnK wPR (l - 1) - lnK wPR l) * wPR / (2 * l - 1)
            let kf := -l - wPR * kr
            let bTE ← cdiv (-(m2.muV 0 * l + m1.muV 0 * kf)) ((l + 1) * m2.muV 0 - m1.muV 0 * kf)
            .ok ⟨(-1) ^ l * bTE, -(-1) ^ l * (l / (l + 1)), Real.log (2 * l + 1) + 2 * ln2dbl l⟩
        else
          let bTE ← cdiv ((-m2.muV 0 + m1.muV 0) * l) (l * (m1.muV 0 + m2.muV 0) + m2.muV 0)
          let diel2 ← m2.dielectric
          if diel2 then
            let epsE ← m2.epsilon 0
            let epsI ← m1.epsilon 0
            let q ← cdiv (l * (epsE - epsI)) ((l + 1) * epsE + epsI * l)
            .ok ⟨(-1) ^ l * bTE, -(-1) ^ l * q, Real.log (2 * l + 1) + 2 * ln2dbl l⟩
          else .ok ⟨(-1) ^ l * bTE, -(-1) ^ l * (l / (l + 1)), Real.log (2 * l + 1) + 2 * ln2dbl l⟩ : Res Mie) := by
  obtain ⟨f1, f2⟩ := dielectric_flags hd1
  unfold mieInternalK0
  rw [mu_val h1 le_rfl, ok_bind, mu_val h2 le_rfl, ok_bind, f1, f2]
  simp only [ok_bind, not_true_eq_false, if_false]
  rw [he]
  rfl

/-- C46, perfectly conducting exterior. -/
theorem C46_pec {T : BesTable} {l : ℕ} (hl : 1 ≤ l) (hT : ∀ x, 0 < x → BesOK T l x) (hlow : LowFreq T l)
    {m1 m2 : Material} (hd1 : m1.Dielectric) (h1 : m1.Physical) (hm2 : m2.cls = .pec) (h2 : m2.Physical) {R : ℝ}
    (hR : 0 < R) (lnK : ℝ → ℕ → ℝ) (lmin : ℕ) :
    ∃ c, mieInternalK0 lnK m1 m2 lmin l R = .ok c ∧ MieIntLimit T m1 m2 l R c := by
  have hm1 : m1.cls ≠ .pec := by rw [hd1.1]; simp
  obtain ⟨e0, he, he0, hlim⟩ := dielectric_static hd1 h1
  have l0 : (0 : ℝ) < l := by exact_mod_cast hl
  have mu1 := muV_pos h1 le_rfl
  have hx := arg_zero hm1 h1 hR (sq_eps_dielectric hd1 h1)
  have hDi := idT_low hlow hx
  have hKi := kdT_low hlow hx
  have hsc := scale_int hlow hd1 h1 hR he
  refine ⟨⟨(-1) ^ l * 1, -(-1) ^ l * (l / (l + 1)), Real.log (2 * l + 1) + 2 * ln2dbl l⟩, ?_, ?_⟩
  · rw [mieInternalK0_start hd1 h1 h2 he, hm2]
  · refine ⟨e0, m1.muV 0, fun k => ⟨(-1) ^ l * 2 / Real.pi, (-1) ^ l * 2 / Real.pi *
      (kdT l (k * R * (Medium.mk (m1.epsV k) (m1.muV k)).n) (T l (k * R * (Medium.mk (m1.epsV k) (m1.muV k)).n)) /
      idT l (k * R * (Medium.mk (m1.epsV k) (m1.muV k)).n) (T l (k * R * (Medium.mk (m1.epsV k) (m1.muV k)).n))),
      (T l (k * R * (Medium.mk (m1.epsV k) (m1.muV k)).n)).k1 - (T l (k * R * (Medium.mk (m1.epsV k) (m1.muV k)).n)).i1⟩,
      he, mu_val h1 le_rfl, mul_pos he0 mu1, fun k hk => ?_, ?_, ?_⟩
    · rw [mieInternal_pec hm2 (medium_val hm1 h1 hk).1]
      exact miePECIntCore_ok (idT_pos (hT _ (arg_pos hm1 h1 hR hk)))
    · have h := hsc.const_mul (1 * ((-1) ^ l * 2 / Real.pi))
      rw [prefak_scale_int hl] at h
      refine h.congr ?_
      intro k
      ring
    · have hr := hKi.div hDi (by positivity)
      have h := (hr.mul_const ((-1) ^ l * 2 / Real.pi)).mul hsc
      rw [prefak_scale_int hl] at h
      have e : (-1 : ℝ) ^ l * (-l / (l + 1)) = -(-1) ^ l * (l / (l + 1)) := by rw [neg_div]; ring
      rw [e] at h
      refine h.congr ?_
      intro k
      simp only [Pi.div_apply]
      ring

/-- C46, dielectric exterior (both possibly magnetic). -/
theorem C46_dielectric {T : BesTable} {l : ℕ} (hl : 1 ≤ l) (hT : ∀ x, 0 < x → BesOK T l x) (hlow : LowFreq T l)
    {m1 m2 : Material} (hd1 : m1.Dielectric) (h1 : m1.Physical) (hd2 : m2.Dielectric) (h2 : m2.Physical) {R : ℝ}
    (hR : 0 < R) (lnK : ℝ → ℕ → ℝ) (lmin : ℕ) :
    ∃ c, mieInternalK0 lnK m1 m2 lmin l R = .ok c ∧ MieIntLimit T m1 m2 l R c := by
  have hm2 : m2.cls ≠ .pec := by rw [hd2.1]; simp
  obtain ⟨e0, he, he0, hlim⟩ := dielectric_static hd1 h1
  obtain ⟨e2, he2, he20, hlim2⟩ := dielectric_static hd2 h2
  have l0 : (0 : ℝ) < l := by exact_mod_cast hl
  have mu1 := muV_pos h1 le_rfl
  have mu2 := muV_pos h2 le_rfl
  obtain ⟨f1, f2⟩ := dielectric_flags hd2
  have hx := arg_zero hm2 h2 hR (sq_eps_dielectric hd2 h2)
  have key := mieInt_limit_core hl hT hlow hd1 h1 hm2 h2 hR (K := -l) (s := e0 / e2) (by linarith) (by positivity)
    (kdT_low hlow hx) (hlim.div hlim2 he20.ne')
  refine ⟨_, ?_, key⟩
  rw [mieInternalK0_start hd1 h1 h2 he, hd2.1]
  simp only
  rw [f1, f2]
  simp only [ok_bind, not_true_eq_false, if_false, if_true]
  rw [he, he2]
  simp only [ok_bind]
  rw [cdiv_ok (by positivity), ok_bind, cdiv_ok (by positivity), ok_bind]
  congr 2
  · rw [show -(m2.muV 0 * l + m1.muV 0 * -l) = (-m2.muV 0 + m1.muV 0) * l by ring,
      show (l + 1) * m2.muV 0 - m1.muV 0 * -l = l * (m1.muV 0 + m2.muV 0) + m2.muV 0 by ring]
  · have d1 : (0 : ℝ) < (l + 1) * e2 + e0 * l := by positivity
    have d2 : (0 : ℝ) < l + 1 - e0 / e2 * -l := by
      have : (l : ℝ) + 1 - e0 / e2 * -l = l + 1 + e0 / e2 * l := by ring
      rw [this]; positivity
    rw [neg_mul, ← mul_neg]
    congr 1
    rw [← neg_div, div_eq_div_iff d1.ne' d2.ne']
    field_simp
    ring

/-- C46, conducting exterior of finite conductivity. -/
theorem C46_conductor {T : BesTable} {l : ℕ} (hl : 1 ≤ l) (hT : ∀ x, 0 < x → BesOK T l x) (hlow : LowFreq T l)
    {m1 m2 : Material} (hd1 : m1.Dielectric) (h1 : m1.Physical) (hc2 : m2.Conductor) (h2 : m2.Physical) {R : ℝ}
    (hR : 0 < R) (lnK : ℝ → ℕ → ℝ) (lmin : ℕ) :
    ∃ c, mieInternalK0 lnK m1 m2 lmin l R = .ok c ∧ MieIntLimit T m1 m2 l R c := by
  have hm2 := hc2.cls
  obtain ⟨e0, he, he0, hlim⟩ := dielectric_static hd1 h1
  obtain ⟨hinv, hsq⟩ := conductor_limits hc2 h2
  have l0 : (0 : ℝ) < l := by exact_mod_cast hl
  have mu1 := muV_pos h1 le_rfl
  have mu2 := muV_pos h2 le_rfl
  obtain ⟨f1, f2⟩ := conductor_flags hc2
  have hx := arg_zero hm2 h2 hR hsq
  have hs : Tendsto (fun k => m1.epsV k / m2.epsV k) (𝓝[>] 0) (𝓝 0) := by
    have := hlim.mul hinv
    rw [mul_zero] at this
    refine this.congr ?_
    intro k; ring
  have key := mieInt_limit_core hl hT hlow hd1 h1 hm2 h2 hR (K := -l) (s := 0) (by linarith) le_rfl
    (kdT_low hlow hx) hs
  refine ⟨_, ?_, key⟩
  rw [mieInternalK0_start hd1 h1 h2 he]
  have : ∀ {X Y : Res Mie}, (match m2.cls with | .pec => X | _ => Y) = Y := by
    intro X Y
    cases h : m2.cls with
    | pec => exact absurd h hm2
    | smith => rfl
    | lorentz => rfl
  rw [this, f1, f2]
  simp only [ok_bind, not_true_eq_false, if_false]
  rw [cdiv_ok (by positivity), ok_bind]
  simp only [Bool.false_eq_true, if_false]
  congr 2
  · rw [show -(m2.muV 0 * l + m1.muV 0 * -l) = (-m2.muV 0 + m1.muV 0) * l by ring,
      show (l + 1) * m2.muV 0 - m1.muV 0 * -l = l * (m1.muV 0 + m2.muV 0) + m2.muV 0 by ring]
  · rw [zero_mul, sub_zero, sub_zero, neg_div]; ring

/-! ## plasma exterior -/

/-- `(x k_l)'/k_l` at `x`: the value of `kd` with exact Bessel functions -/
noncomputable def kdX (l : ℕ) (x : ℝ) : ℝ := -l - x * (sphK (l - 1) x / sphK l x)

theorem kdT_exact {l : ℕ} {x : ℝ} (hx : 0 < x) : kdT l x (exactBes l x) = kdX l x := by
  unfold kdT kdX; rw [exactBes_k hx]

theorem kdX_neg {l : ℕ} (hl : 1 ≤ l) {x : ℝ} (hx : 0 < x) : kdX l x < 0 := by
  rw [← kdT_exact hx]; exact kdT_neg hl hx _

theorem kdX_cont (l : ℕ) {x : ℝ} (hx : 0 < x) : ContinuousAt (kdX l) x := by
  have h1 := (sphK_deriv (l - 1) hx).continuousAt
  have h2 := (sphK_deriv l hx).continuousAt
  unfold kdX
  exact continuousAt_const.sub (continuousAt_id.mul (h1.div h2 (sphK_pos l hx).ne'))

/-- C46: the true low-frequency limit for a plasma exterior. -/
theorem C46_plasma_true_limit {l : ℕ} (hl : 1 ≤ l) {m1 m2 : Material} (hd1 : m1.Dielectric) (h1 : m1.Physical)
    (hP : m2.Plasma) (h2 : m2.Physical) {R : ℝ} (hR : 0 < R) :
    MieIntLimit exactBes m1 m2 l R
      ⟨(-1) ^ l * (-(m2.muV 0 * l + m1.muV 0 * kdX l (R * Real.sqrt (m2.wSq * m2.muV 0))) /
        ((l + 1) * m2.muV 0 - m1.muV 0 * kdX l (R * Real.sqrt (m2.wSq * m2.muV 0)))),
      (-1) ^ l * (-l / (l + 1)), Real.log (2 * l + 1) + 2 * ln2dbl l⟩ := by
  have hm2 : m2.cls ≠ .pec := by rw [hP.cls]; simp
  have mu2 := muV_pos h2 le_rfl
  have hx0 : 0 < R * Real.sqrt (m2.wSq * m2.muV 0) := mul_pos hR (Real.sqrt_pos.2 (mul_pos (wSq_pos hP) mu2))
  have hx := arg_tendsto hm2 h2 (R := R) (sq_eps_lorentz hP.cls h2)
  have hK : Tendsto (fun k => kdT l (k * R * (Medium.mk (m2.epsV k) (m2.muV k)).n)
      (exactBes l (k * R * (Medium.mk (m2.epsV k) (m2.muV k)).n))) (𝓝[>] 0)
      (𝓝 (kdX l (R * Real.sqrt (m2.wSq * m2.muV 0)))) := by
    refine ((kdX_cont l hx0).tendsto.comp hx).congr' ?_
    filter_upwards [self_mem_nhdsWithin] with k hk
    rw [kdT_exact (arg_pos hm2 h2 hR hk)]
    rfl
  obtain ⟨e0, he, he0, hlim⟩ := dielectric_static hd1 h1
  obtain ⟨p, hp, hp1, hp2, hp3⟩ := hP.free
  have hinv := inv_eps_lorentz hP.cls h2 ⟨p, hp, hp1, hp2⟩
  have hs : Tendsto (fun k => m1.epsV k / m2.epsV k) (𝓝[>] 0) (𝓝 0) := by
    have := hlim.mul hinv
    rw [mul_zero] at this
    refine this.congr ?_
    intro k; ring
  have key := mieInt_limit_core hl (C42_exact_table hl) (exactBes_low hl) hd1 h1 hm2 h2 hR (kdX_neg hl hx0) le_rfl hK hs
  rw [zero_mul, sub_zero, sub_zero] at key
  exact key

theorem mieIntLimit_unique {T : BesTable} {m1 m2 : Material} {l : ℕ} {R : ℝ} {c c' : Mie} (h : MieIntLimit T m1 m2 l R c)
    (h' : MieIntLimit T m1 m2 l R c') : c.TE * Real.exp c.ln = c'.TE * Real.exp c'.ln := by
  obtain ⟨e, m, v, he, hm, -, hv, h1, h2⟩ := h
  obtain ⟨e', m', v', he', hm', -, hv', h1', h2'⟩ := h'
  rw [he] at he'; rw [hm] at hm'
  have he' := Except.ok.inj he'
  have hm' := Except.ok.inj hm'
  subst he' hm'
  refine tendsto_nhds_unique h1 (h1'.congr' ?_)
  filter_upwards [self_mem_nhdsWithin] with k hk
  have := hv k hk
  rw [hv' k hk] at this
  rw [Except.ok.inj this]

/-- the value the code uses in place of `kdX` -/
noncomputable def kdCode (l : ℕ) (x : ℝ) : ℝ := -l - x * (sphK (l - 1) x / sphK l x * x / (2 * l - 1))

theorem mieInternalK0_plasma {m1 m2 : Material} (hd1 : m1.Dielectric) (h1 : m1.Physical) (hP : m2.Plasma)
    (h2 : m2.Physical) {l : ℕ} (hl : 1 ≤ l) {R w : ℝ} (hR : 0 < R) (hw0 : 0 < w) (hw : m2.firstWp = .ok w) :
    mieInternalK0 lnk1 m1 m2 1 l R = .ok
      ⟨(-1) ^ l * (-(m2.muV 0 * l + m1.muV 0 * kdCode l (w * R / omegaNorm)) /
        ((l + 1) * m2.muV 0 - m1.muV 0 * kdCode l (w * R / omegaNorm))),
        (-1) ^ l * (-l / (l + 1)), Real.log (2 * l + 1) + 2 * ln2dbl l⟩ ∧ kdCode l (w * R / omegaNorm) < 0 := by
  obtain ⟨e0, he, he0, hlim⟩ := dielectric_static hd1 h1
  have mu1 := muV_pos h1 le_rfl
  have mu2 := muV_pos h2 le_rfl
  have l0 : (1 : ℝ) ≤ l := by exact_mod_cast hl
  have hsf : m2.sigmaFinite = false := by
    unfold Material.sigmaFinite
    rw [hP.cls]
    exact (C58_sigma_finite_iff _ fun p hp => (h2.osc p hp).2).2 hP.free
  have ho : omegaNorm = 2.998e14 := by unfold omegaNorm; norm_num
  have hx : 0 < w * R / omegaNorm := div_pos (mul_pos hw0 hR) omegaNorm_pos
  have k1 := sphK_pos l hx
  have k0 := sphK_pos (l - 1) hx
  have hneg : kdCode l (w * R / omegaNorm) < 0 := by
    unfold kdCode
    have : (0 : ℝ) < 2 * l - 1 := by linarith
    have : 0 < w * R / omegaNorm * (sphK (l - 1) (w * R / omegaNorm) / sphK l (w * R / omegaNorm) * (w * R / omegaNorm) /
      (2 * l - 1)) := by positivity
    linarith
  refine ⟨?_, hneg⟩
  rw [mieInternalK0_start hd1 h1 h2 he, hP.cls]
  simp only
  rw [hsf, hw]
  simp only [Bool.false_eq_true, not_false_eq_true, if_true, ne_eq, not_true_eq_false, if_false]
  rw [← ho, Real.exp_sub, exp_lnk1 hx, exp_lnk1 hx]
  have e : -(l : ℝ) - w * R / omegaNorm * (sphK (l - 1) (w * R / omegaNorm) / sphK l (w * R / omegaNorm) *
      (w * R / omegaNorm) / (2 * l - 1)) = kdCode l (w * R / omegaNorm) := rfl
  rw [e]
  have hd : 0 < (l + 1) * m2.muV 0 - m1.muV 0 * kdCode l (w * R / omegaNorm) := by
    have := mul_neg_of_pos_of_neg mu1 hneg
    have : 0 < ((l : ℝ) + 1) * m2.muV 0 := by positivity
    linarith
  rw [cdiv_ok hd.ne', ok_bind]
  congr 2
  rw [neg_div]; ring

theorem te_int_injective {m a l K K' : ℝ} (hm : 0 < m) (ha : 0 < a) (hl : 0 < l) (hK : K < 0) (hK' : K' < 0)
    (h : -(m * l + a * K) / ((l + 1) * m - a * K) = -(m * l + a * K') / ((l + 1) * m - a * K')) : K = K' := by
  have n1 := mul_neg_of_pos_of_neg ha hK
  have n2 := mul_neg_of_pos_of_neg ha hK'
  have p : 0 < (l + 1) * m := by positivity
  have d1 : 0 < (l + 1) * m - a * K := by linarith
  have d2 : 0 < (l + 1) * m - a * K' := by linarith
  rw [div_eq_div_iff d1.ne' d2.ne'] at h
  have : (m * a * (2 * l + 1)) * (K - K') = 0 := by nlinarith
  rcases mul_eq_zero.1 this with h | h
  · have : 0 < m * a * (2 * l + 1) := by positivity
    linarith
  · linarith

/-- C46 (partial): for a non-magnetic plasma exterior, `mie_internal_k0` is the low-frequency limit exactly if
`w R = 2l - 1` (in units of `c`), hence for at most one order. -/
theorem C46_plasma_iff {l : ℕ} (hl : 1 ≤ l) {m1 m2 : Material} (hd1 : m1.Dielectric) (h1 : m1.Physical) {w : ℝ}
    (hP : m2.FirstPlasma w) (h2 : m2.Physical) (hmu : m2.muV 0 = 1) {R : ℝ} (hR : 0 < R) :
    ∃ c, mieInternalK0 lnk1 m1 m2 1 l R = .ok c ∧
      (MieIntLimit exactBes m1 m2 l R c ↔ w * R / omegaNorm = 2 * l - 1) := by
  obtain ⟨hpl, hw, hsq⟩ := firstPlasma_facts hP
  have ho := omegaNorm_pos
  have hx : 0 < w * R / omegaNorm := div_pos (mul_pos hP.pos hR) ho
  have mu1 := muV_pos h1 le_rfl
  have l1 : (1 : ℝ) ≤ l := by exact_mod_cast hl
  have l0 : (0 : ℝ) < l := by linarith
  obtain ⟨hc, hneg⟩ := mieInternalK0_plasma hd1 h1 hpl h2 hl hR hP.pos hw
  refine ⟨_, hc, ?_⟩
  have key := C46_plasma_true_limit hl hd1 h1 hpl h2 hR
  have e : R * Real.sqrt (m2.wSq * m2.muV 0) = w * R / omegaNorm := by
    rw [hsq, hmu, mul_one, Real.sqrt_sq (div_pos hP.pos ho).le]; ring
  rw [e] at key
  have k1 := sphK_pos l hx
  have k0 := sphK_pos (l - 1) hx
  have hq : 0 < sphK (l - 1) (w * R / omegaNorm) / sphK l (w * R / omegaNorm) := div_pos k0 k1
  have hl2 : (0 : ℝ) < 2 * l - 1 := by linarith
  constructor
  · intro h
    have h := mieIntLimit_unique h key
    have h := mul_right_cancel₀ (Real.exp_ne_zero _) h
    have h := mul_left_cancel₀ (pow_ne_zero l (by norm_num : (-1 : ℝ) ≠ 0)) h
    have h := te_int_injective (muV_pos h2 le_rfl) mu1 l0 hneg (kdX_neg hl hx) h
    unfold kdCode kdX at h
    generalize sphK (l - 1) (w * R / omegaNorm) / sphK l (w * R / omegaNorm) = q at hq h
    generalize w * R / omegaNorm = x at hx h ⊢
    have h' : x * (q * x / (2 * l - 1)) = x * q := by linarith
    have h' := mul_left_cancel₀ hx.ne' h'
    rw [div_eq_iff hl2.ne'] at h'
    exact mul_left_cancel₀ hq.ne' h'
  · intro h
    have : kdCode l (w * R / omegaNorm) = kdX l (w * R / omegaNorm) := by
      unfold kdCode kdX
      generalize sphK (l - 1) (w * R / omegaNorm) / sphK l (w * R / omegaNorm) = q
      rw [h, mul_div_assoc, div_self hl2.ne', mul_one]
    rw [this]
    exact key

/-- C46 refuted: a plasma exterior with any plasma frequency and radius, the orders 1 and 2 cannot both be right. -/
theorem C46_plasma_refuted {m1 m2 : Material} (hd1 : m1.Dielectric) (h1 : m1.Physical) {w : ℝ}
    (hP : m2.FirstPlasma w) (h2 : m2.Physical) (hmu : m2.muV 0 = 1) {R : ℝ} (hR : 0 < R) :
    ∃ l c, 1 ≤ l ∧ mieInternalK0 lnk1 m1 m2 1 l R = .ok c ∧ ¬ MieIntLimit exactBes m1 m2 l R c := by
  by_cases h : w * R / omegaNorm = 1
  · obtain ⟨c, hc, hi⟩ := C46_plasma_iff (l := 2) (by norm_num) hd1 h1 hP h2 hmu hR
    refine ⟨2, c, by norm_num, hc, ?_⟩
    rw [hi, h]; norm_num
  · obtain ⟨c, hc, hi⟩ := C46_plasma_iff (l := 1) le_rfl hd1 h1 hP h2 hmu hR
    refine ⟨1, c, le_rfl, hc, ?_⟩
    rw [hi]
    intro h'
    apply h
    rw [h']; norm_num

/-- C46 refuted: for a plasma exterior and `lmin > 1` the function raises instead of returning the limit. -/
theorem C46_lmin_refuted {lnK : ℝ → ℕ → ℝ} {m1 m2 : Material} (hd1 : m1.Dielectric) (h1 : m1.Physical)
    (hP : m2.Plasma) (h2 : m2.Physical) {lmin l : ℕ} (hlm : 1 < lmin) (R : ℝ) :
    mieInternalK0 lnK m1 m2 lmin l R = .error .valueError := by
  obtain ⟨e0, he, he0, hlim⟩ := dielectric_static hd1 h1
  have hsf : m2.sigmaFinite = false := by
    unfold Material.sigmaFinite
    rw [hP.cls]
    exact (C58_sigma_finite_iff _ fun p hp => (h2.osc p hp).2).2 hP.free
  rw [mieInternalK0_start hd1 h1 h2 he, hP.cls]
  simp only
  rw [hsf]
  simp only [Bool.false_eq_true, not_false_eq_true, if_true]
  rw [if_pos (by omega)]

/-- Water inside gold (plasma model): the hypotheses of the C46 theorems hold. -/
example : (Material.mk .lorentz eWater none).Dielectric ∧ (Material.mk .lorentz eWater none).Physical ∧
    (Material.mk .lorentz eGoldplasma none).FirstPlasma 1.37e16 ∧ (Material.mk .lorentz eGoldplasma none).Physical ∧
    (Material.mk .lorentz eGoldplasma none).muV 0 = 1 :=
  ⟨⟨rfl, by norm_num [eWater]⟩, ⟨by norm_num [eWater], by simp, by simp⟩, ⟨rfl, by norm_num, [], rfl, by simp⟩,
    ⟨by norm_num [eGoldplasma], by simp, by simp⟩, muV_nonmag rfl 0⟩

end CasSph
