import Verif.Lemmas.MatLimits
import Verif.Props.Scattering

/-! # C44: `mie_k0` is the low-frequency limit of `mie` -/

namespace CasSph

open Spec Filter Topology Nat

/-! ## the common factor -/

theorem ln2dbl_eq {l : ℕ} (hl : 1 ≤ l) : Real.exp (ln2dbl l) = ((2 * l - 1)‼ : ℝ) := by
  unfold ln2dbl
  have e1 : (2 * (l : ℝ) + 1) = ((2 * l : ℕ) : ℝ) + 1 := by push_cast; ring
  rw [e1, lgam_nat, lgam_nat]
  have hf : ((2 * l)! : ℝ) = 2 ^ l * (l ! : ℝ) * ((2 * l - 1)‼ : ℝ) := by
    obtain ⟨m, rfl⟩ := Nat.exists_eq_add_of_le' hl
    have h := Nat.factorial_eq_mul_doubleFactorial (2 * m + 1)
    rw [show 2 * m + 1 + 1 = 2 * (m + 1) by ring, Nat.doubleFactorial_two_mul] at h
    rw [show 2 * (m + 1) - 1 = 2 * m + 1 by omega]
    exact_mod_cast h
  have p1 : (0 : ℝ) < ((2 * l)! : ℝ) := by exact_mod_cast Nat.factorial_pos _
  have p2 : (0 : ℝ) < (l ! : ℝ) := by exact_mod_cast Nat.factorial_pos _
  have p3 : Real.exp ((l : ℝ) * Real.log 2) = 2 ^ l := by
    rw [mul_comm, Real.exp_mul, Real.exp_log (by norm_num), Real.rpow_natCast]
  rw [Real.exp_sub, Real.exp_sub, Real.exp_log p1, Real.exp_log p2, p3, hf]
  field_simp

theorem exp_lnc {l : ℕ} (hl : 1 ≤ l) :
    Real.exp (-Real.log (2 * l + 1) - 2 * ln2dbl l) = 1 / (((2 * l + 1)‼ : ℝ) * ((2 * l - 1)‼ : ℝ)) := by
  have h := ln2dbl_eq hl
  have d := dfac_pos (2 * l - 1)
  rw [Real.exp_sub, Real.exp_neg, Real.exp_log (by positivity), two_mul (ln2dbl l), Real.exp_add, h, dfac_odd l hl]
  field_simp

theorem exp_lnc' {l : ℕ} (hl : 1 ≤ l) :
    Real.exp (Real.log (2 * l + 1) + 2 * ln2dbl l) = ((2 * l + 1)‼ : ℝ) * ((2 * l - 1)‼ : ℝ) := by
  have h := ln2dbl_eq hl
  rw [Real.exp_add, Real.exp_log (by positivity), two_mul (ln2dbl l), Real.exp_add, h, dfac_odd l hl]
  ring

/-! ## limits of the pieces -/

/-- `k R n(k)` tends to `R √(w μ)` when `k² ε → w` -/
theorem arg_tendsto {M : Material} (hM : M.cls ≠ .pec) (hp : M.Physical) {w R : ℝ}
    (hw : Tendsto (fun k => k ^ 2 * M.epsV k) (𝓝[>] 0) (𝓝 w)) :
    Tendsto (fun k => k * R * (Medium.mk (M.epsV k) (M.muV k)).n) (𝓝[>] 0) (𝓝 (R * Real.sqrt (w * M.muV 0))) := by
  have h := ((Real.continuous_sqrt.tendsto _).comp (hw.mul (muV_tendsto hp))).const_mul R
  refine h.congr' ?_
  filter_upwards [self_mem_nhdsWithin] with k hk
  have hk : 0 < k := hk
  unfold Medium.n
  simp only [Function.comp]
  rw [mul_assoc, Real.sqrt_mul (sq_nonneg k), Real.sqrt_sq hk.le]
  ring

theorem arg_pos {M : Material} (hM : M.cls ≠ .pec) (hp : M.Physical) {R k : ℝ} (hR : 0 < R) (hk : 0 < k) :
    0 < k * R * (Medium.mk (M.epsV k) (M.muV k)).n :=
  mul_pos (mul_pos hk hR) (Medium.n_pos ⟨(medium_val hM hp hk).2, muV_pos hp hk.le⟩)

theorem arg_zero {M : Material} (hM : M.cls ≠ .pec) (hp : M.Physical) {R : ℝ} (hR : 0 < R)
    (hw : Tendsto (fun k => k ^ 2 * M.epsV k) (𝓝[>] 0) (𝓝 0)) :
    Tendsto (fun k => k * R * (Medium.mk (M.epsV k) (M.muV k)).n) (𝓝[>] 0) (𝓝[>] 0) := by
  rw [tendsto_nhdsWithin_iff]
  constructor
  · have := arg_tendsto hM hp (R := R) hw
    simpa using this
  · filter_upwards [self_mem_nhdsWithin] with k hk
    exact arg_pos hM hp hR hk

theorem sq_eps_dielectric {M : Material} (hd : M.Dielectric) (hp : M.Physical) :
    Tendsto (fun k => k ^ 2 * M.epsV k) (𝓝[>] 0) (𝓝 0) := by
  obtain ⟨e0, -, -, h⟩ := dielectric_static hd hp
  have h0 : Tendsto (fun k : ℝ => k) (𝓝[>] 0) (𝓝 0) := tendsto_id.mono_left nhdsWithin_le_nhds
  simpa using (h0.pow 2).mul h

theorem idT_low {T : BesTable} {l : ℕ} (hT : LowFreq T l) {x : ℝ → ℝ} {F : Filter ℝ} (hx : Tendsto x F (𝓝[>] 0)) :
    Tendsto (fun k => idT l (x k) (T l (x k))) F (𝓝 (l + 1)) := by
  have h := (hT.idlim.comp hx).const_add (-(l : ℝ))
  have e : -(l : ℝ) + (2 * l + 1) = l + 1 := by ring
  rw [e] at h
  exact h

theorem kdT_low {T : BesTable} {l : ℕ} (hT : LowFreq T l) {x : ℝ → ℝ} {F : Filter ℝ} (hx : Tendsto x F (𝓝[>] 0)) :
    Tendsto (fun k => kdT l (x k) (T l (x k))) F (𝓝 (-l)) := by
  have h := (hT.kdlim.comp hx).const_sub (-(l : ℝ))
  rw [sub_zero] at h
  exact h

/-- external coefficients: only the ratio of the two responses matters -/
theorem ratio_ext {F : Filter ℝ} {we wi Di De Ke : ℝ → ℝ} {s D d c : ℝ} (hwi : ∀ᶠ k in F, 0 < wi k)
    (hs : Tendsto (fun k => we k / wi k) F (𝓝 s)) (hD : Tendsto Di F (𝓝 D)) (hd : Tendsto De F (𝓝 d))
    (hK : Tendsto Ke F (𝓝 c)) (h0 : s * D - c ≠ 0) :
    Tendsto (fun k => (we k * Di k - wi k * De k) / (we k * Di k - wi k * Ke k)) F (𝓝 ((s * D - d) / (s * D - c))) := by
  have h := ((hs.mul hD).sub hd).div ((hs.mul hD).sub hK) h0
  refine h.congr' ?_
  filter_upwards [hwi] with k hk
  simp only [Pi.div_apply]
  have e1 : we k * Di k - wi k * De k = wi k * (we k / wi k * Di k - De k) := by field_simp
  have e2 : we k * Di k - wi k * Ke k = wi k * (we k / wi k * Di k - Ke k) := by field_simp
  rw [e1, e2, mul_div_mul_left _ _ hk.ne']

/-- the scaling factor of the external coefficients -/
theorem scale_ext {T : BesTable} {l : ℕ} (hT : LowFreq T l) {M : Material} (hd : M.Dielectric) (hp : M.Physical)
    {R e0 : ℝ} (hR : 0 < R) (he : M.epsilon 0 = .ok e0) :
    Tendsto (fun k => Real.exp ((T l (k * R * (Medium.mk (M.epsV k) (M.muV k)).n)).i1 -
        (T l (k * R * (Medium.mk (M.epsV k) (M.muV k)).n)).k1) / (Real.sqrt (e0 * M.muV 0) * R * k) ^ (2 * l + 1))
      (𝓝[>] 0) (𝓝 (2 / Real.pi / (((2 * l + 1)‼ : ℝ) * ((2 * l - 1)‼ : ℝ)))) := by
  have hM : M.cls ≠ .pec := by rw [hd.1]; simp
  obtain ⟨e, he', he0, hlim⟩ := dielectric_static hd hp
  rw [he] at he'
  have he' := Except.ok.inj he'
  subst he'
  have hx := arg_zero hM hp hR (sq_eps_dielectric hd hp)
  have h1 := hT.scale.comp hx
  have hm0 := muV_pos hp le_rfl
  have hn0 : 0 < Real.sqrt (e0 * M.muV 0) := Real.sqrt_pos.2 (mul_pos he0 hm0)
  have h2 : Tendsto (fun k => ((Medium.mk (M.epsV k) (M.muV k)).n / Real.sqrt (e0 * M.muV 0)) ^ (2 * l + 1)) (𝓝[>] 0)
      (𝓝 1) := by
    have := (((Real.continuous_sqrt.tendsto _).comp (hlim.mul (muV_tendsto hp))).div_const
      (Real.sqrt (e0 * M.muV 0))).pow (2 * l + 1)
    rw [div_self hn0.ne', one_pow] at this
    exact this
  have h := h1.mul h2
  rw [mul_one] at h
  refine h.congr' ?_
  filter_upwards [self_mem_nhdsWithin] with k hk
  have hk : 0 < k := hk
  simp only [Function.comp]
  have hn := Medium.n_pos (a := ⟨M.epsV k, M.muV k⟩) ⟨(medium_val hM hp hk).2, muV_pos hp hk.le⟩
  generalize (Medium.mk (M.epsV k) (M.muV k)).n = n at hn ⊢
  generalize Real.sqrt (e0 * M.muV 0) = n0 at hn0 ⊢
  rw [div_mul_eq_mul_div, div_pow, mul_pow, mul_pow, mul_pow, mul_pow]
  field_simp

/-! ## C44 -/

/-- `c` is the limit `k → 0+` of the unscaled `mie(k)` divided by `(n R k)^(2l+1)`, `n` the static refractive index
of the medium. -/
def MieLimit (T : BesTable) (m1 m2 : Material) (l : ℕ) (R : ℝ) (c : Mie) : Prop :=
  ∃ (e0 mu0 : ℝ) (v : ℝ → Mie), m2.epsilon 0 = .ok e0 ∧ m2.mu 0 = .ok mu0 ∧ 0 < e0 * mu0 ∧
    (∀ k, 0 < k → mie T T m1 m2 l k R = .ok (v k)) ∧
    Tendsto (fun k => (v k).TE * Real.exp (v k).ln / (Real.sqrt (e0 * mu0) * R * k) ^ (2 * l + 1)) (𝓝[>] 0)
      (𝓝 (c.TE * Real.exp c.ln)) ∧
    Tendsto (fun k => (v k).TM * Real.exp (v k).ln / (Real.sqrt (e0 * mu0) * R * k) ^ (2 * l + 1)) (𝓝[>] 0)
      (𝓝 (c.TM * Real.exp c.ln))

theorem prefak_scale {l : ℕ} (hl : 1 ≤ l) (q : ℝ) :
    q * ((-1) ^ l * Real.pi * 0.5) * (2 / Real.pi / (((2 * l + 1)‼ : ℝ) * ((2 * l - 1)‼ : ℝ))) =
      (-1) ^ l * q * Real.exp (-Real.log (2 * l + 1) - 2 * ln2dbl l) := by
  rw [exp_lnc hl]
  have := Real.pi_pos
  have := dfac_pos (2 * l + 1)
  have := dfac_pos (2 * l - 1)
  field_simp
  ring

/-- value of `mieCore` -/
noncomputable def mieCoreV (l : ℕ) (kr : ℝ) (a b : Medium) (Bi Be : Bes) : Mie :=
  ⟨(b.mu * idT l (kr * a.n) Bi - a.mu * idT l (kr * b.n) Be) /
      (b.mu * idT l (kr * a.n) Bi - a.mu * kdT l (kr * b.n) Be) * ((-1) ^ l * Real.pi * 0.5),
    (b.eps * idT l (kr * a.n) Bi - a.eps * idT l (kr * b.n) Be) /
      (b.eps * idT l (kr * a.n) Bi - a.eps * kdT l (kr * b.n) Be) * ((-1) ^ l * Real.pi * 0.5),
    Be.i1 - Be.k1⟩

/-- the general low-frequency limit: `D` is the limit of `id` inside, `s` that of `ε_e/ε_i` -/
theorem mie_limit_core {T : BesTable} {l : ℕ} (hl : 1 ≤ l) (hT : ∀ x, 0 < x → BesOK T l x) (hlow : LowFreq T l)
    {m1 m2 : Material} (hm1 : m1.cls ≠ .pec) (h1 : m1.Physical) (hd2 : m2.Dielectric) (h2 : m2.Physical) {R : ℝ}
    (hR : 0 < R) {D s : ℝ} (hD0 : 0 < D) (hs0 : 0 ≤ s)
    (hD : Tendsto (fun k => idT l (k * R * (Medium.mk (m1.epsV k) (m1.muV k)).n)
      (T l (k * R * (Medium.mk (m1.epsV k) (m1.muV k)).n))) (𝓝[>] 0) (𝓝 D))
    (hs : Tendsto (fun k => m2.epsV k / m1.epsV k) (𝓝[>] 0) (𝓝 s)) :
    MieLimit T m1 m2 l R ⟨(-1) ^ l * ((m2.muV 0 * D - m1.muV 0 * (l + 1)) / (m2.muV 0 * D + m1.muV 0 * l)),
      (-1) ^ l * ((s * D - (l + 1)) / (s * D + l)), -Real.log (2 * l + 1) - 2 * ln2dbl l⟩ := by
  have hm2 : m2.cls ≠ .pec := by rw [hd2.1]; simp
  obtain ⟨e0, he, he0, hlim⟩ := dielectric_static hd2 h2
  have l0 : (0 : ℝ) < l := by exact_mod_cast hl
  have mu1 := muV_pos h1 le_rfl
  have mu2 := muV_pos h2 le_rfl
  have hx := arg_zero hm2 h2 hR (sq_eps_dielectric hd2 h2)
  have hDe := idT_low hlow hx
  have hKe := kdT_low hlow hx
  have hsc := scale_ext hlow hd2 h2 hR he
  refine ⟨e0, m2.muV 0, fun k => mieCoreV l (k * R) ⟨m1.epsV k, m1.muV k⟩ ⟨m2.epsV k, m2.muV k⟩
    (T l (k * R * (Medium.mk (m1.epsV k) (m1.muV k)).n)) (T l (k * R * (Medium.mk (m2.epsV k) (m2.muV k)).n)),
    he, mu_val h2 le_rfl, mul_pos he0 mu2, fun k hk => ?_, ?_, ?_⟩
  · rw [mie_diel hm1 (medium_val hm1 h1 hk).1 (medium_val hm2 h2 hk).1]
    exact mieCore_ok ⟨(medium_val hm1 h1 hk).2, muV_pos h1 hk.le⟩ ⟨(medium_val hm2 h2 hk).2, muV_pos h2 hk.le⟩
      (idT_pos (hT _ (arg_pos hm1 h1 hR hk))) (kdT_neg hl (arg_pos hm2 h2 hR hk) _)
  · have hr := ratio_ext (we := m2.muV) (wi := m1.muV) (s := m2.muV 0 / m1.muV 0)
      (by filter_upwards [self_mem_nhdsWithin] with k hk; exact muV_pos h1 (le_of_lt hk))
      ((muV_tendsto h2).div (muV_tendsto h1) mu1.ne') hD hDe hKe
      (by have : 0 < m2.muV 0 / m1.muV 0 * D := by positivity
          linarith)
    have h := (hr.mul_const ((-1) ^ l * Real.pi * 0.5)).mul hsc
    rw [prefak_scale hl] at h
    have e : (m2.muV 0 / m1.muV 0 * D - (l + 1)) / (m2.muV 0 / m1.muV 0 * D - -l) =
        (m2.muV 0 * D - m1.muV 0 * (l + 1)) / (m2.muV 0 * D + m1.muV 0 * l) := by
      rw [← mul_div_mul_left _ _ mu1.ne']
      congr 1 <;> field_simp
      ring
    rw [e] at h
    refine h.congr ?_
    intro k
    unfold mieCoreV
    ring
  · have hr := ratio_ext (we := m2.epsV) (wi := m1.epsV) (s := s)
      (by filter_upwards [self_mem_nhdsWithin] with k hk; exact (medium_val hm1 h1 hk).2)
      hs hD hDe hKe (by have : 0 ≤ s * D := by positivity
                        linarith)
    have h := (hr.mul_const ((-1) ^ l * Real.pi * 0.5)).mul hsc
    rw [prefak_scale hl, sub_neg_eq_add] at h
    refine h.congr ?_
    intro k
    unfold mieCoreV
    ring

theorem mieK0_start {frac : ℝ → ℝ → ℝ} {m1 m2 : Material} (hd2 : m2.Dielectric) (h2 : m2.Physical) {e0 : ℝ}
    (he : m2.epsilon 0 = .ok e0) {l : ℕ} (hl : 1 ≤ l) {R : ℝ} :
    mieK0 frac m1 m2 l R = (do
      match m1.cls with
      | .pec => .ok ⟨(-1) ^ l * 1, -(-1) ^ l * ((l + 1) / l), -Real.log (2 * l + 1) - 2 * ln2dbl l⟩
      | _ =>
        let muSp ← m1.mu 0
        let wPR := match m1.firstWp with
          | .ok w => w * R / 2.998e14
          | .error _ => 0
        if ¬ m1.sigmaFinite then
          let ft := -l + wPR * frac wPR (l - 0.5)
          let bTE ← cdiv (m2.muV 0 * ft - muSp * (l + 1)) (muSp * l + m2.muV 0 * ft)
          .ok ⟨(-1) ^ l * bTE, -(-1) ^ l * ((l + 1) / l), -Real.log (2 * l + 1) - 2 * ln2dbl l⟩
        else
          let bTE ← cdiv (-(l + 1) * (muSp - m2.muV 0)) (l * (muSp + m2.muV 0) + m2.muV 0)
          let diel1 ← m1.dielectric
          if diel1 then
            let epsSp ← m1.epsilon 0
            let n0 := Real.sqrt (muSp * epsSp)
            let q ← cdiv (m2.muV 0 * n0 ^ 2 - muSp * Real.sqrt (e0 * m2.muV 0) ^ 2)
              (l * m2.muV 0 * n0 ^ 2 + (l + 1) * muSp * Real.sqrt (e0 * m2.muV 0) ^ 2)
            .ok ⟨(-1) ^ l * bTE, -(-1) ^ l * ((l + 1) * q), -Real.log (2 * l + 1) - 2 * ln2dbl l⟩
          else .ok ⟨(-1) ^ l * bTE, -(-1) ^ l * ((l + 1) / l), -Real.log (2 * l + 1) - 2 * ln2dbl l⟩ : Res Mie) := by
  have l0 : (l : ℝ) ≠ 0 := by exact_mod_cast (by omega : l ≠ 0)
  obtain ⟨f1, f2⟩ := dielectric_flags hd2
  unfold mieK0
  rw [mu_val h2 le_rfl, ok_bind, f1, f2]
  simp only [ok_bind, not_true_eq_false, if_false]
  rw [he, ok_bind, cdiv_ok l0, ok_bind]
  rfl

/-- C44, perfectly conducting sphere. -/
theorem C44_pec {T : BesTable} {l : ℕ} (hl : 1 ≤ l) (hT : ∀ x, 0 < x → BesOK T l x) (hlow : LowFreq T l)
    {m1 m2 : Material} (hm1 : m1.cls = .pec) (hd2 : m2.Dielectric) (h2 : m2.Physical) {R : ℝ} (hR : 0 < R)
    (frac : ℝ → ℝ → ℝ) : ∃ c, mieK0 frac m1 m2 l R = .ok c ∧ MieLimit T m1 m2 l R c := by
  have hm2 : m2.cls ≠ .pec := by rw [hd2.1]; simp
  obtain ⟨e0, he, he0, hlim⟩ := dielectric_static hd2 h2
  have l0 : (0 : ℝ) < l := by exact_mod_cast hl
  have mu2 := muV_pos h2 le_rfl
  have hx := arg_zero hm2 h2 hR (sq_eps_dielectric hd2 h2)
  have hDe := idT_low hlow hx
  have hKe := kdT_low hlow hx
  have hsc := scale_ext hlow hd2 h2 hR he
  refine ⟨⟨(-1) ^ l * 1, -(-1) ^ l * ((l + 1) / l), -Real.log (2 * l + 1) - 2 * ln2dbl l⟩, ?_, ?_⟩
  · rw [mieK0_start hd2 h2 he hl, hm1]
  · refine ⟨e0, m2.muV 0, fun k => ⟨(-1) ^ l * Real.pi * 0.5, (-1) ^ l * Real.pi * 0.5 *
      idT l (k * R * (Medium.mk (m2.epsV k) (m2.muV k)).n) (T l (k * R * (Medium.mk (m2.epsV k) (m2.muV k)).n)) /
      kdT l (k * R * (Medium.mk (m2.epsV k) (m2.muV k)).n) (T l (k * R * (Medium.mk (m2.epsV k) (m2.muV k)).n)),
      (T l (k * R * (Medium.mk (m2.epsV k) (m2.muV k)).n)).i1 - (T l (k * R * (Medium.mk (m2.epsV k) (m2.muV k)).n)).k1⟩,
      he, mu_val h2 le_rfl, mul_pos he0 mu2, fun k hk => ?_, ?_, ?_⟩
    · rw [mie_pec hm1 (medium_val hm2 h2 hk).1]
      exact miePECCore_ok (kdT_neg hl (arg_pos hm2 h2 hR hk) _)
    · have h := hsc.const_mul (1 * ((-1) ^ l * Real.pi * 0.5))
      rw [prefak_scale hl] at h
      refine h.congr ?_
      intro k
      ring
    · have hr := hDe.div hKe (by linarith)
      have h := (hr.mul_const ((-1) ^ l * Real.pi * 0.5)).mul hsc
      rw [prefak_scale hl] at h
      have e : (-1 : ℝ) ^ l * ((l + 1) / -l) = -(-1) ^ l * ((l + 1) / l) := by rw [div_neg]; ring
      rw [e] at h
      refine h.congr ?_
      intro k
      simp only [Pi.div_apply]
      ring

/-- C44, dielectric sphere (possibly magnetic) in a dielectric medium. -/
theorem C44_dielectric {T : BesTable} {l : ℕ} (hl : 1 ≤ l) (hT : ∀ x, 0 < x → BesOK T l x) (hlow : LowFreq T l)
    {m1 m2 : Material} (hd1 : m1.Dielectric) (h1 : m1.Physical) (hd2 : m2.Dielectric) (h2 : m2.Physical) {R : ℝ}
    (hR : 0 < R) (frac : ℝ → ℝ → ℝ) : ∃ c, mieK0 frac m1 m2 l R = .ok c ∧ MieLimit T m1 m2 l R c := by
  have hm1 : m1.cls ≠ .pec := by rw [hd1.1]; simp
  obtain ⟨e0, he, he0, hlim⟩ := dielectric_static hd2 h2
  obtain ⟨e1, he1, he10, hlim1⟩ := dielectric_static hd1 h1
  have l0 : (0 : ℝ) < l := by exact_mod_cast hl
  have mu1 := muV_pos h1 le_rfl
  have mu2 := muV_pos h2 le_rfl
  obtain ⟨f1, f2⟩ := dielectric_flags hd1
  have hx := arg_zero hm1 h1 hR (sq_eps_dielectric hd1 h1)
  have key := mie_limit_core hl hT hlow hm1 h1 hd2 h2 hR (D := l + 1) (s := e0 / e1) (by positivity) (by positivity)
    (idT_low hlow hx) (hlim.div hlim1 he10.ne')
  refine ⟨_, ?_, key⟩
  rw [mieK0_start hd2 h2 he hl, hd1.1]
  simp only
  rw [mu_val h1 le_rfl, ok_bind, f1, f2]
  simp only [ok_bind, not_true_eq_false, if_false, if_true]
  rw [he1]
  simp only [ok_bind]
  have s1 : Real.sqrt (m1.muV 0 * e1) ^ 2 = m1.muV 0 * e1 := Real.sq_sqrt (by positivity)
  have s2 : Real.sqrt (e0 * m2.muV 0) ^ 2 = e0 * m2.muV 0 := Real.sq_sqrt (by positivity)
  rw [s1, s2, cdiv_ok (by positivity), ok_bind, cdiv_ok (by positivity), ok_bind]
  congr 2
  · rw [show m2.muV 0 * (l + 1) - m1.muV 0 * (l + 1) = -(l + 1) * (m1.muV 0 - m2.muV 0) by ring,
      show m2.muV 0 * (l + 1) + m1.muV 0 * l = l * (m1.muV 0 + m2.muV 0) + m2.muV 0 by ring]
  · have d1 : (0 : ℝ) < l * m2.muV 0 * (m1.muV 0 * e1) + (l + 1) * m1.muV 0 * (e0 * m2.muV 0) := by positivity
    have d2 : (0 : ℝ) < e0 / e1 * (l + 1) + l := by positivity
    rw [neg_mul, ← mul_neg]
    congr 1
    rw [← mul_div_assoc, ← neg_div, div_eq_div_iff d1.ne' d2.ne']
    field_simp
    ring

/-- C44, conducting sphere of finite conductivity (Drude or Drude-Smith, possibly magnetic, any further oscillators). -/
theorem C44_conductor {T : BesTable} {l : ℕ} (hl : 1 ≤ l) (hT : ∀ x, 0 < x → BesOK T l x) (hlow : LowFreq T l)
    {m1 m2 : Material} (hc1 : m1.Conductor) (h1 : m1.Physical) (hd2 : m2.Dielectric) (h2 : m2.Physical) {R : ℝ}
    (hR : 0 < R) (frac : ℝ → ℝ → ℝ) : ∃ c, mieK0 frac m1 m2 l R = .ok c ∧ MieLimit T m1 m2 l R c := by
  have hm1 := hc1.cls
  obtain ⟨e0, he, he0, hlim⟩ := dielectric_static hd2 h2
  obtain ⟨hinv, hsq⟩ := conductor_limits hc1 h1
  have l0 : (0 : ℝ) < l := by exact_mod_cast hl
  have mu1 := muV_pos h1 le_rfl
  have mu2 := muV_pos h2 le_rfl
  obtain ⟨f1, f2⟩ := conductor_flags hc1
  have hx := arg_zero hm1 h1 hR hsq
  have hs : Tendsto (fun k => m2.epsV k / m1.epsV k) (𝓝[>] 0) (𝓝 0) := by
    have := hlim.mul hinv
    rw [mul_zero] at this
    refine this.congr ?_
    intro k; ring
  have key := mie_limit_core hl hT hlow hm1 h1 hd2 h2 hR (D := l + 1) (s := 0) (by positivity) le_rfl
    (idT_low hlow hx) hs
  refine ⟨_, ?_, key⟩
  rw [mieK0_start hd2 h2 he hl]
  have : ∀ {X Y : Res Mie}, (match m1.cls with | .pec => X | _ => Y) = Y := by
    intro X Y
    cases h : m1.cls with
    | pec => exact absurd h hm1
    | smith => rfl
    | lorentz => rfl
  rw [this, mu_val h1 le_rfl, ok_bind, f1, f2]
  simp only [ok_bind, not_true_eq_false, if_false]
  rw [cdiv_ok (by positivity), ok_bind]
  simp only [Bool.false_eq_true, if_false]
  congr 2
  · rw [show m2.muV 0 * (l + 1) - m1.muV 0 * (l + 1) = -(l + 1) * (m1.muV 0 - m2.muV 0) by ring,
      show m2.muV 0 * (l + 1) + m1.muV 0 * l = l * (m1.muV 0 + m2.muV 0) + m2.muV 0 by ring]
  · rw [zero_mul, zero_sub, zero_add, neg_div]; ring

/-- C44 for the tables used by the code: any number of terms the code may use, either variant of the series. -/
theorem C44_code_table {l : ℕ} (hl : 1 ≤ l) (xlast : ℝ) (mixed : Bool) : LowFreq (codeBes (fnuTerms xlast) mixed) l := by
  obtain ⟨M, hM, -⟩ := fnuTerms_even xlast
  rw [hM]
  exact codeBes_low hl M mixed

theorem C44_exact_table {l : ℕ} (hl : 1 ≤ l) : LowFreq exactBes l := exactBes_low hl

/-- Gold sphere (Drude) in water, table of the code: the hypotheses of C44 hold. -/
example (l : ℕ) (hl : 1 ≤ l) (R : ℝ) (hR : 0 < R) (xl : ℝ) (frac : ℝ → ℝ → ℝ) :
    ∃ c, mieK0 frac ⟨.lorentz, eGold, none⟩ ⟨.lorentz, eWater, none⟩ l R = .ok c ∧
      MieLimit (codeBes (fnuTerms xl) false) ⟨.lorentz, eGold, none⟩ ⟨.lorentz, eWater, none⟩ l R c := by
  refine C44_conductor hl (C42_code_table hl xl false) (C44_code_table hl xl false)
    ⟨by simp, ⟨⟨1.37e16, 0, 5.77e13⟩, by simp [eGold], by norm_num, rfl⟩, ?_⟩ ⟨?_, by simp, by simp⟩ ⟨rfl, ?_⟩
    ⟨?_, by simp, by simp⟩ hR frac
  · norm_num [eGold]
  · norm_num [eGold]
  · norm_num [eWater]
  · norm_num [eWater]

/-- The Drude-Smith material of the catalogue is covered as well. -/
example : (Material.mk .smith eMercurySmith none).Conductor :=
  ⟨by simp, ⟨⟨1.98e16, 0, 1.647e15⟩, by simp [eMercurySmith], by norm_num, rfl⟩, by norm_num [eMercurySmith]⟩

end CasSph
