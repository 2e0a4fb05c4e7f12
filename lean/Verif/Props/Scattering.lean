import Verif.Lemmas.Scattering

/-! # C42, C43, C47, C50: Mie and Fresnel coefficients at non-zero frequency -/

namespace CasSph

open Spec Filter Topology

/-! ## C42 -/

/-- C42: for materials with non-negative oscillator parameters and positive magnetic ones, and for perfect
conductors, every coefficient of `mie` exists; the table `T` may be any one whose entries satisfy
`l < x i_{l-1}/i_l`. -/
theorem C42_mie_defined {T : BesTable} {l : ℕ} (hl : 1 ≤ l) (hT : ∀ x, 0 < x → BesOK T l x) {m1 m2 : Material}
    (h1 : m1.Physical) (h2 : m2.Physical) (hm2 : m2.cls ≠ .pec) {k r : ℝ} (hk : 0 < k) (hr : 0 < r) :
    ∃ v, mie T T m1 m2 l k r = .ok v := by
  obtain ⟨b, hb, hbp⟩ := medium_pos hm2 h2 hk
  have hxb : 0 < k * r * b.n := mul_pos (mul_pos hk hr) (Medium.n_pos hbp)
  by_cases hc : m1.cls = .pec
  · rw [mie_pec hc hb, miePECCore_ok (kdT_neg hl hxb _)]
    exact ⟨_, rfl⟩
  · obtain ⟨a, ha, hap⟩ := medium_pos hc h1 hk
    have hxa : 0 < k * r * a.n := mul_pos (mul_pos hk hr) (Medium.n_pos hap)
    rw [mie_diel hc ha hb, mieCore_ok hap hbp (idT_pos (hT _ hxa)) (kdT_neg hl hxb _)]
    exact ⟨_, rfl⟩

/-- C42: the same for `mie_internal`. -/
theorem C42_internal_defined {T : BesTable} {l : ℕ} (hl : 1 ≤ l) (hT : ∀ x, 0 < x → BesOK T l x) {m1 m2 : Material}
    (h1 : m1.Physical) (h2 : m2.Physical) (hm1 : m1.cls ≠ .pec) {k r : ℝ} (hk : 0 < k) (hr : 0 < r) :
    ∃ v, mieInternal T T m1 m2 l k r = .ok v := by
  obtain ⟨a, ha, hap⟩ := medium_pos hm1 h1 hk
  have hxa : 0 < k * r * a.n := mul_pos (mul_pos hk hr) (Medium.n_pos hap)
  by_cases hc : m2.cls = .pec
  · rw [mieInternal_pec hc ha, miePECIntCore_ok (idT_pos (hT _ hxa))]
    exact ⟨_, rfl⟩
  · obtain ⟨b, hb, hbp⟩ := medium_pos hc h2 hk
    have hxb : 0 < k * r * b.n := mul_pos (mul_pos hk hr) (Medium.n_pos hbp)
    rw [mieInternal_diel hc ha hb, mieIntCore_ok hap hbp (idT_pos (hT _ hxa)) (kdT_neg hl hxb _)]
    exact ⟨_, rfl⟩

/-- C42: the exact Bessel functions satisfy the condition on the table. -/
theorem C42_exact_table {l : ℕ} (hl : 1 ≤ l) : ∀ x, 0 < x → BesOK exactBes l x := fun _ hx => exactBes_ok hl hx

/-- C42: so do the entries computed by the code, for both numbers of terms of the continued fraction and both
variants of the small-argument series. -/
theorem C42_code_table {l : ℕ} (hl : 1 ≤ l) (xlast : ℝ) (mixed : Bool) :
    ∀ x, 0 < x → BesOK (codeBes (fnuTerms xlast) mixed) l x := by
  intro x hx
  obtain ⟨M, hM, -⟩ := fnuTerms_even xlast
  rw [hM]
  exact codeBes_ok hl hx M mixed

/-- Gold in water: the hypotheses of C42 hold and the coefficient exists for every order, wavenumber and radius. -/
example (l : ℕ) (hl : 1 ≤ l) (k r : ℝ) (hk : 0 < k) (hr : 0 < r) :
    ∃ v, mie exactBes exactBes ⟨.lorentz, eGold, none⟩ ⟨.lorentz, eWater, none⟩ l k r = .ok v := by
  refine C42_mie_defined hl (C42_exact_table hl) ⟨?_, by simp, by simp⟩ ⟨?_, by simp, by simp⟩ (by simp) hk hr
  · norm_num [eGold]
  · norm_num [eWater]

/-! ## C43 -/

/-- C43: if sphere and medium respond identically at `k`, both external Mie coefficients vanish. -/
theorem C43_no_contrast {T : BesTable} {l : ℕ} {m1 m2 : Material} {k r : ℝ} {a : Medium} {v : Mie}
    (h1 : m1.medium k = .ok a) (h2 : m2.medium k = .ok a) (hv : mie T T m1 m2 l k r = .ok v) :
    v.TE = 0 ∧ v.TM = 0 := by
  rw [mie_diel (medium_ne_pec h1) h1 h2] at hv
  unfold mieCore cdiv at hv
  simp only at hv
  split_ifs at hv with c1 c2
  · simp only [error_bind] at hv; cases hv
  · simp only [error_bind, ok_bind] at hv; cases hv
  · simp only [error_bind, ok_bind] at hv; cases hv
  · simp only [ok_bind] at hv
    cases hv
    simp

/-- C43: likewise the internal ones. -/
theorem C43_no_contrast_internal {T : BesTable} {l : ℕ} {m1 m2 : Material} {k r : ℝ} {a : Medium} {v : Mie}
    (h1 : m1.medium k = .ok a) (h2 : m2.medium k = .ok a) (hv : mieInternal T T m1 m2 l k r = .ok v) :
    v.TE = 0 ∧ v.TM = 0 := by
  rw [mieInternal_diel (medium_ne_pec h2) h1 h2] at hv
  unfold mieIntCore cdiv at hv
  simp only at hv
  split_ifs at hv with c1 c2
  · simp only [error_bind] at hv; cases hv
  · simp only [error_bind, ok_bind] at hv; cases hv
  · simp only [error_bind, ok_bind] at hv; cases hv
  · simp only [ok_bind] at hv
    cases hv
    simp

/-- Converse of C43 for one polarisation: an electric contrast alone makes the TM coefficient non-zero, so that C43 is
not true of everything. -/
example : ∃ v, mie exactBes exactBes ⟨.pec, [], none⟩ ⟨.lorentz, [], none⟩ 1 1 1 = .ok v ∧ v.TE ≠ 0 := by
  have hb : (Material.mk .lorentz [] none).medium 1 = .ok ⟨1, 1⟩ := rfl
  rw [mie_pec rfl hb, miePECCore_ok (kdT_neg le_rfl (by simp [Medium.n]) _)]
  refine ⟨_, rfl, ?_⟩
  have := Real.pi_pos
  simp only; norm_num [this.ne']

/-! ## C47 -/

/-- C47: a core coated with its own material is a solid sphere of the outer radius. -/
theorem C47_core_coating {T : BesTable} {l : ℕ} (hl : 1 ≤ l) (hT : ∀ x, 0 < x → BesOK T l x) {m1 m3 : Material}
    (hm1 : m1.cls ≠ .pec) (hm3 : m3.cls ≠ .pec) (h1 : m1.Physical) (h3 : m3.Physical) {k ri ra : ℝ} (hk : 0 < k)
    (hri : 0 < ri) (hra : 0 < ra) :
    mieCoated T m1 m1 m3 l k ri ra = mie T T m1 m3 l k ra := by
  obtain ⟨a, ha, hap⟩ := medium_pos hm1 h1 hk
  obtain ⟨b, hb, hbp⟩ := medium_pos hm3 h3 hk
  obtain ⟨q, hq⟩ := C42_mie_defined hl hT h1 h1 hm1 hk hri
  obtain ⟨q1, q2⟩ := C43_no_contrast ha ha hq
  have hxa : 0 < k * ra * a.n := mul_pos (mul_pos hk hra) (Medium.n_pos hap)
  have hxb : 0 < k * ra * b.n := mul_pos (mul_pos hk hra) (Medium.n_pos hbp)
  have hid := idT_pos (hT _ hxa)
  have hkd := kdT_neg hl hxb (T l (k * ra * b.n))
  unfold mieCoated
  rw [hq, ok_bind, ha, ok_bind, hb, ok_bind, mie_diel hm1 ha hb, mieCore_ok hap hbp hid hkd]
  unfold coatedCore
  simp only [q1, q2, mul_zero, zero_sub]
  have d1 := mieDen_pos hap.2 hbp.2 hid hkd
  have d2 := mieDen_pos hap.1 hbp.1 hid hkd
  rw [cdiv_ok (by linarith), ok_bind, cdiv_ok (by linarith), ok_bind]
  congr 2
  · rw [mul_neg, neg_div_neg_eq, mul_comm _ (b.mu), mul_comm _ (a.mu), mul_comm _ (a.mu)]
    ring
  · rw [mul_neg, neg_div_neg_eq, mul_comm _ (b.eps), mul_comm _ (a.eps), mul_comm _ (a.eps)]
    ring

/-- C47: a core (possibly perfectly conducting) coated with the medium scatters like the bare core; the coefficients
agree once the scaling factors are restored. -/
theorem C47_medium_coating {T : BesTable} {l : ℕ} (hl : 1 ≤ l) (hT : ∀ x, 0 < x → BesOK T l x) {m1 m3 : Material}
    (hm3 : m3.cls ≠ .pec) (h1 : m1.Physical) (h3 : m3.Physical) {k ri ra : ℝ} (hk : 0 < k)
    (hri : 0 < ri) (hra : 0 < ra) :
    ∃ v q, mieCoated T m1 m3 m3 l k ri ra = .ok v ∧ mie T T m1 m3 l k ri = .ok q ∧
      v.TE * Real.exp v.ln = q.TE * Real.exp q.ln ∧ v.TM * Real.exp v.ln = q.TM * Real.exp q.ln := by
  obtain ⟨b, hb, hbp⟩ := medium_pos hm3 h3 hk
  obtain ⟨q, hq⟩ := C42_mie_defined hl hT h1 h3 hm3 hk hri
  have hxb : 0 < k * ra * b.n := mul_pos (mul_pos hk hra) (Medium.n_pos hbp)
  have hid := idT_pos (hT _ hxb)
  have hkd := kdT_neg hl hxb (T l (k * ra * b.n))
  unfold mieCoated
  rw [hq, ok_bind, hb, ok_bind, ok_bind]
  unfold coatedCore
  simp only
  generalize idT l (k * ra * b.n) (T l (k * ra * b.n)) = I at *
  generalize kdT l (k * ra * b.n) (T l (k * ra * b.n)) = K at *
  generalize T l (k * ra * b.n) = B at *
  have hpi := Real.pi_pos
  have s2 : ((-1 : ℝ) ^ l) * (-1) ^ l = 1 := by rw [← mul_pow]; norm_num
  have hIK : 0 < I - K := by linarith
  have key : ∀ w, 0 < w → ∀ t, cdiv ((-1) ^ l * (Real.pi / 2) * ((K * w - I * w) * (1 / (Real.pi / 2)) * (-1) ^ l *
      Real.exp (B.k1 - B.i1 + q.ln) * t - (I * w - I * w)))
      ((K * w - K * w) * (1 / (Real.pi / 2)) * (-1) ^ l * Real.exp (B.k1 - B.i1 + q.ln) * t - (I * w - K * w)) =
      .ok (Real.exp (B.k1 - B.i1 + q.ln) * t) := by
    intro w hw t
    have hd : (K * w - K * w) * (1 / (Real.pi / 2)) * (-1) ^ l * Real.exp (B.k1 - B.i1 + q.ln) * t - (I * w - K * w) =
      -((I - K) * w) := by ring
    have hne : -((I - K) * w) ≠ 0 := by
      have := mul_pos hIK hw; linarith
    rw [hd, cdiv_ok hne]
    congr 1
    rw [div_eq_iff hne]
    have hp2 : Real.pi / 2 * (1 / (Real.pi / 2)) = 1 := by field_simp
    linear_combination (K * w - I * w) * Real.exp (B.k1 - B.i1 + q.ln) * t * (Real.pi / 2 * (1 / (Real.pi / 2)) * s2 + hp2)
  rw [key b.mu hbp.2 q.TE, ok_bind, key b.eps hbp.1 q.TM, ok_bind]
  refine ⟨_, q, rfl, rfl, ?_, ?_⟩
  · simp only
    rw [mul_comm (Real.exp _) q.TE, mul_assoc, ← Real.exp_add]
    ring_nf
  · simp only
    rw [mul_comm (Real.exp _) q.TM, mul_assoc, ← Real.exp_add]
    ring_nf

/-- C47 applies to gold coated with water in water. -/
example (l : ℕ) (hl : 1 ≤ l) (k : ℝ) (hk : 0 < k) :
    ∃ v q, mieCoated exactBes ⟨.lorentz, eGold, none⟩ ⟨.lorentz, eWater, none⟩ ⟨.lorentz, eWater, none⟩ l k 1 2 = .ok v ∧
      mie exactBes exactBes ⟨.lorentz, eGold, none⟩ ⟨.lorentz, eWater, none⟩ l k 1 = .ok q ∧
      v.TE * Real.exp v.ln = q.TE * Real.exp q.ln ∧ v.TM * Real.exp v.ln = q.TM * Real.exp q.ln := by
  refine C47_medium_coating hl (C42_exact_table hl) (by simp) ⟨?_, by simp, by simp⟩ ⟨?_, by simp, by simp⟩ hk
    one_pos two_pos
  · norm_num [eGold]
  · norm_num [eWater]

/-! ## C50 -/

theorem fresnel_arg {a : Medium} (ha : a.Pos) {kperp kn : ℝ} (hk : 0 < kn) :
    0 < Real.sqrt (kperp ^ 2 + (kn * a.n) ^ 2) := by
  have := mul_pos hk (Medium.n_pos ha)
  exact Real.sqrt_pos.2 (by positivity)

theorem ratio_bound {u v : ℝ} (hu : 0 < u) (hv : 0 < v) : -1 < (u - v) / (u + v) ∧ (u - v) / (u + v) < 1 := by
  have : 0 < u + v := by linarith
  constructor
  · rw [lt_div_iff₀ this]; linarith
  · rw [div_lt_one this]; linarith

/-- C50: for positive responses both Fresnel coefficients exist and lie strictly between -1 and 1; exchanging the media
changes their sign. -/
theorem C50_fresnel_bounds {P M : Medium} (hP : P.Pos) (hM : M.Pos) {kperp kn : ℝ} (hk : 0 < kn) :
    ∃ te tm, fresnelCore P M kperp kn = .ok (te, tm) ∧ -1 < te ∧ te < 1 ∧ -1 < tm ∧ tm < 1 ∧
      fresnelCore M P kperp kn = .ok (-te, -tm) := by
  have s1 := fresnel_arg hM (kperp := kperp) hk
  have s2 := fresnel_arg hP (kperp := kperp) hk
  unfold fresnelCore
  simp only
  generalize Real.sqrt (kperp ^ 2 + (kn * M.n) ^ 2) = a at *
  generalize Real.sqrt (kperp ^ 2 + (kn * P.n) ^ 2) = b at *
  have p1 := mul_pos hP.2 s1
  have p2 := mul_pos hM.2 s2
  have p3 := mul_pos hP.1 s1
  have p4 := mul_pos hM.1 s2
  rw [cdiv_ok (by linarith), ok_bind, cdiv_ok (by linarith), ok_bind, cdiv_ok (by linarith), ok_bind,
    cdiv_ok (by linarith), ok_bind]
  refine ⟨_, _, rfl, (ratio_bound p1 p2).1, (ratio_bound p1 p2).2, (ratio_bound p3 p4).1, (ratio_bound p3 p4).2, ?_⟩
  congr 2
  · rw [← neg_div, neg_sub, add_comm]
  · rw [← neg_div, neg_sub, add_comm]

/-- C50: no contrast, no reflection. -/
theorem C50_fresnel_zero {P : Medium} (hP : P.Pos) {kperp kn : ℝ} (hk : 0 < kn) :
    fresnelCore P P kperp kn = .ok (0, 0) := by
  have s2 := fresnel_arg hP (kperp := kperp) hk
  unfold fresnelCore
  simp only
  have p2 := mul_pos hP.2 s2
  have p4 := mul_pos hP.1 s2
  rw [cdiv_ok (by linarith), ok_bind, cdiv_ok (by linarith), ok_bind]
  simp

/-- C50: as the permittivity of the plate grows the coefficients approach the values returned for a perfect
conductor. -/
theorem C50_fresnel_pec_limit {muP : ℝ} (hmu : 0 < muP) {M : Medium} (hM : M.Pos) {kperp kn : ℝ} (hk : 0 < kn)
    (te tm : ℝ → ℝ) (h : ∀ e, 0 < e → fresnelCore ⟨e, muP⟩ M kperp kn = .ok (te e, tm e)) (m2 : Material) :
    fresnel perfectConductor m2 kperp kn = .ok (-1, 1) ∧
      Tendsto te atTop (𝓝 (-1)) ∧ Tendsto tm atTop (𝓝 1) := by
  refine ⟨rfl, ?_⟩
  have s1 := fresnel_arg hM (kperp := kperp) hk
  set a := Real.sqrt (kperp ^ 2 + (kn * M.n) ^ 2) with ha
  have hform : ∀ e, 0 < e →
      te e = (muP * a - M.mu * Real.sqrt (kperp ^ 2 + kn ^ 2 * muP * e)) /
        (muP * a + M.mu * Real.sqrt (kperp ^ 2 + kn ^ 2 * muP * e)) ∧
      tm e = (e * a - M.eps * Real.sqrt (kperp ^ 2 + kn ^ 2 * muP * e)) /
        (e * a + M.eps * Real.sqrt (kperp ^ 2 + kn ^ 2 * muP * e)) := by
    intro e he
    have hP : Medium.Pos ⟨e, muP⟩ := ⟨he, hmu⟩
    have s2 := fresnel_arg hP (kperp := kperp) hk
    have hn : kperp ^ 2 + (kn * Medium.n ⟨e, muP⟩) ^ 2 = kperp ^ 2 + kn ^ 2 * muP * e := by
      unfold Medium.n; rw [mul_pow, Real.sq_sqrt (mul_pos he hmu).le]; ring
    have := h e he
    unfold fresnelCore at this
    simp only at this
    rw [hn] at s2
    rw [← ha, hn] at this
    have p1 := mul_pos hmu s1
    have p2 := mul_pos hM.2 s2
    have p3 := mul_pos he s1
    have p4 := mul_pos hM.1 s2
    rw [cdiv_ok (by linarith), ok_bind, cdiv_ok (by linarith), ok_bind] at this
    have := Except.ok.inj this
    exact ⟨(congrArg Prod.fst this).symm, (congrArg Prod.snd this).symm⟩
  have hs : Tendsto (fun e : ℝ => Real.sqrt (kperp ^ 2 + kn ^ 2 * muP * e)) atTop atTop := by
    apply Real.tendsto_sqrt_atTop.comp
    apply tendsto_atTop_add_const_left
    exact tendsto_id.const_mul_atTop (by positivity)
  have hq : Tendsto (fun e : ℝ => Real.sqrt (kperp ^ 2 + kn ^ 2 * muP * e) / e) atTop (𝓝 0) := by
    have h1 : Tendsto (fun e : ℝ => Real.sqrt ((kperp ^ 2 + kn ^ 2 * muP * e) / e ^ 2)) atTop (𝓝 (Real.sqrt 0)) := by
      apply (Real.continuous_sqrt.tendsto 0).comp
      have e1 : Tendsto (fun e : ℝ => kperp ^ 2 / e ^ 2 + kn ^ 2 * muP / e) atTop (𝓝 (0 + 0)) := by
        apply Tendsto.add
        · exact Tendsto.div_atTop tendsto_const_nhds (tendsto_pow_atTop two_ne_zero)
        · exact Tendsto.div_atTop tendsto_const_nhds tendsto_id
      rw [add_zero] at e1
      refine e1.congr' ?_
      filter_upwards [eventually_gt_atTop 0] with e he
      field_simp
    rw [Real.sqrt_zero] at h1
    refine h1.congr' ?_
    filter_upwards [eventually_gt_atTop 0] with e he
    rw [Real.sqrt_div' _ (by positivity), Real.sqrt_sq he.le]
  constructor
  · have h1 : Tendsto (fun e : ℝ => muP * a / Real.sqrt (kperp ^ 2 + kn ^ 2 * muP * e)) atTop (𝓝 0) :=
      Tendsto.div_atTop tendsto_const_nhds hs
    have h2 := (h1.sub_const M.mu).div (h1.add_const M.mu) (by rw [zero_add]; exact hM.2.ne')
    rw [zero_sub, zero_add, neg_div, div_self hM.2.ne'] at h2
    refine h2.congr' ?_
    filter_upwards [eventually_gt_atTop 0] with e he
    rw [(hform e he).1]
    have : 0 < Real.sqrt (kperp ^ 2 + kn ^ 2 * muP * e) := Real.sqrt_pos.2 (by positivity)
    simp only [Pi.div_apply]
    have h3 := mul_pos hM.2 this
    have h4 := mul_pos hmu s1
    have : muP * a + M.mu * Real.sqrt (kperp ^ 2 + kn ^ 2 * muP * e) ≠ 0 := by linarith
    field_simp
  · have h1 : Tendsto (fun e : ℝ => M.eps * (Real.sqrt (kperp ^ 2 + kn ^ 2 * muP * e) / e)) atTop (𝓝 (M.eps * 0)) :=
      hq.const_mul _
    rw [mul_zero] at h1
    have h2 := (h1.const_sub a).div (h1.const_add a) (by rw [add_zero]; exact s1.ne')
    rw [sub_zero, add_zero, div_self s1.ne'] at h2
    refine h2.congr' ?_
    filter_upwards [eventually_gt_atTop 0] with e he
    rw [(hform e he).2]
    simp only [Pi.div_apply]
    field_simp

/-- The hypotheses of C50 are met, with non-trivial coefficients: eps = 4 against vacuum at normal incidence gives
TM = 1/3. -/
example : fresnelCore ⟨4, 1⟩ ⟨1, 1⟩ 0 1 = .ok (-(1 / 3), 1 / 3) := by
  have h4 : Real.sqrt 4 = 2 := by rw [show (4 : ℝ) = 2 ^ 2 by norm_num]; exact Real.sqrt_sq (by norm_num)
  unfold fresnelCore Medium.n
  simp only
  norm_num [cdiv, h4, ok_bind]

end CasSph
