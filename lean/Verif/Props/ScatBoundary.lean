import Verif.Lemmas.Layers

/-! # C79, C80: the coefficients solve the boundary value problem, bounds -/

namespace CasSph

open Spec

/-- the layer formed by a medium, for TE and for TM waves -/
noncomputable def Medium.te (a : Medium) (k : ℝ) : Layer := ⟨k * a.n, a.mu⟩
noncomputable def Medium.tm (a : Medium) (k : ℝ) : Layer := ⟨k * a.n, a.eps⟩

theorem Medium.te_pos {a : Medium} (ha : a.Pos) {k : ℝ} (hk : 0 < k) : (a.te k).Pos := ⟨mul_pos hk (a.n_pos ha), ha.2⟩
theorem Medium.tm_pos {a : Medium} (ha : a.Pos) {k : ℝ} (hk : 0 < k) : (a.tm k).Pos := ⟨mul_pos hk (a.n_pos ha), ha.1⟩

theorem grow_zero {l : ℕ} (hl : 1 ≤ l) {x : ℝ} (hx : 0 < x) : Grow l x 0 := by
  have := sphI_pos l hx
  have := mul_pos (idX_pos hl hx) (sphI_pos l hx)
  constructor <;> linarith

theorem ampNext_zero {l : ℕ} {a b : Layer} (ha : a.Pos) {r : ℝ} (hr : 0 < r) :
    ampNext l a b r 0 = (b.w * idX l (a.q * r) - a.w * idX l (b.q * r)) /
      (b.w * idX l (a.q * r) - a.w * kdX l (b.q * r)) * (sphI l (b.q * r) / sphK l (b.q * r)) := by
  have hi := sphI_pos l (mul_pos ha.q hr)
  unfold ampNext
  have e1 : b.w * (idX l (a.q * r) * sphI l (a.q * r) - 0 * (kdX l (a.q * r) * sphK l (a.q * r))) -
    a.w * (sphI l (a.q * r) - 0 * sphK l (a.q * r)) * idX l (b.q * r) =
    (b.w * idX l (a.q * r) - a.w * idX l (b.q * r)) * sphI l (a.q * r) := by ring
  have e2 : b.w * (idX l (a.q * r) * sphI l (a.q * r) - 0 * (kdX l (a.q * r) * sphK l (a.q * r))) -
    a.w * (sphI l (a.q * r) - 0 * sphK l (a.q * r)) * kdX l (b.q * r) =
    (b.w * idX l (a.q * r) - a.w * kdX l (b.q * r)) * sphI l (a.q * r) := by ring
  rw [e1, e2, mul_div_mul_right _ _ hi.ne']

theorem exactBes_exp {l : ℕ} {x : ℝ} (hx : 0 < x) :
    Real.exp ((exactBes l x).i1 - (exactBes l x).k1) = sphI l x / sphK l x := by
  simp only [exactBes]
  rw [Real.exp_sub, Real.exp_log (sphI_pos l hx), Real.exp_log (sphK_pos l hx)]

theorem exactBes_exp' {l : ℕ} {x : ℝ} (hx : 0 < x) :
    Real.exp ((exactBes l x).k1 - (exactBes l x).i1) = sphK l x / sphI l x := by
  simp only [exactBes]
  rw [Real.exp_sub, Real.exp_log (sphI_pos l hx), Real.exp_log (sphK_pos l hx)]

/-- `mie` for two penetrable media -/
theorem mie_exact {l : ℕ} (hl : 1 ≤ l) {m1 m2 : Material} (hm1 : m1.cls ≠ .pec) {k r : ℝ} (hk : 0 < k) (hr : 0 < r)
    {a b : Medium} (ha : m1.medium k = .ok a) (hb : m2.medium k = .ok b) (hap : a.Pos) (hbp : b.Pos) :
    ∃ v, mie exactBes exactBes m1 m2 l k r = .ok v ∧
      v.TE * Real.exp v.ln = (-1) ^ l * (Real.pi / 2) * ampNext l (a.te k) (b.te k) r 0 ∧
      v.TM * Real.exp v.ln = (-1) ^ l * (Real.pi / 2) * ampNext l (a.tm k) (b.tm k) r 0 := by
  have hxa : 0 < k * r * a.n := mul_pos (mul_pos hk hr) (a.n_pos hap)
  have hxb : 0 < k * r * b.n := mul_pos (mul_pos hk hr) (b.n_pos hbp)
  have ea : k * a.n * r = k * r * a.n := by ring
  have eb : k * b.n * r = k * r * b.n := by ring
  have hid : 0 < idT l (k * r * a.n) (exactBes l (k * r * a.n)) := idT_pos (exactBes_ok hl hxa)
  rw [mie_diel hm1 ha hb, mieCore_ok hap hbp hid (kdT_neg hl hxb _)]
  refine ⟨_, rfl, ?_, ?_⟩
  · rw [ampNext_zero (a.te_pos hap hk) hr]
    simp only [Medium.te]
    rw [exactBes_exp hxb, idT_exact hl hxa, idT_exact hl hxb, kdT_exact hxb, ea, eb]
    ring
  · rw [ampNext_zero (a.tm_pos hap hk) hr]
    simp only [Medium.tm]
    rw [exactBes_exp hxb, idT_exact hl hxa, idT_exact hl hxb, kdT_exact hxb, ea, eb]
    ring

/-- the amplitudes excited by a perfectly conducting core -/
noncomputable def ampPecTE (l : ℕ) (b : Layer) (r : ℝ) : ℝ := sphI l (b.q * r) / sphK l (b.q * r)
noncomputable def ampPecTM (l : ℕ) (b : Layer) (r : ℝ) : ℝ :=
  idX l (b.q * r) / kdX l (b.q * r) * (sphI l (b.q * r) / sphK l (b.q * r))

theorem grow_pecTE {l : ℕ} (hl : 1 ≤ l) {b : Layer} (hb : b.Pos) {r : ℝ} (hr : 0 < r) :
    Grow l (b.q * r) (ampPecTE l b r) := by
  have hx := mul_pos hb.q hr
  have hi := sphI_pos l hx
  have hk := (sphK_pos l hx).ne'
  have h1 := idX_pos hl hx
  have h2 := kdX_neg hl hx
  unfold Grow ampPecTE
  constructor
  · rw [div_mul_cancel₀ _ hk]
  · rw [show sphI l (b.q * r) / sphK l (b.q * r) * (kdX l (b.q * r) * sphK l (b.q * r)) =
      kdX l (b.q * r) * sphI l (b.q * r) by field_simp]
    nlinarith

theorem grow_pecTM {l : ℕ} (hl : 1 ≤ l) {b : Layer} (hb : b.Pos) {r : ℝ} (hr : 0 < r) :
    Grow l (b.q * r) (ampPecTM l b r) := by
  have hx := mul_pos hb.q hr
  have hi := sphI_pos l hx
  have hk := (sphK_pos l hx).ne'
  have h1 := idX_pos hl hx
  have h2 := kdX_neg hl hx
  have h2' := h2.ne
  unfold Grow ampPecTM
  constructor
  · rw [mul_assoc, div_mul_cancel₀ _ hk]
    have : idX l (b.q * r) / kdX l (b.q * r) < 0 := div_neg_of_pos_of_neg h1 h2
    nlinarith
  · apply le_of_eq
    field_simp

theorem mie_pec_exact {l : ℕ} (hl : 1 ≤ l) {m1 m2 : Material} (hm1 : m1.cls = .pec) {k r : ℝ} (hk : 0 < k) (hr : 0 < r)
    {b : Medium} (hb : m2.medium k = .ok b) (hbp : b.Pos) :
    ∃ v, mie exactBes exactBes m1 m2 l k r = .ok v ∧
      v.TE * Real.exp v.ln = (-1) ^ l * (Real.pi / 2) * ampPecTE l (b.te k) r ∧
      v.TM * Real.exp v.ln = (-1) ^ l * (Real.pi / 2) * ampPecTM l (b.tm k) r := by
  have hxb : 0 < k * r * b.n := mul_pos (mul_pos hk hr) (b.n_pos hbp)
  have eb : k * b.n * r = k * r * b.n := by ring
  rw [mie_pec hm1 hb, miePECCore_ok (kdT_neg hl hxb _)]
  refine ⟨_, rfl, ?_, ?_⟩
  · simp only [Medium.te, ampPecTE]
    rw [exactBes_exp hxb, eb]
    ring
  · simp only [Medium.tm, ampPecTM]
    rw [exactBes_exp hxb, idT_exact hl hxb, kdT_exact hxb, eb]
    ring

theorem scatAmp_one {l : ℕ} (hl : 1 ≤ l) {a b : Layer} (ha : a.Pos) (hb : b.Pos) {r : ℝ} (hr : 0 < r) (t : ℝ) :
    ScatAmp l a [(r, b)] t ↔ t = ampNext l a b r 0 := by
  have h0 := grow_zero hl (mul_pos ha.q hr)
  constructor
  · rintro ⟨A, A1, B1, hm, rfl, rfl⟩
    have := matched_amp hl ha hb hr h0 (A := A) (by simpa using hm)
    linarith
  · rintro rfl
    obtain ⟨A, hA⟩ := matched_exists hl ha hb hr h0 1
    exact ⟨A, 1, _, by simpa using hA, rfl, rfl⟩

theorem pecTE_iff {l : ℕ} {b : Layer} (hb : b.Pos) {r : ℝ} (hr : 0 < r) (A B : ℝ) :
    radial l b.q A B r = 0 ↔ B = -(ampPecTE l b r) * A := by
  have hk := (sphK_pos l (mul_pos hb.q hr)).ne'
  unfold radial ampPecTE
  constructor
  · intro h
    field_simp
    linarith
  · rintro rfl
    field_simp
    ring

theorem pecTM_iff {l : ℕ} (hl : 1 ≤ l) {b : Layer} (hb : b.Pos) {r : ℝ} (hr : 0 < r) (A B : ℝ) :
    deriv (fun s => s * radial l b.q A B s) r = 0 ↔ B = -(ampPecTM l b r) * A := by
  have hk := (sphK_pos l (mul_pos hb.q hr)).ne'
  have hd := (kdX_neg hl (mul_pos hb.q hr)).ne
  rw [radial_deriv hl hb.q hr]
  unfold ampPecTM
  constructor
  · intro h
    field_simp
    linarith
  · rintro rfl
    field_simp
    ring

theorem unscale_iff {l : ℕ} {c t0 t : ℝ} (h : c = (-1) ^ l * (Real.pi / 2) * t0) :
    t = t0 ↔ (-1) ^ l * (Real.pi / 2) * t = c := by
  rw [h]
  have h0 : (-1 : ℝ) ^ l * (Real.pi / 2) ≠ 0 := mul_ne_zero (pow_ne_zero _ (by norm_num)) (by positivity)
  constructor
  · rintro rfl; rfl
  · intro h; exact mul_left_cancel₀ h0 h

/-- C79: the coefficients of `mie` are, up to the factor `(-1)^l π/2`, the one solution of the boundary value problem. -/
theorem C79_mie {l : ℕ} (hl : 1 ≤ l) {m1 m2 : Material} (hm1 : m1.cls ≠ .pec) (hm2 : m2.cls ≠ .pec) (h1 : m1.Physical)
    (h2 : m2.Physical) {k r : ℝ} (hk : 0 < k) (hr : 0 < r) :
    ∃ a b v, m1.medium k = .ok a ∧ m2.medium k = .ok b ∧ mie exactBes exactBes m1 m2 l k r = .ok v ∧
      (∀ t, ScatAmp l ⟨k * a.n, a.mu⟩ [(r, ⟨k * b.n, b.mu⟩)] t ↔ (-1) ^ l * (Real.pi / 2) * t = v.TE * Real.exp v.ln) ∧
      (∀ t, ScatAmp l ⟨k * a.n, a.eps⟩ [(r, ⟨k * b.n, b.eps⟩)] t ↔
        (-1) ^ l * (Real.pi / 2) * t = v.TM * Real.exp v.ln) := by
  obtain ⟨a, ha, hap⟩ := medium_pos hm1 h1 hk
  obtain ⟨b, hb, hbp⟩ := medium_pos hm2 h2 hk
  obtain ⟨v, hv, e1, e2⟩ := mie_exact hl hm1 hk hr ha hb hap hbp
  refine ⟨a, b, v, ha, hb, hv, fun t => ?_, fun t => ?_⟩
  · rw [← unscale_iff e1]; exact scatAmp_one hl (a.te_pos hap hk) (b.te_pos hbp hk) hr t
  · rw [← unscale_iff e2]; exact scatAmp_one hl (a.tm_pos hap hk) (b.tm_pos hbp hk) hr t

/-- C79 for a perfectly conducting sphere. -/
theorem C79_mie_pec {l : ℕ} (hl : 1 ≤ l) {m1 m2 : Material} (hm1 : m1.cls = .pec) (hm2 : m2.cls ≠ .pec)
    (h2 : m2.Physical) {k r : ℝ} (hk : 0 < k) (hr : 0 < r) :
    ∃ b v, m2.medium k = .ok b ∧ mie exactBes exactBes m1 m2 l k r = .ok v ∧
      (∀ t, ScatAmpPecTE l r ⟨k * b.n, b.mu⟩ [] t ↔ (-1) ^ l * (Real.pi / 2) * t = v.TE * Real.exp v.ln) ∧
      (∀ t, ScatAmpPecTM l r ⟨k * b.n, b.eps⟩ [] t ↔ (-1) ^ l * (Real.pi / 2) * t = v.TM * Real.exp v.ln) := by
  obtain ⟨b, hb, hbp⟩ := medium_pos hm2 h2 hk
  obtain ⟨v, hv, e1, e2⟩ := mie_pec_exact hl hm1 hk hr hb hbp
  refine ⟨b, v, hb, hv, fun t => ?_, fun t => ?_⟩
  · rw [← unscale_iff e1]
    constructor
    · rintro ⟨A, B, h, rfl, rfl⟩
      have := (pecTE_iff (b.te_pos hbp hk) hr 1 (-t)).1 h
      linarith
    · rintro rfl
      exact ⟨1, _, (pecTE_iff (b.te_pos hbp hk) hr 1 _).2 (mul_one _).symm, rfl, rfl⟩
  · rw [← unscale_iff e2]
    constructor
    · rintro ⟨A, B, h, rfl, rfl⟩
      have := (pecTM_iff hl (b.tm_pos hbp hk) hr 1 (-t)).1 h
      linarith
    · rintro rfl
      exact ⟨1, _, (pecTM_iff hl (b.tm_pos hbp hk) hr 1 _).2 (mul_one _).symm, rfl, rfl⟩

theorem cavity_iff {l : ℕ} (hl : 1 ≤ l) {a b : Layer} (ha : a.Pos) (hb : b.Pos) {r : ℝ} (hr : 0 < r) (t : ℝ) :
    CavityAmp l a b r t ↔ t = (b.w * kdX l (a.q * r) - a.w * kdX l (b.q * r)) /
      (b.w * idX l (a.q * r) - a.w * kdX l (b.q * r)) * (sphK l (a.q * r) / sphI l (a.q * r)) := by
  have hx := mul_pos ha.q hr
  have hy := mul_pos hb.q hr
  have hi := (sphI_pos l hx).ne'
  have hk := (sphK_pos l hy).ne'
  have hD := (mieDen_pos ha.w hb.w (idX_pos hl hx) (kdX_neg hl hy)).ne'
  unfold CavityAmp
  simp only [matched_iff hl ha hb hr]
  generalize idX l (a.q * r) = Ia at *
  generalize kdX l (a.q * r) = Ka at *
  generalize kdX l (b.q * r) = Kb at *
  generalize sphI l (a.q * r) = i at *
  generalize sphK l (b.q * r) = kb at *
  generalize sphK l (a.q * r) = ka at *
  constructor
  · rintro ⟨B, e1, e2⟩
    rw [div_mul_div_comm, eq_div_iff (mul_ne_zero hD hi)]
    linear_combination -e2 + a.w * Kb * e1
  · rintro rfl
    obtain ⟨D, hDe⟩ : ∃ D, D = b.w * Ia - a.w * Kb := ⟨_, rfl⟩
    rw [← hDe] at hD ⊢
    refine ⟨(-((b.w * Ka - a.w * Kb) / D * (ka / i)) * i + 1 * ka) / kb, ?_, ?_⟩
    · field_simp
      ring
    · field_simp
      rw [hDe]
      ring

/-- C79 for `mie_internal`: the coefficients are, up to the factor `(-1)^l 2/π`, the one solution for a source inside the
cavity. -/
theorem C79_internal {l : ℕ} (hl : 1 ≤ l) {m1 m2 : Material} (hm1 : m1.cls ≠ .pec) (hm2 : m2.cls ≠ .pec)
    (h1 : m1.Physical) (h2 : m2.Physical) {k r : ℝ} (hk : 0 < k) (hr : 0 < r) :
    ∃ a b v, m1.medium k = .ok a ∧ m2.medium k = .ok b ∧ mieInternal exactBes exactBes m1 m2 l k r = .ok v ∧
      (∀ t, CavityAmp l ⟨k * a.n, a.mu⟩ ⟨k * b.n, b.mu⟩ r t ↔ (-1) ^ l * 2 / Real.pi * t = v.TE * Real.exp v.ln) ∧
      (∀ t, CavityAmp l ⟨k * a.n, a.eps⟩ ⟨k * b.n, b.eps⟩ r t ↔
        (-1) ^ l * 2 / Real.pi * t = v.TM * Real.exp v.ln) := by
  obtain ⟨a, ha, hap⟩ := medium_pos hm1 h1 hk
  obtain ⟨b, hb, hbp⟩ := medium_pos hm2 h2 hk
  have hxa : 0 < k * r * a.n := mul_pos (mul_pos hk hr) (a.n_pos hap)
  have hxb : 0 < k * r * b.n := mul_pos (mul_pos hk hr) (b.n_pos hbp)
  have ea : k * a.n * r = k * r * a.n := by ring
  have eb : k * b.n * r = k * r * b.n := by ring
  have hid : 0 < idT l (k * r * a.n) (exactBes l (k * r * a.n)) := idT_pos (exactBes_ok hl hxa)
  have hpi := Real.pi_pos.ne'
  have h0 : (-1 : ℝ) ^ l * 2 / Real.pi ≠ 0 := div_ne_zero (mul_ne_zero (pow_ne_zero _ (by norm_num)) two_ne_zero) hpi
  have un : ∀ t t0 c : ℝ, c = (-1) ^ l * 2 / Real.pi * t0 → (t = t0 ↔ (-1) ^ l * 2 / Real.pi * t = c) := by
    rintro t t0 c rfl
    exact ⟨by rintro rfl; rfl, fun h => mul_left_cancel₀ h0 h⟩
  have hv := mieInternal_diel (Ti := exactBes) (Te := exactBes) (l := l) (r := r) hm2 ha hb
  rw [mieIntCore_ok hap hbp hid (kdT_neg hl hxb _)] at hv
  refine ⟨a, b, _, ha, hb, hv, fun t => ?_, fun t => ?_⟩
  · refine (cavity_iff hl (a.te_pos hap hk) (b.te_pos hbp hk) hr t).trans (un _ _ _ ?_)
    simp only [Medium.te]
    rw [exactBes_exp' hxa, idT_exact hl hxa, kdT_exact hxa, kdT_exact hxb, ea, eb]
    ring
  · refine (cavity_iff hl (a.tm_pos hap hk) (b.tm_pos hbp hk) hr t).trans (un _ _ _ ?_)
    simp only [Medium.tm]
    rw [exactBes_exp' hxa, idT_exact hl hxa, kdT_exact hxa, kdT_exact hxb, ea, eb]
    ring

/-- C79 for a perfectly conducting cavity. -/
theorem C79_internal_pec {l : ℕ} (hl : 1 ≤ l) {m1 m2 : Material} (hm1 : m1.cls ≠ .pec) (hm2 : m2.cls = .pec)
    (h1 : m1.Physical) {k r : ℝ} (hk : 0 < k) (hr : 0 < r) :
    ∃ a v, m1.medium k = .ok a ∧ mieInternal exactBes exactBes m1 m2 l k r = .ok v ∧
      (∀ t, CavityAmpPecTE l ⟨k * a.n, a.mu⟩ r t ↔ (-1) ^ l * 2 / Real.pi * t = v.TE * Real.exp v.ln) ∧
      (∀ t, CavityAmpPecTM l ⟨k * a.n, a.eps⟩ r t ↔ (-1) ^ l * 2 / Real.pi * t = v.TM * Real.exp v.ln) := by
  obtain ⟨a, ha, hap⟩ := medium_pos hm1 h1 hk
  have hxa : 0 < k * r * a.n := mul_pos (mul_pos hk hr) (a.n_pos hap)
  have ea : k * a.n * r = k * r * a.n := by ring
  have hid : 0 < idT l (k * r * a.n) (exactBes l (k * r * a.n)) := idT_pos (exactBes_ok hl hxa)
  have hpi := Real.pi_pos.ne'
  have h0 : (-1 : ℝ) ^ l * 2 / Real.pi ≠ 0 := div_ne_zero (mul_ne_zero (pow_ne_zero _ (by norm_num)) two_ne_zero) hpi
  have un : ∀ t t0 c : ℝ, c = (-1) ^ l * 2 / Real.pi * t0 → (t = t0 ↔ (-1) ^ l * 2 / Real.pi * t = c) := by
    rintro t t0 c rfl
    exact ⟨by rintro rfl; rfl, fun h => mul_left_cancel₀ h0 h⟩
  have hv := mieInternal_pec (Ti := exactBes) (Te := exactBes) (l := l) (r := r) hm2 ha
  rw [miePECIntCore_ok hid] at hv
  have hi := (sphI_pos l hxa).ne'
  have hI := (idX_pos hl hxa).ne'
  refine ⟨a, _, ha, hv, fun t => ?_, fun t => ?_⟩
  · refine Iff.trans ?_ (un t (sphK l (k * r * a.n) / sphI l (k * r * a.n)) _ ?_)
    · unfold CavityAmpPecTE radial
      simp only
      rw [ea, eq_div_iff hi]
      constructor <;> intro h <;> linarith
    · simp only
      rw [exactBes_exp' hxa]
  · refine Iff.trans ?_ (un t (kdX l (k * r * a.n) * sphK l (k * r * a.n) / (idX l (k * r * a.n) * sphI l (k * r * a.n)))
      _ ?_)
    · unfold CavityAmpPecTM
      simp only
      rw [radial_deriv hl (mul_pos hk (a.n_pos hap)) hr, ea, eq_div_iff (mul_ne_zero hI hi)]
      constructor <;> intro h <;> linarith
    · simp only
      rw [exactBes_exp' hxa, idT_exact hl hxa, kdT_exact hxa]
      field_simp

/-- C79 applies to gold in water. -/
example (k : ℝ) (hk : 0 < k) :
    ∃ a b v, (⟨.lorentz, eGold, none⟩ : Material).medium k = .ok a ∧ (⟨.lorentz, eWater, none⟩ : Material).medium k = .ok b ∧
      mie exactBes exactBes ⟨.lorentz, eGold, none⟩ ⟨.lorentz, eWater, none⟩ 1 k 2 = .ok v ∧
      (∀ t, ScatAmp 1 ⟨k * a.n, a.mu⟩ [(2, ⟨k * b.n, b.mu⟩)] t ↔ (-1) ^ 1 * (Real.pi / 2) * t = v.TE * Real.exp v.ln) ∧
      (∀ t, ScatAmp 1 ⟨k * a.n, a.eps⟩ [(2, ⟨k * b.n, b.eps⟩)] t ↔
        (-1) ^ 1 * (Real.pi / 2) * t = v.TM * Real.exp v.ln) := by
  refine C79_mie le_rfl (by simp) (by simp) ⟨?_, by simp, by simp⟩ ⟨?_, by simp, by simp⟩ hk two_pos
  · norm_num [eGold]
  · norm_num [eWater]

/-! ## C80 -/

/-- C80: the coefficients of a penetrable sphere lie strictly between those of a perfectly conducting sphere of the same
size: with the sign `(-1)^l` taken out, below the TE coefficient and above the TM coefficient of the conductor, for both
polarisations; the scaling is the same. -/
theorem C80_bounds {l : ℕ} (hl : 1 ≤ l) {m1 m2 P : Material} (hm1 : m1.cls ≠ .pec) (hm2 : m2.cls ≠ .pec)
    (hP : P.cls = .pec) (h1 : m1.Physical) (h2 : m2.Physical) {k r : ℝ} (hk : 0 < k) (hr : 0 < r) :
    ∃ v p, mie exactBes exactBes m1 m2 l k r = .ok v ∧ mie exactBes exactBes P m2 l k r = .ok p ∧ v.ln = p.ln ∧
      (-1) ^ l * p.TM < (-1) ^ l * v.TE ∧ (-1) ^ l * v.TE < (-1) ^ l * p.TE ∧
      (-1) ^ l * p.TM < (-1) ^ l * v.TM ∧ (-1) ^ l * v.TM < (-1) ^ l * p.TE ∧
      (-1) ^ l * p.TM < 0 ∧ 0 < (-1) ^ l * p.TE := by
  obtain ⟨a, ha, hap⟩ := medium_pos hm1 h1 hk
  obtain ⟨b, hb, hbp⟩ := medium_pos hm2 h2 hk
  have hxa : 0 < k * r * a.n := mul_pos (mul_pos hk hr) (a.n_pos hap)
  have hxb : 0 < k * r * b.n := mul_pos (mul_pos hk hr) (b.n_pos hbp)
  have hid : 0 < idT l (k * r * a.n) (exactBes l (k * r * a.n)) := idT_pos (exactBes_ok hl hxa)
  have hid' : 0 < idT l (k * r * b.n) (exactBes l (k * r * b.n)) := idT_pos (exactBes_ok hl hxb)
  have hkd := kdT_neg hl hxb (exactBes l (k * r * b.n))
  rw [mie_diel hm1 ha hb, mieCore_ok hap hbp hid hkd, mie_pec hP hb, miePECCore_ok hkd]
  refine ⟨_, _, rfl, rfl, rfl, ?_⟩
  simp only
  generalize idT l (k * r * a.n) (exactBes l (k * r * a.n)) = I at *
  generalize idT l (k * r * b.n) (exactBes l (k * r * b.n)) = J at *
  generalize kdT l (k * r * b.n) (exactBes l (k * r * b.n)) = K at *
  have s2 : ((-1 : ℝ) ^ l) * (-1) ^ l = 1 := by rw [← mul_pow]; norm_num
  have hpi : 0 < Real.pi * 0.5 := by have := Real.pi_pos; linarith
  have e1 : ∀ x : ℝ, (-1) ^ l * (x * ((-1) ^ l * Real.pi * 0.5)) = x * (Real.pi * 0.5) := by
    intro x; linear_combination x * Real.pi * 0.5 * s2
  have e2 : ((-1 : ℝ)) ^ l * ((-1) ^ l * Real.pi * 0.5 * J / K) = J / K * (Real.pi * 0.5) := by
    rw [show ((-1 : ℝ)) ^ l * ((-1) ^ l * Real.pi * 0.5 * J / K) = (-1) ^ l * (J / K * ((-1) ^ l * Real.pi * 0.5)) by ring,
      e1]
  have e3 : ((-1 : ℝ)) ^ l * ((-1) ^ l * Real.pi * 0.5) = 1 * (Real.pi * 0.5) := by
    linear_combination Real.pi * 0.5 * s2
  rw [e1, e1, e2, e3]
  have up : ∀ wi we : ℝ, 0 < wi → 0 < we → (we * I - wi * J) / (we * I - wi * K) < 1 := by
    intro wi we h1 h2
    rw [div_lt_one (mieDen_pos h1 h2 hid hkd)]
    nlinarith
  have lo : ∀ wi we : ℝ, 0 < wi → 0 < we → J / K < (we * I - wi * J) / (we * I - wi * K) := by
    intro wi we h1 h2
    rw [lt_div_iff₀ (mieDen_pos h1 h2 hid hkd), div_mul_eq_mul_div, div_lt_iff_of_neg hkd]
    have : 0 < we * I * (J - K) := mul_pos (mul_pos h2 hid) (by linarith)
    nlinarith
  have neg : J / K < 0 := div_neg_of_pos_of_neg hid' hkd
  have m := fun {x y : ℝ} (h : x < y) => mul_lt_mul_of_pos_right h hpi
  refine ⟨m (lo _ _ hap.2 hbp.2), m (up _ _ hap.2 hbp.2), m (lo _ _ hap.1 hbp.1), m (up _ _ hap.1 hbp.1), ?_, ?_⟩
  · exact mul_neg_of_neg_of_pos neg hpi
  · linarith

/-- C80 applies to gold in water. -/
example (k : ℝ) (hk : 0 < k) :
    ∃ v p, mie exactBes exactBes ⟨.lorentz, eGold, none⟩ ⟨.lorentz, eWater, none⟩ 2 k 1 = .ok v ∧
      mie exactBes exactBes ⟨.pec, [], none⟩ ⟨.lorentz, eWater, none⟩ 2 k 1 = .ok p ∧ v.ln = p.ln ∧
      (-1) ^ 2 * p.TM < (-1) ^ 2 * v.TE ∧ (-1) ^ 2 * v.TE < (-1) ^ 2 * p.TE ∧
      (-1) ^ 2 * p.TM < (-1) ^ 2 * v.TM ∧ (-1) ^ 2 * v.TM < (-1) ^ 2 * p.TE ∧
      (-1) ^ 2 * p.TM < 0 ∧ 0 < (-1) ^ 2 * p.TE := by
  refine C80_bounds one_le_two (by simp) (by simp) rfl ⟨?_, by simp, by simp⟩ ⟨?_, by simp, by simp⟩ hk one_pos
  · norm_num [eGold]
  · norm_num [eWater]

/-- C80 for cavities. -/
theorem C80_internal {l : ℕ} (hl : 1 ≤ l) {m1 m2 P : Material} (hm1 : m1.cls ≠ .pec) (hm2 : m2.cls ≠ .pec)
    (hP : P.cls = .pec) (h1 : m1.Physical) (h2 : m2.Physical) {k r : ℝ} (hk : 0 < k) (hr : 0 < r) :
    ∃ v p, mieInternal exactBes exactBes m1 m2 l k r = .ok v ∧ mieInternal exactBes exactBes m1 P l k r = .ok p ∧
      v.ln = p.ln ∧
      (-1) ^ l * p.TM < (-1) ^ l * v.TE ∧ (-1) ^ l * v.TE < (-1) ^ l * p.TE ∧
      (-1) ^ l * p.TM < (-1) ^ l * v.TM ∧ (-1) ^ l * v.TM < (-1) ^ l * p.TE ∧
      (-1) ^ l * p.TM < 0 ∧ 0 < (-1) ^ l * p.TE := by
  obtain ⟨a, ha, hap⟩ := medium_pos hm1 h1 hk
  obtain ⟨b, hb, hbp⟩ := medium_pos hm2 h2 hk
  have hxa : 0 < k * r * a.n := mul_pos (mul_pos hk hr) (a.n_pos hap)
  have hxb : 0 < k * r * b.n := mul_pos (mul_pos hk hr) (b.n_pos hbp)
  have hid : 0 < idT l (k * r * a.n) (exactBes l (k * r * a.n)) := idT_pos (exactBes_ok hl hxa)
  have hkd := kdT_neg hl hxb (exactBes l (k * r * b.n))
  have hkd' := kdT_neg hl hxa (exactBes l (k * r * a.n))
  rw [mieInternal_diel hm2 ha hb, mieIntCore_ok hap hbp hid hkd, mieInternal_pec hP ha, miePECIntCore_ok hid]
  refine ⟨_, _, rfl, rfl, rfl, ?_⟩
  simp only
  generalize idT l (k * r * a.n) (exactBes l (k * r * a.n)) = I at *
  generalize kdT l (k * r * a.n) (exactBes l (k * r * a.n)) = J at *
  generalize kdT l (k * r * b.n) (exactBes l (k * r * b.n)) = K at *
  have s2 : ((-1 : ℝ) ^ l) * (-1) ^ l = 1 := by rw [← mul_pow]; norm_num
  have hpi : 0 < 2 / Real.pi := by have := Real.pi_pos; positivity
  have e1 : ∀ x : ℝ, (-1) ^ l * (x * ((-1) ^ l * 2 / Real.pi)) = x * (2 / Real.pi) := by
    intro x; rw [mul_div_assoc]; linear_combination x * (2 / Real.pi) * s2
  have e2 : ((-1 : ℝ)) ^ l * ((-1) ^ l * 2 / Real.pi * (J / I)) = J / I * (2 / Real.pi) := by
    rw [mul_comm _ (J / I), e1]
  have e3 : ((-1 : ℝ)) ^ l * ((-1) ^ l * 2 / Real.pi) = 1 * (2 / Real.pi) := by
    rw [mul_div_assoc]; linear_combination 2 / Real.pi * s2
  rw [e1, e1, e2, e3]
  have up : ∀ wi we : ℝ, 0 < wi → 0 < we → (we * J - wi * K) / (we * I - wi * K) < 1 := by
    intro wi we h1 h2
    rw [div_lt_one (mieDen_pos h1 h2 hid hkd)]
    nlinarith
  have lo : ∀ wi we : ℝ, 0 < wi → 0 < we → J / I < (we * J - wi * K) / (we * I - wi * K) := by
    intro wi we h1 h2
    rw [div_lt_div_iff₀ hid (mieDen_pos h1 h2 hid hkd)]
    have : 0 < wi * (-K) * (I - J) := mul_pos (mul_pos h1 (by linarith)) (by linarith)
    nlinarith
  have neg : J / I < 0 := div_neg_of_neg_of_pos hkd' hid
  have m := fun {x y : ℝ} (h : x < y) => mul_lt_mul_of_pos_right h hpi
  refine ⟨m (lo _ _ hap.2 hbp.2), m (up _ _ hap.2 hbp.2), m (lo _ _ hap.1 hbp.1), m (up _ _ hap.1 hbp.1), ?_, ?_⟩
  · exact mul_neg_of_neg_of_pos neg hpi
  · linarith

end CasSph
