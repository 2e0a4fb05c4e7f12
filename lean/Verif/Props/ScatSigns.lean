import Verif.Props.ScatBoundary

/-! # C83: signs of the Mie coefficients -/

namespace CasSph

open Spec

/-- `(x i_l)'/(x² i_l)` decreases -/
theorem idX_sq_anti {l : ℕ} (hl : 1 ≤ l) {x y : ℝ} (hx : 0 < x) (hxy : x < y) :
    idX l y / y ^ 2 < idX l x / x ^ 2 := by
  have hy := hx.trans hxy
  have e : ∀ z : ℝ, 0 < z → idX l z / z ^ 2 = (l + 1) / z ^ 2 + 1 / (z * (sphI l z / sphI (l + 1) z)) := by
    intro z hz
    have h1 := (sphI_pos l hz).ne'
    have h2 := (sphI_pos (l + 1) hz).ne'
    have hz' := hz.ne'
    unfold idX
    obtain ⟨l, rfl⟩ := Nat.exists_eq_add_of_le' hl
    have hr := sphI_rec' l z
    simp only [Nat.add_sub_cancel]
    push_cast
    field_simp
    linear_combination hr
  rw [e y hy, e x hx]
  have h1 : (l + 1 : ℝ) / y ^ 2 < (l + 1) / x ^ 2 := by
    apply div_lt_div_of_pos_left (by positivity) (by positivity)
    exact pow_lt_pow_left₀ hxy hx.le two_ne_zero
  have hp : 0 < x * (sphI l x / sphI (l + 1) x) := by
    have := sphI_pos l hx
    have := sphI_pos (l + 1) hx
    positivity
  have h2 := one_div_lt_one_div_of_lt hp (sphI_ratio_strictMono l hx hy hxy)
  linarith

theorem mie_num {l : ℕ} (hl : 1 ≤ l) {c w : ℝ} (hc : 0 < c) (hw : 0 < w) {u v : ℝ} (hu : 0 < u) (hv : 0 < v)
    (huv : v < u) :
    0 < w * idX l (c * Real.sqrt (u * w)) - w * idX l (c * Real.sqrt (v * w)) ∧
    v * idX l (c * Real.sqrt (u * w)) - u * idX l (c * Real.sqrt (v * w)) < 0 := by
  have hy : 0 < c * Real.sqrt (v * w) := mul_pos hc (Real.sqrt_pos.2 (mul_pos hv hw))
  have hxy : c * Real.sqrt (v * w) < c * Real.sqrt (u * w) :=
    mul_lt_mul_of_pos_left (Real.sqrt_lt_sqrt (mul_pos hv hw).le (mul_lt_mul_of_pos_right huv hw)) hc
  constructor
  · have := mul_lt_mul_of_pos_left (idX_strictMono hl hy hxy) hw
    linarith
  · have h := idX_sq_anti hl hy hxy
    rw [mul_pow, mul_pow, Real.sq_sqrt (mul_pos hv hw).le, Real.sq_sqrt (mul_pos hu hw).le,
      div_lt_div_iff₀ (by positivity) (by positivity)] at h
    have hc2 : 0 < c ^ 2 * w := by positivity
    by_contra hn
    push Not at hn
    nlinarith [mul_nonneg hc2.le hn]

theorem mie_sign_aux {l : ℕ} {N D : ℝ} (hD : 0 < D) :
    (0 < N → 0 < (-1) ^ l * (N / D * ((-1) ^ l * Real.pi * 0.5))) ∧
    (N < 0 → (-1) ^ l * (N / D * ((-1) ^ l * Real.pi * 0.5)) < 0) := by
  have s2 : ((-1 : ℝ) ^ l) * (-1) ^ l = 1 := by rw [← mul_pow]; norm_num
  have hpi : 0 < Real.pi * 0.5 := by have := Real.pi_pos; linarith
  have e : (-1) ^ l * (N / D * ((-1) ^ l * Real.pi * 0.5)) = N / D * (Real.pi * 0.5) := by
    linear_combination N / D * Real.pi * 0.5 * s2
  rw [e]
  exact ⟨fun h => mul_pos (div_pos h hD) hpi, fun h => mul_neg_of_neg_of_pos (div_neg_of_neg_of_pos h hD) hpi⟩

/-- C83: a sphere that is optically denser than the medium (same permeability) has a positive TE and a negative TM
coefficient, apart from the sign `(-1)^l`; a less dense sphere has the opposite signs. -/
theorem C83_dielectric {l : ℕ} (hl : 1 ≤ l) {m1 m2 : Material} (hm1 : m1.cls ≠ .pec) (hm2 : m2.cls ≠ .pec)
    (h1 : m1.Physical) (h2 : m2.Physical) {k r : ℝ} (hk : 0 < k) (hr : 0 < r) {a b : Medium}
    (ha : m1.medium k = .ok a) (hb : m2.medium k = .ok b) (hmu : a.mu = b.mu) :
    ∃ v, mie exactBes exactBes m1 m2 l k r = .ok v ∧
      (b.eps < a.eps → 0 < (-1) ^ l * v.TE ∧ (-1) ^ l * v.TM < 0) ∧
      (a.eps < b.eps → (-1) ^ l * v.TE < 0 ∧ 0 < (-1) ^ l * v.TM) := by
  have hap : a.Pos := by
    obtain ⟨a', ha', hap⟩ := medium_pos hm1 h1 hk
    rw [ha] at ha'
    cases ha'
    exact hap
  have hbp : b.Pos := by
    obtain ⟨a', ha', hap⟩ := medium_pos hm2 h2 hk
    rw [hb] at ha'
    cases ha'
    exact hap
  have hxa : 0 < k * r * a.n := mul_pos (mul_pos hk hr) (a.n_pos hap)
  have hxb : 0 < k * r * b.n := mul_pos (mul_pos hk hr) (b.n_pos hbp)
  have hid : 0 < idT l (k * r * a.n) (exactBes l (k * r * a.n)) := idT_pos (exactBes_ok hl hxa)
  have hkd := kdT_neg hl hxb (exactBes l (k * r * b.n))
  have d1 := mieDen_pos hap.2 hbp.2 hid hkd
  have d2 := mieDen_pos hap.1 hbp.1 hid hkd
  rw [mie_diel hm1 ha hb, mieCore_ok hap hbp hid hkd]
  refine ⟨_, rfl, ?_, ?_⟩
  · intro h
    obtain ⟨n1, n2⟩ := mie_num hl (mul_pos hk hr) hbp.2 hap.1 hbp.1 h
    simp only
    refine ⟨(mie_sign_aux d1).1 ?_, (mie_sign_aux d2).2 ?_⟩
    · rw [idT_exact hl hxa, idT_exact hl hxb, Medium.n, Medium.n, hmu]; exact n1
    · rw [idT_exact hl hxa, idT_exact hl hxb, Medium.n, Medium.n, hmu]; exact n2
  · intro h
    obtain ⟨n1, n2⟩ := mie_num hl (mul_pos hk hr) hbp.2 hbp.1 hap.1 h
    simp only
    refine ⟨(mie_sign_aux d1).2 ?_, (mie_sign_aux d2).1 ?_⟩
    · rw [idT_exact hl hxa, idT_exact hl hxb, Medium.n, Medium.n, hmu]; linarith
    · rw [idT_exact hl hxa, idT_exact hl hxb, Medium.n, Medium.n, hmu]; linarith

/-- C83 for magnetic contrast (same permittivity): the roles of TE and TM are exchanged. -/
theorem C83_magnetic {l : ℕ} (hl : 1 ≤ l) {m1 m2 : Material} (hm1 : m1.cls ≠ .pec) (hm2 : m2.cls ≠ .pec)
    (h1 : m1.Physical) (h2 : m2.Physical) {k r : ℝ} (hk : 0 < k) (hr : 0 < r) {a b : Medium}
    (ha : m1.medium k = .ok a) (hb : m2.medium k = .ok b) (heps : a.eps = b.eps) :
    ∃ v, mie exactBes exactBes m1 m2 l k r = .ok v ∧
      (b.mu < a.mu → (-1) ^ l * v.TE < 0 ∧ 0 < (-1) ^ l * v.TM) ∧
      (a.mu < b.mu → 0 < (-1) ^ l * v.TE ∧ (-1) ^ l * v.TM < 0) := by
  have hap : a.Pos := by
    obtain ⟨a', ha', hap⟩ := medium_pos hm1 h1 hk
    rw [ha] at ha'
    cases ha'
    exact hap
  have hbp : b.Pos := by
    obtain ⟨a', ha', hap⟩ := medium_pos hm2 h2 hk
    rw [hb] at ha'
    cases ha'
    exact hap
  have hxa : 0 < k * r * a.n := mul_pos (mul_pos hk hr) (a.n_pos hap)
  have hxb : 0 < k * r * b.n := mul_pos (mul_pos hk hr) (b.n_pos hbp)
  have hid : 0 < idT l (k * r * a.n) (exactBes l (k * r * a.n)) := idT_pos (exactBes_ok hl hxa)
  have hkd := kdT_neg hl hxb (exactBes l (k * r * b.n))
  have d1 := mieDen_pos hap.2 hbp.2 hid hkd
  have d2 := mieDen_pos hap.1 hbp.1 hid hkd
  rw [mie_diel hm1 ha hb, mieCore_ok hap hbp hid hkd]
  refine ⟨_, rfl, ?_, ?_⟩
  · intro h
    obtain ⟨n1, n2⟩ := mie_num hl (mul_pos hk hr) hbp.1 hap.2 hbp.2 h
    simp only
    refine ⟨(mie_sign_aux d1).2 ?_, (mie_sign_aux d2).1 ?_⟩
    · rw [idT_exact hl hxa, idT_exact hl hxb, Medium.n, Medium.n, heps, mul_comm b.eps a.mu, mul_comm b.eps b.mu]; exact n2
    · rw [idT_exact hl hxa, idT_exact hl hxb, Medium.n, Medium.n, heps, mul_comm b.eps a.mu, mul_comm b.eps b.mu]; exact n1
  · intro h
    obtain ⟨n1, n2⟩ := mie_num hl (mul_pos hk hr) hbp.1 hbp.2 hap.2 h
    simp only
    refine ⟨(mie_sign_aux d1).1 ?_, (mie_sign_aux d2).2 ?_⟩
    · rw [idT_exact hl hxa, idT_exact hl hxb, Medium.n, Medium.n, heps, mul_comm b.eps a.mu, mul_comm b.eps b.mu]
      linarith
    · rw [idT_exact hl hxa, idT_exact hl hxb, Medium.n, Medium.n, heps, mul_comm b.eps a.mu, mul_comm b.eps b.mu]
      linarith

/-- C83 applies to gold in vacuum: TE is positive and TM negative up to the sign `(-1)^l`. -/
theorem gold_vacuum {l : ℕ} (hl : 1 ≤ l) {k r : ℝ} (hk : 0 < k) (hr : 0 < r) :
    ∃ v, mie exactBes exactBes ⟨.lorentz, eGold, none⟩ ⟨.lorentz, [], none⟩ l k r = .ok v ∧
      0 < (-1) ^ l * v.TE ∧ (-1) ^ l * v.TM < 0 := by
  have h1 : (⟨.lorentz, eGold, none⟩ : Material).Physical := ⟨by norm_num [eGold], by simp, by simp⟩
  have h2 : (⟨.lorentz, [], none⟩ : Material).Physical := ⟨by simp, by simp, by simp⟩
  have m1 := medium_val (by simp) h1 hk
  have m2 := medium_val (by simp) h2 hk
  obtain ⟨v, hv, h, -⟩ := C83_dielectric hl (by simp) (by simp) h1 h2 hk hr m1.1 m2.1 rfl
  refine ⟨v, hv, h ?_⟩
  show (⟨.lorentz, [], none⟩ : Material).epsV k < (⟨.lorentz, eGold, none⟩ : Material).epsV k
  rw [epsV_lorentz rfl h1 hk, epsV_lorentz rfl h2 hk]
  have := omegaNorm_pos
  have hp : 0 < lorT k ⟨1.37e16, 0, 5.77e13⟩ := by
    unfold lorT
    positivity
  simpa [eGold] using hp

example : ∃ v, mie exactBes exactBes ⟨.lorentz, eGold, none⟩ ⟨.lorentz, [], none⟩ 2 1 3 = .ok v ∧
    0 < (-1) ^ 2 * v.TE ∧ (-1) ^ 2 * v.TM < 0 := gold_vacuum one_le_two one_pos three_pos

end CasSph
